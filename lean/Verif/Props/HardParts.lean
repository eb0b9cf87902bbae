import Verif.Props.PigeonRun

/-!
# C99: what contains a hard formula is hard

Runs of `solve()` are resolution proofs (C84).  A resolution proof stays one when some variables are fixed, renamed or identified, so
fixing, renaming or identifying variables cannot turn a formula that takes few conflicts into one that needs long refutations.
-/

namespace Starlit
namespace Resolution

/-- A substitution gives each literal a truth value or a literal. -/
inductive Image where
  | const (b : Bool)
  | lit (l : Lit)
deriving DecidableEq

/-- The negation. -/
def Image.neg : Image → Image
  | .const b => .const !b
  | .lit l => .lit l.neg

/-- Negations are mapped to negations. -/
def Substitution (τ : Lit → Image) : Prop := ∀ l, τ l.neg = (τ l).neg

/-- The clause becomes true: one of its literals does or two literals become complementary. -/
def Becomes (τ : Lit → Image) (C : Finset Lit) : Prop :=
  (∃ l ∈ C, τ l = .const true) ∨ ∃ x ∈ C, ∃ y ∈ C, ∃ m, τ x = .lit m ∧ τ y = .lit m.neg

/-- The image of the clause contains `R`. -/
def Contains (τ : Lit → Image) (C R : Finset Lit) : Prop := ∀ o ∈ R, ∃ l ∈ C, τ l = .lit o

/-- Every clause of `F` becomes true or contains a clause of `G`. -/
def Instance (τ : Lit → Image) (F G : List (List Lit)) : Prop := ∀ c ∈ F,
  Becomes τ c.toFinset ∨ ∃ d ∈ G, Contains τ c.toFinset d.toFinset

theorem Becomes.mono {τ : Lit → Image} {C D : Finset Lit} (h : Becomes τ C) (hs : C ⊆ D) : Becomes τ D := by
  rcases h with ⟨l, hl, e⟩ | ⟨x, hx, y, hy, m, e1, e2⟩
  · exact .inl ⟨l, hs hl, e⟩
  · exact .inr ⟨x, hs hx, y, hs hy, m, e1, e2⟩

theorem neg_ne (l : Lit) : l.neg ≠ l := by
  intro h
  have := congrArg Lit.isPositive h
  rw [Lit.isPositive_neg] at this
  cases h : l.isPositive <;> simp [h] at this

/-- The image of one premise that becomes true. -/
theorem Becomes.resolve {τ : Lit → Image} {P : Finset Lit → Prop} (hτ : Substitution τ) {C D : Finset Lit} {l : Lit} (hc : Becomes τ C)
    (hd : Becomes τ D ∨ ∃ R : Finset Lit, P R ∧ Contains τ D R) :
    Becomes τ (C.erase l ∪ D.erase l.neg) ∨ ∃ R : Finset Lit, P R ∧ Contains τ (C.erase l ∪ D.erase l.neg) R := by
  have inC : ∀ x ∈ C, x ≠ l → x ∈ C.erase l ∪ D.erase l.neg := fun x hx hn =>
    Finset.mem_union_left _ (Finset.mem_erase.2 ⟨hn, hx⟩)
  have inD : ∀ x ∈ D, x ≠ l.neg → x ∈ C.erase l ∪ D.erase l.neg := fun x hx hn =>
    Finset.mem_union_right _ (Finset.mem_erase.2 ⟨hn, hx⟩)
  have main : ∀ y ∈ C, y ≠ l → ∀ m, τ l = .lit m → τ y = .lit m.neg →
      Becomes τ (C.erase l ∪ D.erase l.neg) ∨ ∃ R : Finset Lit, P R ∧ Contains τ (C.erase l ∪ D.erase l.neg) R := by
    intro y hy hyl m e1 e2
    have e3 : τ l.neg = .lit m.neg := by rw [hτ, e1]; rfl
    rcases hd with (⟨o, ho, eo⟩ | ⟨x, hx, z, hz, m', f1, f2⟩) | ⟨R, hR, hc⟩
    · refine .inl (.inl ⟨o, inD o ho ?_, eo⟩)
      rintro rfl
      rw [e3] at eo; cases eo
    · by_cases hxl : x = l.neg
      · rw [hxl, e3] at f1
        cases f1
        have hz' : z ≠ l.neg := by
          rintro rfl
          rw [e3] at f2
          exact neg_ne m.neg (Image.lit.inj f2).symm
        exact .inl (.inr ⟨y, inC y hy hyl, z, inD z hz hz', m.neg, e2, f2⟩)
      · by_cases hzl : z = l.neg
        · rw [hzl, e3] at f2
          have hm : m' = m := by
            have := congrArg Lit.neg (Image.lit.inj f2)
            simpa using this.symm
          subst hm
          exact .inl (.inr ⟨x, inD x hx hxl, y, inC y hy hyl, m', f1, e2⟩)
        · exact .inl (.inr ⟨x, inD x hx hxl, z, inD z hz hzl, m', f1, f2⟩)
    · refine .inr ⟨R, hR, fun o ho => ?_⟩
      obtain ⟨x, hx, ex⟩ := hc o ho
      by_cases hxl : x = l.neg
      · rw [hxl, e3] at ex
        exact ⟨y, inC y hy hyl, by rw [e2, ex]⟩
      · exact ⟨x, inD x hx hxl, ex⟩
  rcases hc with ⟨o, ho, eo⟩ | ⟨x, hx, y, hy, m, e1, e2⟩
  · by_cases hol : o = l
    · rw [hol] at eo
      have e3 : τ l.neg = .const false := by rw [hτ, eo]; rfl
      rcases hd with hd | ⟨R, hR, hc⟩
      · left
        rcases hd with ⟨x, hx, ex⟩ | ⟨x, hx, z, hz, m', f1, f2⟩
        · refine .inl ⟨x, inD x hx ?_, ex⟩
          rintro rfl
          rw [e3] at ex; cases ex
        · refine .inr ⟨x, inD x hx ?_, z, inD z hz ?_, m', f1, f2⟩
          · rintro rfl; rw [e3] at f1; cases f1
          · rintro rfl; rw [e3] at f2; cases f2
      · refine .inr ⟨R, hR, fun o ho => ?_⟩
        obtain ⟨x, hx, ex⟩ := hc o ho
        refine ⟨x, inD x hx ?_, ex⟩
        rintro rfl
        rw [e3] at ex; cases ex
    · exact .inl (.inl ⟨o, inC o ho hol, eo⟩)
  · by_cases hxl : x = l
    · subst hxl
      refine main y hy ?_ m e1 e2
      rintro rfl
      rw [e1] at e2
      exact neg_ne m (Image.lit.inj e2).symm
    · by_cases hyl : y = l
      · subst hyl
        refine main x hx hxl m.neg e2 ?_
        rw [e1]; simp
      · exact .inl (.inr ⟨x, inC x hx hxl, y, inC y hy hyl, m, e1, e2⟩)

/-- A derivation becomes a derivation. -/
theorem Derivation.substitute {τ : Lit → Image} (hτ : Substitution τ) {F G : List (List Lit)} (hF : Instance τ F G)
    {π : List (Finset Lit)} (h : Derivation F π) : ∃ π', Derivation G π' ∧ π'.length ≤ π.length ∧
      ∀ C, Known F π C → Becomes τ C ∨ ∃ R, Known G π' R ∧ Contains τ C R := by
  induction h with
  | nil =>
    refine ⟨[], .nil, Nat.le_refl _, ?_⟩
    rintro C (⟨c, hc, rfl⟩ | hC)
    · rcases hF c hc with h1 | ⟨d, hd, h1⟩
      · exact .inl h1
      · exact .inr ⟨d.toFinset, .inl ⟨d, hd, rfl⟩, h1⟩
    · cases hC
  | @step π C D E _ hC hD hE ih =>
    obtain ⟨π', d', hl, ih⟩ := ih
    obtain ⟨l, hlC, hlD, rfl⟩ := hE
    have old : ∀ π1 : List (Finset Lit), Derivation G π1 → π1.length ≤ π.length + 1 → (∀ R, Known G π' R → Known G π1 R) →
        (Becomes τ (C.erase l ∪ D.erase l.neg) ∨ ∃ R, Known G π1 R ∧ Contains τ (C.erase l ∪ D.erase l.neg) R) →
        ∃ π', Derivation G π' ∧ π'.length ≤ ((C.erase l ∪ D.erase l.neg) :: π).length ∧
          ∀ X, Known F ((C.erase l ∪ D.erase l.neg) :: π) X → Becomes τ X ∨ ∃ R, Known G π' R ∧ Contains τ X R := by
      intro π1 h1 h2 h3 h4
      refine ⟨π1, h1, by simpa using h2, ?_⟩
      rintro X (hX | hX)
      · exact (ih X (.inl hX)).imp id fun ⟨R, hR, hc⟩ => ⟨R, h3 R hR, hc⟩
      · rcases List.mem_cons.1 hX with rfl | hX
        · exact h4
        · exact (ih X (.inr hX)).imp id fun ⟨R, hR, hc⟩ => ⟨R, h3 R hR, hc⟩
    by_cases bC : Becomes τ C
    · exact old π' d' (by omega) (fun _ h => h) (bC.resolve hτ (ih D hD))
    by_cases bD : Becomes τ D
    · have := bD.resolve hτ (l := l.neg) (ih C hC)
      rw [Lit.neg_neg, Finset.union_comm] at this
      exact old π' d' (by omega) (fun _ h => h) this
    obtain ⟨R, hR, cR⟩ := (ih C hC).resolve_left bC
    obtain ⟨Q, hQ, cQ⟩ := (ih D hD).resolve_left bD
    have inC : ∀ x ∈ C, x ≠ l → x ∈ C.erase l ∪ D.erase l.neg := fun x hx hn =>
      Finset.mem_union_left _ (Finset.mem_erase.2 ⟨hn, hx⟩)
    have inD : ∀ x ∈ D, x ≠ l.neg → x ∈ C.erase l ∪ D.erase l.neg := fun x hx hn =>
      Finset.mem_union_right _ (Finset.mem_erase.2 ⟨hn, hx⟩)
    cases hm : τ l with
    | const b =>
      exfalso
      cases b with
      | true => exact bC (.inl ⟨l, hlC, hm⟩)
      | false => exact bD (.inl ⟨l.neg, hlD, by rw [hτ, hm]; rfl⟩)
    | lit m =>
      have hm' : τ l.neg = .lit m.neg := by rw [hτ, hm]; rfl
      have partC : ∀ o ∈ R, o ≠ m → ∃ x ∈ C.erase l ∪ D.erase l.neg, τ x = .lit o := by
        intro o ho hne
        obtain ⟨x, hx, ex⟩ := cR o ho
        refine ⟨x, inC x hx ?_, ex⟩
        rintro rfl
        rw [hm] at ex
        exact hne (Image.lit.inj ex).symm
      have partD : ∀ o ∈ Q, o ≠ m.neg → ∃ x ∈ C.erase l ∪ D.erase l.neg, τ x = .lit o := by
        intro o ho hne
        obtain ⟨x, hx, ex⟩ := cQ o ho
        refine ⟨x, inD x hx ?_, ex⟩
        rintro rfl
        rw [hm'] at ex
        exact hne (Image.lit.inj ex).symm
      by_cases h1 : m ∈ R
      · by_cases h2 : m.neg ∈ Q
        · refine old ((R.erase m ∪ Q.erase m.neg) :: π') (.step d' hR hQ ⟨m, h1, h2, rfl⟩) (by simpa using hl)
            (fun X hX => hX.append [_]) (.inr ⟨_, .inr (List.mem_cons_self ..), fun o ho => ?_⟩)
          rcases Finset.mem_union.1 ho with ho | ho
          · exact partC o (Finset.mem_of_mem_erase ho) (Finset.ne_of_mem_erase ho)
          · exact partD o (Finset.mem_of_mem_erase ho) (Finset.ne_of_mem_erase ho)
        · exact old π' d' (by omega) (fun _ h => h) (.inr ⟨Q, hQ, fun o ho => partD o ho fun e => h2 (e ▸ ho)⟩)
      · exact old π' d' (by omega) (fun _ h => h) (.inr ⟨R, hR, fun o ho => partC o ho fun e => h1 (e ▸ ho)⟩)

/-- A refutation becomes a refutation. -/
theorem Refutation.substitute {τ : Lit → Image} (hτ : Substitution τ) {F G : List (List Lit)} (hF : Instance τ F G)
    {π : List (Finset Lit)} (h : Refutation F π) : ∃ π', Refutation G π' ∧ π'.length ≤ π.length := by
  obtain ⟨π', h1, h2, h3⟩ := h.1.substitute hτ hF
  refine ⟨π', ⟨h1, ?_⟩, h2⟩
  rcases h3 ∅ h.2 with (⟨l, hl, _⟩ | ⟨x, hx, _⟩) | ⟨R, hR, hc⟩
  · simp at hl
  · simp at hx
  · have : R = ∅ := Finset.eq_empty_of_forall_notMem fun o ho => by
      obtain ⟨l, hl, _⟩ := hc o ho
      simp at hl
    rwa [this] at hR

end Resolution

section
open Resolution
variable {env : Env} {F G H : List (List Lit)} {s s' : Solver} {k h : Nat} {τ : Lit → Image}

/-- C99: if fixing, renaming and identifying variables turns the formula into one whose clauses contain clauses of `G`, and all
refutations of `G` have at least `N` lines, then `solve()` needs at least `N` conflicts, divided by the number of variables, for the
answer UNSAT. -/
theorem C99_instance (hi : Solver.Input env F s) (e : s.solve env k = .ok (s', some false)) (hτ : Substitution τ)
    (hF : Instance τ F G) {N : Nat} (hG : ∀ π, Refutation G π → N ≤ π.length) :
    N ≤ formulaVars F * max 1 s'.ctx.search.conflicts := by
  obtain ⟨π, h1, h2⟩ := C84_refutation hi e
  obtain ⟨π', h3, h4⟩ := h1.substitute hτ hF
  exact (hG π' h3).trans (h4.trans h2)

/-- C99: so a formula from which one gets a pigeonhole formula in this way takes exponentially many conflicts. -/
theorem C99_pigeons (hi : Solver.Input env F s) (e : s.solve env k = .ok (s', some false)) (hτ : Substitution τ)
    (hF : Instance τ F G) (hv : ∀ c ∈ G, ∀ l ∈ c, l.Valid) (hG : G.map (List.map Lit.dimacs) = pigeonhole h) {t : Nat}
    (h3 : t + 2 ≤ h) (h4 : 9 * (h + 1) ^ 2 ≤ 20 * (h + 1 - t) ^ 2) :
    10 ^ t ≤ 9 ^ t * (formulaVars F * max 1 s'.ctx.search.conflicts) := by
  obtain ⟨π, h1, h2⟩ := C84_refutation hi e
  obtain ⟨π', h5, h6⟩ := h1.substitute hτ hF
  exact (Pigeons.long_refutations (by omega) (pigeonhole_admits hv hG) h5 h3 h4).trans (Nat.mul_le_mul_left _ (h6.trans h2))

/-- Fix the variables that do not occur in `G`. -/
def fixOutside (G : List (List Lit)) (α : Nat → Bool) (l : Lit) : Image :=
  if G.any (fun c => c.any fun x => x.index == l.index) then .lit l else .const (α l.index == l.isPositive)

theorem fixOutside_substitution (G : List (List Lit)) (α : Nat → Bool) : Substitution (fixOutside G α) := by
  intro l
  unfold fixOutside
  rw [Lit.index_neg, Lit.isPositive_neg]
  split
  · rfl
  · simp only [Image.neg]
    cases α l.index <;> cases l.isPositive <;> rfl

/-- A satisfiable part that shares no variable with `G` can be fixed. -/
theorem fixOutside_instance {α : Nat → Bool} (hα : FormulaSat α H) (hd : ∀ c ∈ G, ∀ x ∈ c, ∀ d ∈ H, ∀ y ∈ d, x.index ≠ y.index)
    (hF : ∀ c ∈ F, c ∈ G ∨ c ∈ H) : Instance (fixOutside G α) F G := by
  intro c hc
  rcases hF c hc with hc | hc
  · refine .inr ⟨c, hc, fun o ho => ⟨o, ho, ?_⟩⟩
    unfold fixOutside
    rw [if_pos]
    rw [List.any_eq_true]
    exact ⟨c, hc, List.any_eq_true.2 ⟨o, List.mem_toFinset.1 ho, by simp⟩⟩
  · obtain ⟨l, hl, hs⟩ := hα c hc
    refine .inl (.inl ⟨l, List.mem_toFinset.2 hl, ?_⟩)
    unfold fixOutside
    rw [if_neg]
    · congr 1
      unfold LitSat at hs
      simpa using hs
    · intro ha
      obtain ⟨d, hdm, ha⟩ := List.any_eq_true.1 ha
      obtain ⟨x, hx, ha⟩ := List.any_eq_true.1 ha
      exact hd d hdm x hx c hc l hl (by simpa using ha)

/-- C99: a satisfiable part with other variables, wherever its clauses stand, does not make the pigeonhole formula easier. -/
theorem C99_parts (hi : Solver.Input env F s) (e : s.solve env k = .ok (s', some false)) (hF : ∀ c ∈ F, c ∈ G ∨ c ∈ H)
    (hG : G.map (List.map Lit.dimacs) = pigeonhole h) (hv : ∀ c ∈ G, ∀ l ∈ c, l.Valid) (hH : ∃ α, FormulaSat α H)
    (hd : ∀ c ∈ G, ∀ x ∈ c, ∀ d ∈ H, ∀ y ∈ d, x.index ≠ y.index) (h3 : 3 ≤ h) :
    10 ^ ((h + 1) / 4) ≤ 9 ^ ((h + 1) / 4) * (formulaVars F * max 1 s'.ctx.search.conflicts) := by
  obtain ⟨α, hα⟩ := hH
  refine C99_pigeons hi e (fixOutside_substitution G α) (fixOutside_instance hα hd hF) hv hG (by omega) ?_
  obtain ⟨a, ha⟩ : ∃ a, h + 1 - (h + 1) / 4 = a := ⟨_, rfl⟩
  rw [ha]
  have : 3 * (h + 1) ≤ 4 * a := by omega
  nlinarith

end

/-- A satisfiable part with other variables. -/
def Example.extra : List (List Int) := [[13, 14, 15], [-13, -14, 16], [13, -15, -16]]

/-- A case for C99: the clauses of this part around those of the pigeonhole formula. -/
theorem C99_example : ∃ s s', Solver.Input Example.env (Example.cnf (Example.extra ++ Example.php 4 3)) s ∧
    s.solve Example.env 100 = .ok (s', some false) ∧ s'.ctx.search.conflicts = 6 ∧
    (Example.cnf (Example.php 4 3)).map (List.map Lit.dimacs) = pigeonhole 3 ∧
    (∃ α, FormulaSat α (Example.cnf Example.extra)) ∧
    ∀ c ∈ Example.cnf (Example.php 4 3), ∀ x ∈ c, ∀ d ∈ Example.cnf Example.extra, ∀ y ∈ d, x.index ≠ y.index := by
  have h : (Example.run (Example.extra ++ Example.php 4 3)).map (fun x => (x.1.ctx.search.conflicts, x.2)) =
      .ok (6, some false) := by decide +kernel
  obtain ⟨⟨s', r⟩, h1, h2⟩ := Example.of_map h
  simp only [Prod.mk.injEq] at h2
  obtain ⟨h2, rfl⟩ := h2
  unfold Example.run Example.load at h1
  obtain ⟨s, h3, h1⟩ := bind_eq_ok.1 h1
  have hi := Solver.Input.addClauses _ (.proof (.new (env := Example.env)))
    (Example.ok_valid (F := Example.extra ++ Example.php 4 3) (by decide +kernel)) h3
  refine ⟨s, s', by simpa using hi, h1, h2, by decide +kernel, ⟨fun x => x == 12 || x == 15, ?_⟩, by decide +kernel⟩
  unfold FormulaSat LitSat
  decide +kernel

end Starlit
