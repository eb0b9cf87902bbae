import Verif.Spec

/-!
# Conflict driven clause learning as an abstract calculus

This file is a specification.  It does not mention the solver: a state is a sequence of literals, each marked as
decision or not, and a multiset of learned clauses; the rules are those of the calculus that CDCL solvers are
described with (Nieuwenhuis, Oliveras and Tinelli, "Solving SAT and SAT Modulo Theories").  `Verif/Props/Calculus.lean`
shows that the solver's runs are runs of this calculus.
-/

namespace Starlit.Cdcl

/-- The assigned literals in order, with `true` for decisions, and the learned clauses. -/
structure State where
  trail : List (Lit × Bool)
  learned : DB

/-- The literal is assigned true. -/
def Holds (M : List (Lit × Bool)) (l : Lit) : Prop := ∃ b, (l, b) ∈ M

/-- The variable of the literal has no value. -/
def Undef (M : List (Lit × Bool)) (l : Lit) : Prop := ¬ Holds M l ∧ ¬ Holds M l.neg

/-- All literals of the clause are false. -/
def Falsified (M : List (Lit × Bool)) (C : Multiset Lit) : Prop := ∀ o ∈ C, Holds M o.neg

/-- There are no decisions. -/
def Top (M : List (Lit × Bool)) : Prop := ∀ x ∈ M, x.2 = false

/-- Unit propagation is complete: no clause is falsified, and no clause has all but one of its literals false and this
one unassigned. -/
def Complete (D : DB) (M : List (Lit × Bool)) : Prop :=
  (∀ C ∈ D, ¬ Falsified M C) ∧ ∀ l R, l ::ₘ R ∈ D → Falsified M R → Holds M l

/-- Each literal that is not a decision has a clause whose other literals were false before. -/
def Justified (D : DB) (M : List (Lit × Bool)) : Prop :=
  ∀ M1 l M2, M = M1 ++ (l, false) :: M2 → ∃ R, l ::ₘ R ∈ D ∧ Falsified M1 R

/-- The names of the rules. -/
inductive Rule
  | propagate | decide | learn | restart | forget
deriving DecidableEq

/-- The rules for a formula `N` with `n` variables. -/
inductive Step (N : DB) (n : Nat) : State → Rule → State → Prop
  /-- Unit propagation. -/
  | propagate {M : List (Lit × Bool)} {U : DB} {l : Lit} {R : Multiset Lit} : l ::ₘ R ∈ N + U → Falsified M R →
      Undef M l → Step N n ⟨M, U⟩ .propagate ⟨M ++ [(l, false)], U⟩
  /-- A variable without a value gets one, if there is nothing to propagate. -/
  | decide {M : List (Lit × Bool)} {U : DB} {l : Lit} : Complete (N + U) M → l.index < n → Undef M l →
      Step N n ⟨M, U⟩ .decide ⟨M ++ [(l, true)], U⟩
  /-- A clause `D` is falsified.  The clause `l ::ₘ R`, which follows by reverse unit propagation and has no literal
  twice, is falsified too.  `l` is its only literal false by the last decision `d` (`A`, `B` are what is before and
  after it), and the trail is cut to its shortest part `M1` up to some decision `e` that falsifies `R`. -/
  | learn {M M1 M2 A B : List (Lit × Bool)} {U : DB} {D R : Multiset Lit} {l d e : Lit} : D ∈ N + U →
      Falsified M D → RUP (N + U) (l ::ₘ R) → (l ::ₘ R).Nodup → M = A ++ (d, true) :: B → Top B →
      Undef A l → Holds M l.neg → Falsified A R → M = M1 ++ (e, true) :: M2 → Falsified M1 R →
      (∀ M3 f M4, M1 = M3 ++ (f, true) :: M4 → ¬ Falsified M3 R) →
      Step N n ⟨M, U⟩ .learn ⟨M1 ++ [(l, false)], (l ::ₘ R) ::ₘ U⟩
  /-- All decisions are undone. -/
  | restart {M : List (Lit × Bool)} {U : DB} :
      Step N n ⟨M, U⟩ .restart ⟨M.takeWhile (fun x => !x.2), U⟩
  /-- Some learned clauses of at least three literals are removed that are not needed as reasons. -/
  | forget {M : List (Lit × Bool)} {U K : DB} : (∀ c ∈ K, 3 ≤ c.card) → Justified (N + U) M →
      Step N n ⟨M, U + K⟩ .forget ⟨M, U⟩

/-- Sequences of rules. -/
inductive Run (N : DB) (n : Nat) : State → List Rule → State → Prop
  | nil {A : State} : Run N n A [] A
  | snoc {A B C : State} {rs : List Rule} {r : Rule} : Run N n A rs B → Step N n B r C → Run N n A (rs ++ [r]) C

/-- The first states: literals of unit clauses are assigned, not both literals of a variable. -/
def Init (N : DB) (A : State) : Prop := (∀ x ∈ A.trail, x.2 = false ∧ {x.1} ∈ N) ∧
  (∀ l, Holds A.trail l → ¬ Holds A.trail l.neg) ∧ A.learned = 0

/-- A clause is falsified without decisions. -/
def Fail (N : DB) (A : State) : Prop := Top A.trail ∧ ∃ D ∈ N + A.learned, Falsified A.trail D

/-- All variables have a value, no clause is falsified. -/
def Success (N : DB) (n : Nat) (A : State) : Prop :=
  (∀ l : Lit, l.index < n → ¬ Undef A.trail l) ∧ ∀ D ∈ N + A.learned, ¬ Falsified A.trail D

/-! ## The calculus is sound -/

section
variable {N : DB} {n : Nat} {A B : State} {rs : List Rule} {r : Rule}

/-- What the rules keep. -/
structure Inv (N : DB) (A : State) : Prop where
  justified : Justified (N + A.learned) A.trail
  consistent : ∀ l, Holds A.trail l → ¬ Holds A.trail l.neg
  sound : ∀ α, DBSat α N → DBSat α A.learned

theorem Holds.mono {M M' : List (Lit × Bool)} {l : Lit} (h : Holds M l) (hM : ∀ x ∈ M, x ∈ M') : Holds M' l :=
  h.imp fun _ hb => hM _ hb

theorem holds_snoc {M : List (Lit × Bool)} {l a : Lit} {b : Bool} : Holds (M ++ [(a, b)]) l ↔ Holds M l ∨ l = a := by
  constructor
  · rintro ⟨c, hc⟩
    rcases List.mem_append.1 hc with hc | hc
    · exact .inl ⟨c, hc⟩
    · exact .inr (by simpa using (congrArg Prod.fst (List.mem_singleton.1 hc)))
  · rintro (⟨c, hc⟩ | rfl)
    · exact ⟨c, List.mem_append_left _ hc⟩
    · exact ⟨b, by simp⟩

theorem Justified.prefix {D : DB} {M M' : List (Lit × Bool)} (h : Justified D (M ++ M')) : Justified D M :=
  fun M1 l M2 e => h M1 l (M2 ++ M') (by rw [e]; simp)

theorem Justified.mono {D D' : DB} {M : List (Lit × Bool)} (h : Justified D M) (hD : ∀ c ∈ D, c ∈ D') :
    Justified D' M :=
  fun M1 l M2 e => (h M1 l M2 e).imp fun _ ⟨a, b⟩ => ⟨hD _ a, b⟩

theorem Justified.snoc {D : DB} {M : List (Lit × Bool)} {l : Lit} {b : Bool} (h : Justified D M)
    (hl : b = false → ∃ R, l ::ₘ R ∈ D ∧ Falsified M R) : Justified D (M ++ [(l, b)]) := by
  intro M1 a M2 e
  rcases List.eq_nil_or_concat M2 with rfl | ⟨M2', x, rfl⟩
  · obtain ⟨rfl, e2⟩ := List.append_inj' e rfl
    simp only [List.cons.injEq, Prod.mk.injEq, and_true] at e2
    obtain ⟨rfl, rfl⟩ := e2
    exact hl rfl
  · have e' : M ++ [(l, b)] = (M1 ++ (a, false) :: M2') ++ [x] := by rw [e]; simp
    exact h M1 a M2' (List.append_inj' e' rfl).1

theorem consistent_snoc {M : List (Lit × Bool)} {l : Lit} {b : Bool} (h : ∀ l, Holds M l → ¬ Holds M l.neg)
    (hl : Undef M l) : ∀ a, Holds (M ++ [(l, b)]) a → ¬ Holds (M ++ [(l, b)]) a.neg := by
  intro a h1 h2
  rw [holds_snoc] at h1 h2
  rcases h1 with h1 | rfl
  · rcases h2 with h2 | h2
    · exact h a h1 h2
    · exact hl.2 (by rw [← h2, Lit.neg_neg]; exact h1)
  · rcases h2 with h2 | h2
    · exact hl.2 h2
    · exact Lit.neg_ne a h2

theorem Init.inv (h : Init N A) : Inv N A := by
  obtain ⟨h1, h2, h3⟩ := h
  refine ⟨?_, h2, ?_⟩
  · intro M1 l M2 e
    refine ⟨0, Multiset.mem_add.2 (.inl ?_), by intro o ho; simp at ho⟩
    exact (h1 (l, false) (by rw [e]; simp)).2
  · intro α _ c hc
    rw [h3] at hc
    simp at hc

theorem Step.inv (h : Inv N A) (e : Step N n A r B) : Inv N B := by
  cases e with
  | propagate h1 h2 h3 =>
    exact ⟨h.justified.snoc fun _ => ⟨_, h1, h2⟩, consistent_snoc h.consistent h3, h.sound⟩
  | decide h1 h2 h3 =>
    exact ⟨h.justified.snoc (fun hb => by cases hb), consistent_snoc h.consistent h3, h.sound⟩
  | @learn M M1 M2 A B U D R l d e h1 h2 h3 h4 h5 h6 h7 h8 h9 h10 h11 h12 =>
    have hc : ∀ a, Holds M1 a → ¬ Holds M1 a.neg := fun a k1 k2 =>
      h.consistent a (k1.mono fun x hx => by rw [h10]; simp [hx]) (k2.mono fun x hx => by rw [h10]; simp [hx])
    have hM1 : ∀ x ∈ M1, x ∈ A := by
      -- the part up to the last decision contains all earlier ones
      have hle : M1.length ≤ A.length := by
        by_contra hlt
        have e1 : (A ++ (d, true) :: B)[M1.length]? = some (e, true) := by rw [← h5, h10]; simp
        rw [List.getElem?_append_right (by omega)] at e1
        obtain ⟨k, hk⟩ : ∃ k, M1.length - A.length = k + 1 := ⟨M1.length - A.length - 1, by omega⟩
        rw [hk, List.getElem?_cons_succ] at e1
        have := h6 _ (List.mem_of_getElem? e1)
        simp at this
      have e1 : A.take M1.length = M1 := by
        have := congrArg (List.take M1.length) (h5.symm.trans h10)
        rw [List.take_append_of_le_length hle, List.take_append_of_le_length (Nat.le_refl _), List.take_length] at this
        exact this
      intro x hx
      rw [← e1] at hx
      exact List.mem_of_mem_take hx
    refine ⟨?_, consistent_snoc hc ⟨fun k => h7.1 (k.mono hM1), fun k => h7.2 (k.mono hM1)⟩, ?_⟩
    · refine Justified.snoc ?_ fun _ => ⟨R, Multiset.mem_add.2 (.inr (Multiset.mem_cons_self _ _)), h11⟩
      have hj := h.justified
      simp only at hj
      rw [h10] at hj
      refine hj.prefix.mono fun c hc => ?_
      rcases Multiset.mem_add.1 hc with hc | hc
      · exact Multiset.mem_add.2 (.inl hc)
      · exact Multiset.mem_add.2 (.inr (Multiset.mem_cons_of_mem hc))
    · intro α hα c hc
      have hU := h.sound α hα
      rcases Multiset.mem_cons.1 hc with rfl | hc
      · refine h3.sat fun c hc => ?_
        rcases Multiset.mem_add.1 hc with hc | hc
        · exact hα c hc
        · exact hU c hc
      · exact hU c hc
  | @restart M U =>
    have e : M = M.takeWhile (fun x => !x.2) ++ M.dropWhile (fun x => !x.2) := List.takeWhile_append_dropWhile.symm
    have hm : ∀ x ∈ M.takeWhile (fun x => !x.2), x ∈ M := fun x hx => (List.takeWhile_sublist _).subset hx
    have hj := h.justified
    simp only at hj
    rw [e] at hj
    exact ⟨hj.prefix, fun l k1 k2 => h.consistent l (k1.mono hm) (k2.mono hm), h.sound⟩
  | forget h1 h2 =>
    exact ⟨h2, h.consistent, fun α hα c hc => h.sound α hα c (Multiset.mem_add.2 (.inl hc))⟩

theorem Run.inv (h : Inv N A) (e : Run N n A rs B) : Inv N B := by
  induction e with
  | nil => exact h
  | snoc _ e ih => exact e.inv ih

/-- A run that fails shows that the formula is unsatisfiable. -/
theorem Run.unsat (h : Init N A) (e : Run N n A rs B) (hf : Fail N B) (α : Nat → Bool) : ¬ DBSat α N := by
  intro hα
  have hi := e.inv h.inv
  obtain ⟨h1, D, hD, h2⟩ := hf
  have hs : DBSat α (N + B.learned) := by
    intro c hc
    rcases Multiset.mem_add.1 hc with hc | hc
    · exact hα c hc
    · exact hi.sound α hα c hc
  have key : ∀ (k : Nat) (l : Lit), Holds (B.trail.take k) l → LitSat α l := by
    intro k
    induction k with
    | zero => rintro l ⟨b, hb⟩; simp at hb
    | succ k ih =>
      rintro l ⟨b, hb⟩
      rw [List.take_add_one] at hb
      rcases List.mem_append.1 hb with hb | hb
      · exact ih l ⟨b, hb⟩
      · rw [Option.mem_toList] at hb
        obtain ⟨hk, e⟩ := List.getElem?_eq_some_iff.1 (Option.mem_def.1 hb)
        have hb' : b = false := h1 (l, b) (e ▸ List.getElem_mem hk)
        subst hb'
        obtain ⟨R, hR, hf⟩ := hi.justified (B.trail.take k) l (B.trail.drop (k + 1)) (by
          rw [← e, ← List.drop_eq_getElem_cons hk, List.take_append_drop])
        obtain ⟨o, ho, ho'⟩ := hs _ hR
        rcases Multiset.mem_cons.1 ho with rfl | ho
        · exact ho'
        · exact absurd ho' (litSat_neg.1 (ih _ (hf o ho)))
  obtain ⟨o, ho, ho'⟩ := hs D hD
  refine absurd ho' (litSat_neg.1 (key B.trail.length _ ?_))
  rw [List.take_length]
  exact h2 o ho

/-- A run that succeeds shows that the formula is satisfiable: the assigned literals are a model. -/
theorem Run.sat (h : Init N A) (e : Run N n A rs B) (hs : Success N n B) (hN : ∀ C ∈ N, ∀ l ∈ C, l.index < n) :
    ∃ α : Nat → Bool, (∀ l, Holds B.trail l → LitSat α l) ∧ DBSat α N := by
  classical
  have hi := e.inv h.inv
  have hα : ∀ l, Holds B.trail l →
      LitSat (fun v => decide (∃ l, Holds B.trail l ∧ l.index = v ∧ l.isPositive = true)) l := by
    intro l hl
    unfold LitSat
    cases hp : l.isPositive with
    | true => exact decide_eq_true ⟨l, hl, rfl, hp⟩
    | false =>
      refine decide_eq_false ?_
      rintro ⟨a, h1, h2, h3⟩
      rcases Lit.eq_or_eq_neg h2 with rfl | rfl
      · rw [hp] at h3; cases h3
      · exact hi.consistent l hl h1
  refine ⟨_, hα, fun C hC => ?_⟩
  have := hs.2 C (Multiset.mem_add.2 (.inl hC))
  unfold Falsified at this
  simp only [not_forall] at this
  obtain ⟨o, ho, hn⟩ := this
  refine ⟨o, ho, hα o ?_⟩
  have hu := hs.1 o (hN C hC o ho)
  unfold Undef at hu
  by_contra hc
  exact hu ⟨hc, hn⟩

end

end Starlit.Cdcl
