import Mathlib.Data.Finset.Basic
import Mathlib.Data.Finset.Card
import Verif.Spec

/-!
# Specification: resolution proofs

Independent of the solver model; only literals are shared.  The lemmas turn unit propagation into resolution
steps.
-/

namespace Starlit
namespace Resolution

/-- `E` is the resolvent of `C` and `D` for some literal. -/
def Resolvent (C D E : Finset Lit) : Prop := ∃ l ∈ C, l.neg ∈ D ∧ E = C.erase l ∪ D.erase l.neg

/-- The clause is a clause of the formula or a line of `π`. -/
def Known (F : List (List Lit)) (π : List (Finset Lit)) (C : Finset Lit) : Prop :=
  (∃ c ∈ F, C = c.toFinset) ∨ C ∈ π

/-- `π` is a resolution derivation from the formula: each line (the last one comes first) is a resolvent of two
clauses, which are clauses of the formula or earlier lines. -/
inductive Derivation (F : List (List Lit)) : List (Finset Lit) → Prop where
  | nil : Derivation F []
  | step {π : List (Finset Lit)} {C D E : Finset Lit} : Derivation F π → Known F π C → Known F π D →
      Resolvent C D E → Derivation F (E :: π)

/-- `π` is a resolution refutation of the formula: a derivation of the empty clause. -/
def Refutation (F : List (List Lit)) (π : List (Finset Lit)) : Prop := Derivation F π ∧ Known F π ∅

theorem Known.append {F : List (List Lit)} {π : List (Finset Lit)} {C : Finset Lit} (h : Known F π C)
    (ρ : List (Finset Lit)) : Known F (ρ ++ π) C :=
  h.imp id fun h => List.mem_append_right _ h

/-- Lines of derivations have literals of the formula only. -/
theorem Derivation.lits {F : List (List Lit)} {P : Lit → Prop} (hF : ∀ c ∈ F, ∀ l ∈ c, P l)
    {π : List (Finset Lit)} (h : Derivation F π) : ∀ C, Known F π C → ∀ l ∈ C, P l := by
  induction h with
  | nil =>
    rintro C (⟨c, hc, rfl⟩ | hC)
    · exact fun l hl => hF c hc l (List.mem_toFinset.1 hl)
    · cases hC
  | @step π C D E _ hC hD hE ih =>
    rintro X (hX | hX)
    · exact ih X (.inl hX)
    · rcases List.mem_cons.1 hX with rfl | hX
      · obtain ⟨l, _, _, rfl⟩ := hE
        intro o ho
        rcases Finset.mem_union.1 ho with ho | ho
        · exact ih C hC o (Finset.mem_of_mem_erase ho)
        · exact ih D hD o (Finset.mem_of_mem_erase ho)
      · exact ih X (.inr hX)

/-- Resolution is sound. -/
theorem Derivation.sat {F : List (List Lit)} {α : Nat → Bool} (hF : FormulaSat α F)
    {π : List (Finset Lit)} (h : Derivation F π) : ∀ C, Known F π C → ∃ l ∈ C, LitSat α l := by
  induction h with
  | nil =>
    rintro C (⟨c, hc, rfl⟩ | hC)
    · obtain ⟨l, hl, hs⟩ := hF c hc
      exact ⟨l, List.mem_toFinset.2 hl, hs⟩
    · cases hC
  | @step π C D E _ hC hD hE ih =>
    rintro X (hX | hX)
    · exact ih X (.inl hX)
    · rcases List.mem_cons.1 hX with rfl | hX
      · obtain ⟨l, _, _, rfl⟩ := hE
        by_cases hl : LitSat α l
        · obtain ⟨o, ho, hs⟩ := ih D hD
          refine ⟨o, Finset.mem_union_right _ (Finset.mem_erase.2 ⟨?_, ho⟩), hs⟩
          rintro rfl
          exact litSat_neg.1 hs hl
        · obtain ⟨o, ho, hs⟩ := ih C hC
          refine ⟨o, Finset.mem_union_left _ (Finset.mem_erase.2 ⟨?_, ho⟩), hs⟩
          rintro rfl
          exact hl hs
      · exact ih X (.inr hX)

/-- Formulas with a refutation are unsatisfiable. -/
theorem Refutation.unsat {F : List (List Lit)} {π : List (Finset Lit)} (h : Refutation F π) : FormulaUnsat F := by
  intro α hα
  obtain ⟨l, hl, _⟩ := h.1.sat hα ∅ h.2
  simp at hl

/-- A sequence of unit propagations, the last literal first, from the clauses `K` and the literals `A`. -/
inductive UpSeq (K : Finset Lit → Prop) (A : Lit → Prop) : List Lit → Prop where
  | nil : UpSeq K A []
  | cons {T : List Lit} {R : Finset Lit} {l : Lit} : UpSeq K A T → K R → l ∈ R →
      (∀ o ∈ R, o ≠ l → A o.neg ∨ o.neg ∈ T) → UpSeq K A (l :: T)

/-- The clause is false after the propagations. -/
def AllFalse (A : Lit → Prop) (T : List Lit) (R : Finset Lit) : Prop := ∀ o ∈ R, A o.neg ∨ o.neg ∈ T

theorem index_cases {l o : Lit} (h : l.index = o.index) : l = o ∨ l = o.neg := by
  by_cases hs : l.isPositive = o.isPositive
  · exact .inl (Lit.ext_index h hs)
  · right
    refine Lit.ext_index (by rw [Lit.index_neg, h]) ?_
    rw [Lit.isPositive_neg]
    cases hl : l.isPositive <;> cases ho : o.isPositive <;> simp_all

theorem length_le_vars {T : List Lit} {n : Nat} (h1 : (T.map Lit.index).Nodup) (h2 : ∀ l ∈ T, l.index < n) :
    T.length ≤ n := by
  have h : (T.map Lit.index).toFinset ⊆ Finset.range n := by
    intro x hx
    obtain ⟨l, hl, rfl⟩ := List.mem_map.1 (List.mem_toFinset.1 hx)
    exact Finset.mem_range.2 (h2 l hl)
  have h3 := Finset.card_le_card h
  rw [List.toFinset_card_of_nodup h1] at h3
  simpa using h3

/-- Either a clause is false, or there is another propagation. -/
theorem UpSeq.extend {D : DB} {K : Finset Lit → Prop} {A : Lit → Prop} {n : Nat}
    {T : List Lit} (hT : UpSeq K A T)
    (hD : ∀ c ∈ D, ∃ R, K R ∧ ∀ o ∈ R, o ∈ c) (hn : ∀ R, K R → ∀ o ∈ R, o.index < n) (h : UpConflict D A)
    (h1 : (T.map Lit.index).Nodup) (h2 : ∀ l ∈ T, l.index < n)
    (next : ∀ l, UpSeq K A (l :: T) → ((l :: T).map Lit.index).Nodup → (∀ x ∈ l :: T, x.index < n) →
      ∃ T R, UpSeq K A T ∧ T.length ≤ n ∧ K R ∧ AllFalse A T R) :
    ∃ T R, UpSeq K A T ∧ T.length ≤ n ∧ K R ∧ AllFalse A T R := by
  by_contra hc
  have nofalse : ∀ R, K R → ¬ AllFalse A T R := fun R hR hf => hc ⟨T, R, hT, length_le_vars h1 h2, hR, hf⟩
  have closed : ∀ R l, K R → l ∈ R → (∀ o ∈ R, o ≠ l → A o.neg ∨ o.neg ∈ T) → A l ∨ l ∈ T := by
    intro R l hR hl hf
    by_contra hx
    have hneg : l.neg ∉ T := by
      intro hm
      refine nofalse R hR fun o ho => ?_
      by_cases he : o = l
      · rw [he]; exact .inr hm
      · exact hf o ho he
    refine hc (next l (.cons hT hR hl hf) ?_ ?_)
    · rw [List.map_cons, List.nodup_cons]
      refine ⟨fun hm => ?_, h1⟩
      obtain ⟨o, ho, he⟩ := List.mem_map.1 hm
      rcases index_cases he with rfl | rfl
      · exact hx (.inr ho)
      · exact hneg ho
    · intro x hx
      rcases List.mem_cons.1 hx with rfl | hx
      · exact hn R hR _ hl
      · exact h2 x hx
  have all : ∀ l, Implied D A l → A l ∨ l ∈ T := by
    intro l hl
    induction hl with
    | asm hl => exact .inl hl
    | @unit l X hm _ ih =>
      obtain ⟨R, hR, hsub⟩ := hD _ hm
      have hf : ∀ o ∈ R, o ≠ l → A o.neg ∨ o.neg ∈ T := by
        intro o ho he
        rcases Multiset.mem_cons.1 (hsub o ho) with rfl | hx
        · exact absurd rfl he
        · exact ih o hx
      by_cases hl : l ∈ R
      · exact closed R l hR hl hf
      · exact absurd (fun o ho => hf o ho fun he => hl (he ▸ ho)) (nofalse R hR)
  obtain ⟨c, hc', hf⟩ := h
  obtain ⟨R, hR, hsub⟩ := hD c hc'
  exact nofalse R hR fun o ho => all _ (hf o (hsub o ho))

/-- A conflict of unit propagation is found by a sequence of propagations of different variables. -/
theorem exists_upSeq {D : DB} {K : Finset Lit → Prop} {A : Lit → Prop} {n : Nat}
    (hD : ∀ c ∈ D, ∃ R, K R ∧ ∀ o ∈ R, o ∈ c) (hn : ∀ R, K R → ∀ o ∈ R, o.index < n) (h : UpConflict D A) :
    ∃ T R, UpSeq K A T ∧ T.length ≤ n ∧ K R ∧ AllFalse A T R := by
  suffices key : ∀ (k : Nat) (T : List Lit), n - T.length ≤ k → UpSeq K A T → (T.map Lit.index).Nodup →
      (∀ l ∈ T, l.index < n) → ∃ T R, UpSeq K A T ∧ T.length ≤ n ∧ K R ∧ AllFalse A T R by
    exact key _ [] (le_refl _) .nil (by simp) (by simp)
  intro k
  induction k with
  | zero => exact fun T hk hT h1 h2 => hT.extend hD hn h h1 h2 fun l hl h3 h4 => absurd (length_le_vars h3 h4) (by simp; omega)
  | succ k ih =>
    exact fun T hk hT h1 h2 => hT.extend hD hn h h1 h2 fun l hl h3 h4 => ih (l :: T) (by simp; omega) hl h3 h4
/-- The clauses with which literals were propagated are resolved with a false clause one after the other. -/
theorem UpSeq.resolve {F : List (List Lit)} {K : Finset Lit → Prop} {A : Lit → Prop} {T : List Lit}
    (hT : UpSeq K A T) : ∀ {π : List (Finset Lit)} {R : Finset Lit}, Derivation F π →
    (∀ C, K C → Known F π C) → Known F π R → AllFalse A T R →
    ∃ ρ R', Derivation F (ρ ++ π) ∧ ρ.length ≤ T.length ∧ Known F (ρ ++ π) R' ∧ ∀ o ∈ R', A o.neg := by
  induction hT with
  | nil =>
    intro π R hπ _ hR hf
    exact ⟨[], R, hπ, by simp, hR, fun o ho => (hf o ho).resolve_right (by simp)⟩
  | @cons T Q l _ hQ hl hq ih =>
    intro π R hπ hK hR hf
    by_cases hm : l.neg ∈ R
    · have hE : Resolvent Q R (Q.erase l ∪ R.erase l.neg) := ⟨l, hl, hm, rfl⟩
      obtain ⟨ρ, R', h1, h2, h3, h4⟩ := ih (π := (Q.erase l ∪ R.erase l.neg) :: π)
        (R := Q.erase l ∪ R.erase l.neg) (.step hπ (hK Q hQ) hR hE) (fun C hC => (hK C hC).append [_])
        (.inr (by simp)) (by
          intro o ho
          rcases Finset.mem_union.1 ho with ho | ho
          · obtain ⟨k1, k2⟩ := Finset.mem_erase.1 ho
            exact hq o k2 k1
          · obtain ⟨k1, k2⟩ := Finset.mem_erase.1 ho
            refine (hf o k2).imp id fun hm => ?_
            rcases List.mem_cons.1 hm with he | hm
            · exact absurd (by rw [← he, Lit.neg_neg]) k1
            · exact hm)
      exact ⟨ρ ++ [Q.erase l ∪ R.erase l.neg], R', by simpa using h1, by simp; omega, by simpa using h3, h4⟩
    · obtain ⟨ρ, R', h1, h2, h3, h4⟩ := ih hπ hK hR (by
        intro o ho
        refine (hf o ho).imp id fun hx => ?_
        rcases List.mem_cons.1 hx with he | hx
        · exact absurd (by rw [← he, Lit.neg_neg]; exact ho) hm
        · exact hx)
      exact ⟨ρ, R', h1, by simp; omega, h3, h4⟩

/-- All clauses of the database contain a clause of the formula or the derivation. -/
def Covers (F : List (List Lit)) (π : List (Finset Lit)) (D : DB) : Prop :=
  ∀ c ∈ D, ∃ R, Known F π R ∧ ∀ o ∈ R, o ∈ c

/-- A conflict of unit propagation gives a derivation with at most as many further steps as there are
variables. -/
theorem UpConflict.derive {F : List (List Lit)} {π : List (Finset Lit)} {D : DB} {A : Lit → Prop} {n : Nat}
    (hn : ∀ c ∈ F, ∀ l ∈ c, l.index < n) (hπ : Derivation F π) (hc : Covers F π D) (h : UpConflict D A) :
    ∃ ρ R, Derivation F (ρ ++ π) ∧ ρ.length ≤ n ∧ Known F (ρ ++ π) R ∧ ∀ o ∈ R, A o.neg := by
  obtain ⟨T, R, h1, h2, h3, h4⟩ := exists_upSeq hc (fun R hR => hπ.lits hn R hR) h
  obtain ⟨ρ, R', k1, k2, k3, k4⟩ := h1.resolve hπ (fun _ h => h) h3 h4
  exact ⟨ρ, R', k1, by omega, k3, k4⟩

end Resolution
end Starlit
