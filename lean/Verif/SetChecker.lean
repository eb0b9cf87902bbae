import Mathlib.Data.Multiset.UnionInter
import Mathlib.Data.Finset.Basic
import Verif.Spec

/-!
# Proof checkers that take clauses as sets, and checkers that ignore deletions

This file is a specification.  The checker of `Verif/Spec.lean` keeps every copy of a clause and obeys every
deletion.  Other checkers remove repeated literals and store each clause once, so that a deletion removes all copies
(`Reads`); and some, like `drat-trim`, ignore deletions of clauses they need themselves.  Which deletions are ignored is
left open here: `Reads` and `ReadsCopies` are relations, and a deletion may have any effect between none and the full one.
-/

namespace Starlit.SetChecker

/-- The literal is derived by unit propagation from the clauses of `D` and the literals in `A`. -/
inductive Implied (D : Set (Finset Lit)) (A : Lit → Prop) : Lit → Prop where
  | asm {l : Lit} : A l → Implied D A l
  | unit {l : Lit} {C : Finset Lit} : C ∈ D → l ∈ C → (∀ o ∈ C, o ≠ l → Implied D A o.neg) → Implied D A l

/-- Unit propagation falsifies a clause. -/
def UpConflict (D : Set (Finset Lit)) (A : Lit → Prop) : Prop := ∃ K ∈ D, ∀ o ∈ K, Implied D A o.neg

/-- Reverse unit propagation. -/
def RUP (D : Set (Finset Lit)) (C : Finset Lit) : Prop := UpConflict D (fun l => l.neg ∈ C)

/-- The clauses of a formula. -/
def clauses (F : List (List Lit)) : Set (Finset Lit) := { C | ∃ c ∈ F, C = c.toFinset }

/-- `D` are the clauses after reading the lines for the formula `F`.  A deletion removes the clause, or is ignored. -/
inductive Reads (F : List (List Lit)) : List ProofStep → Set (Finset Lit) → Prop where
  | nil : Reads F [] (clauses F)
  | add {log : List ProofStep} {D : Set (Finset Lit)} {c : List Lit} : Reads F log D →
      Reads F (log ++ [.add c]) (insert c.toFinset D)
  | delete {log : List ProofStep} {D D' : Set (Finset Lit)} {c : List Lit} : Reads F log D → D' ⊆ D →
      D ⊆ insert c.toFinset D' → Reads F (log ++ [.delete c]) D'

/-- The same for a checker that keeps copies. -/
inductive ReadsCopies (F : List (List Lit)) : List ProofStep → DB → Prop where
  | nil : ReadsCopies F [] (toDB F)
  | add {log : List ProofStep} {D : DB} {c : List Lit} : ReadsCopies F log D →
      ReadsCopies F (log ++ [.add c]) ((c : Multiset Lit) ::ₘ D)
  | delete {log : List ProofStep} {D D' : DB} {c : List Lit} : ReadsCopies F log D → D' ≤ D →
      D ≤ (c : Multiset Lit) ::ₘ D' → ReadsCopies F (log ++ [.delete c]) D'

/-- What is derived from copies is derived from the sets. -/
theorem implied_of {E : DB} {D : Set (Finset Lit)} {A : Lit → Prop} (h : ∀ c ∈ E, c.toFinset ∈ D) {l : Lit}
    (hl : Starlit.Implied E A l) : Implied D A l := by
  induction hl with
  | asm h => exact .asm h
  | @unit l R hm _ ih =>
    refine .unit (h _ hm) (by simp) fun o ho hne => ih o ?_
    rw [Multiset.mem_toFinset, Multiset.mem_cons] at ho
    exact ho.resolve_left hne

theorem upConflict_of {E : DB} {D : Set (Finset Lit)} {A : Lit → Prop} (h : ∀ c ∈ E, c.toFinset ∈ D)
    (hc : Starlit.UpConflict E A) : UpConflict D A := by
  obtain ⟨K, hK, hc⟩ := hc
  exact ⟨K.toFinset, h K hK, fun o ho => implied_of h (hc o (Multiset.mem_toFinset.1 ho))⟩

theorem rup_of {E : DB} {D : Set (Finset Lit)} {c : List Lit} (h : ∀ c ∈ E, c.toFinset ∈ D)
    (hc : Starlit.RUP E (c : Multiset Lit)) : RUP D c.toFinset := by
  have := upConflict_of h hc
  simpa [RUP] using this

end Starlit.SetChecker
