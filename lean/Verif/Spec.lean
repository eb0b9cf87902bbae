import Mathlib.Data.Multiset.AddSub
import Mathlib.Data.Multiset.Filter
import Verif.Drat

/-!
# Specification: formulas, unit propagation, DRAT proofs

Independent of the solver model; only literals (`Verif/Lit.lean`) and proof steps
(`Verif/Drat.lean`) are shared.
-/

namespace Starlit

/-- A Boolean assignment satisfies a literal. -/
def LitSat (α : Nat → Bool) (l : Lit) : Prop := α l.index = l.isPositive

/-- A Boolean assignment satisfies all clauses. -/
def FormulaSat (α : Nat → Bool) (F : List (List Lit)) : Prop := ∀ c ∈ F, ∃ l ∈ c, LitSat α l

/-- No assignment satisfies all clauses. -/
def FormulaUnsat (F : List (List Lit)) : Prop := ∀ α, ¬ FormulaSat α F

/-- A clause database: clauses up to the order of literals, with multiplicities. -/
abbrev DB := Multiset (Multiset Lit)

/-- The database of a formula. -/
def toDB (F : List (List Lit)) : DB := Multiset.ofList (F.map Multiset.ofList)

/-- The literal is derived by unit propagation from the clauses of `D` and the literals in `A`. -/
inductive Implied (D : DB) (A : Lit → Prop) : Lit → Prop where
  | asm {l : Lit} : A l → Implied D A l
  | unit {l : Lit} {R : Multiset Lit} : l ::ₘ R ∈ D → (∀ o ∈ R, Implied D A o.neg) → Implied D A l

/-- Unit propagation falsifies a clause of `D`. -/
def UpConflict (D : DB) (A : Lit → Prop) : Prop := ∃ K ∈ D, ∀ o ∈ K, Implied D A o.neg

/-- Reverse unit propagation: assuming the negation of `C`, unit propagation falsifies a clause. -/
def RUP (D : DB) (C : Multiset Lit) : Prop := UpConflict D (fun l => l.neg ∈ C)

/-- The log of proof steps is accepted for the formula `F`, and `L` are the clauses added and not
deleted so far.  Additions have to be RUP and consist of valid literals; deletions have to name a clause that was added (never a
clause of `F` itself) with at least three literals. -/
inductive Accepted (F : DB) : List ProofStep → DB → Prop where
  | nil : Accepted F [] 0
  | add {log : List ProofStep} {L : DB} {c : List Lit} : Accepted F log L →
      RUP (F + L) (c : Multiset Lit) → (∀ l ∈ c, l.Valid) → Accepted F (log ++ [.add c]) ((c : Multiset Lit) ::ₘ L)
  | delete {log : List ProofStep} {L : DB} {c : List Lit} : Accepted F log ((c : Multiset Lit) ::ₘ L) →
      3 ≤ c.length → Accepted F (log ++ [.delete c]) L

/-! ## Basic facts -/

theorem Implied.mono {D D' : DB} {A A' : Lit → Prop} (hD : ∀ c ∈ D, c ∈ D')
    (hA : ∀ l, A l → Implied D' A' l) {l : Lit} (h : Implied D A l) : Implied D' A' l := by
  induction h with
  | asm h => exact hA _ h
  | unit h _ ih => exact .unit (hD _ h) ih

theorem UpConflict.mono {D D' : DB} {A A' : Lit → Prop} (hD : ∀ c ∈ D, c ∈ D')
    (hA : ∀ l, A l → Implied D' A' l) (h : UpConflict D A) : UpConflict D' A' := by
  obtain ⟨K, hK, h⟩ := h
  exact ⟨K, hD K hK, fun o ho => (h o ho).mono hD hA⟩

/-- An assignment satisfies a database. -/
def DBSat (α : Nat → Bool) (D : DB) : Prop := ∀ c ∈ D, ∃ l ∈ c, LitSat α l

theorem dbSat_toDB {α : Nat → Bool} {F : List (List Lit)} : DBSat α (toDB F) ↔ FormulaSat α F := by
  simp only [DBSat, FormulaSat, toDB, Multiset.mem_coe, List.mem_map]
  constructor
  · intro h c hc; exact h c ⟨c, hc, rfl⟩
  · rintro h _ ⟨c, hc, rfl⟩; exact h c hc

theorem litSat_neg {α : Nat → Bool} {l : Lit} : LitSat α l.neg ↔ ¬ LitSat α l := by
  unfold LitSat
  rw [Lit.index_neg, Lit.isPositive_neg]
  cases α l.index <;> cases l.isPositive <;> simp

/-- Unit propagation is sound. -/
theorem Implied.sat {D : DB} {A : Lit → Prop} {α : Nat → Bool} (hD : DBSat α D)
    (hA : ∀ l, A l → LitSat α l) {l : Lit} (h : Implied D A l) : LitSat α l := by
  induction h with
  | asm h => exact hA _ h
  | @unit l R h _ ih =>
    obtain ⟨x, hx, hs⟩ := hD _ h
    rcases Multiset.mem_cons.1 hx with rfl | hx
    · exact hs
    · exact absurd hs (litSat_neg.1 (ih x hx))

theorem UpConflict.unsat {D : DB} {A : Lit → Prop} {α : Nat → Bool} (h : UpConflict D A)
    (hA : ∀ l, A l → LitSat α l) : ¬ DBSat α D := by
  intro hD
  obtain ⟨K, hK, h⟩ := h
  obtain ⟨x, hx, hs⟩ := hD K hK
  exact litSat_neg.1 ((h x hx).sat hD hA) hs

/-- A RUP clause is implied. -/
theorem RUP.sat {D : DB} {C : Multiset Lit} (h : RUP D C) {α : Nat → Bool} (hD : DBSat α D) :
    ∃ l ∈ C, LitSat α l := by
  by_contra hc
  refine UpConflict.unsat h (α := α) ?_ hD
  intro l hl
  by_contra hn
  exact hc ⟨l.neg, hl, litSat_neg.2 hn⟩

/-- All clauses of an accepted log are implied by the formula. -/
theorem Accepted.sat {F : DB} {log : List ProofStep} {L : DB} (h : Accepted F log L)
    {α : Nat → Bool} (hF : DBSat α F) : DBSat α L := by
  induction h with
  | nil => intro c hc; simp at hc
  | @add log L c _ hr _ ih =>
    intro x hx
    rcases Multiset.mem_cons.1 hx with rfl | hx
    · refine hr.sat ?_
      intro y hy
      rcases Multiset.mem_add.1 hy with hy | hy
      · exact hF y hy
      · exact ih y hy
    · exact ih x hx
  | delete _ _ ih => intro x hx; exact ih x (Multiset.mem_cons_of_mem hx)

/-- All literals of an accepted log are valid. -/
theorem Accepted.valid {F : DB} {log : List ProofStep} {L : DB} (h : Accepted F log L) :
    (∀ c, .add c ∈ log ∨ .delete c ∈ log → ∀ l ∈ c, l.Valid) ∧ ∀ c ∈ L, ∀ l ∈ c, l.Valid := by
  induction h with
  | nil => simp
  | @add log L c _ _ hv ih =>
    refine ⟨?_, ?_⟩
    · intro x hx
      simp only [List.mem_append, List.mem_singleton, ProofStep.add.injEq, reduceCtorEq, or_false] at hx
      rcases hx with (hx | rfl) | hx
      · exact ih.1 x (.inl hx)
      · exact hv
      · exact ih.1 x (.inr hx)
    · intro x hx
      rcases Multiset.mem_cons.1 hx with rfl | hx
      · exact hv
      · exact ih.2 x hx
  | @delete log L c _ _ ih =>
    refine ⟨?_, fun x hx => ih.2 x (Multiset.mem_cons_of_mem hx)⟩
    intro x hx
    simp only [List.mem_append, List.mem_singleton, ProofStep.delete.injEq, reduceCtorEq, or_false] at hx
    rcases hx with hx | hx | rfl
    · exact ih.1 x (.inl hx)
    · exact ih.1 x (.inr hx)
    · exact ih.2 _ (Multiset.mem_cons_self _ _)

/-- An accepted log whose final database is refuted by unit propagation shows unsatisfiability. -/
theorem Accepted.unsat {F : List (List Lit)} {log : List ProofStep} {L : DB}
    (h : Accepted (toDB F) log L) (hc : UpConflict (toDB F + L) (fun _ => False)) :
    FormulaUnsat F := by
  intro α hα
  have hF := dbSat_toDB.2 hα
  refine hc.unsat (α := α) (by simp) ?_
  intro y hy
  rcases Multiset.mem_add.1 hy with hy | hy
  · exact hF y hy
  · exact h.sat hF y hy

end Starlit
