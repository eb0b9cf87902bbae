import Verif.Props.LoadCost
import Verif.Props.Decides
import Verif.Props.SolveCost
import Verif.Props.Footprint
import Verif.Props.ProofSize

/-!
# C106: what a whole run needs is bounded by the formula

Adding the clauses of a formula to a new solver and solving it: the answer, and bounds for time, memory and proof that do
not mention the run.
-/

namespace Starlit

/-- A bound for the steps of `solve()` in terms of the formula: iterations times the work of one, and one step for
each variable in each rescale. -/
def solveBound (F : List (List Lit)) : Nat :=
  iterationBound (formulaVars F) *
      ((77 + 3 * Nat.log 2 (formulaVars F)) * sizeBound F (conflictBound (formulaVars F))) +
    formulaVars F * (3 * sizeBound F (conflictBound (formulaVars F)) * conflictBound (formulaVars F))

/-- A bound for the steps of adding the clauses. -/
def loadBound (F : List (List Lit)) : Nat :=
  2 * (F.map List.length).sum + 5 * F.length + 11 * formulaVars F

theorem Except.map_eq_ok {α β : Type} {f : α → β} {x : M α} {b : β} (h : Except.map f x = .ok b) :
    ∃ a, x = .ok a ∧ f a = b := by
  cases x with
  | error => cases h
  | ok a => exact ⟨a, rfl, Except.ok.inj h⟩

section
variable {env : Env} {F : List (List Lit)} {s s' : Solver}

/-- C106, time: all steps of `solve()`, whatever happens in it. -/
theorem C106_time (h : Solver.Input env F s) (hu : (unitLits F).Nodup) {k : Nat} {t : Cost} {r : Option Bool}
    (e : s.solveT env k = .ok (t, s', r)) : t.1 + formulaVars F * t.2 ≤ solveBound F := by
  have e' : s.solve env k = .ok (s', r) := by rw [← Solver.solveT_erase, e]; rfl
  have hc : s'.ctx.search.conflicts ≤ conflictBound (formulaVars F) := C87_conflicts h e'
  obtain ⟨h1, h2⟩ := C83_total h hu e
  have hs := sizeBound_mono (F := F) hc
  refine Nat.add_le_add (Nat.le_trans h1 (Nat.mul_le_mul ?_ (Nat.mul_le_mul_left _ hs)))
    (Nat.mul_le_mul_left _ (Nat.le_trans h2 (Nat.mul_le_mul (Nat.mul_le_mul_left _ hs) hc)))
  have h3 : s'.ctx.search.conflicts / 512 ≤ conflictBound (formulaVars F) / 512 := Nat.div_le_div_right hc
  have h4 := Nat.mul_le_mul_left (formulaVars F)
    (show s'.ctx.search.conflicts + s'.ctx.search.conflicts / 512 + 2 ≤
      conflictBound (formulaVars F) + conflictBound (formulaVars F) / 512 + 2 by omega)
  unfold iterationBound
  omega

/-- C106, memory: all vectors together. -/
theorem C106_memory (h : Solver.Input env F s) {k : Nat} {r : Option Bool} (e : s.solve env k = .ok (s', r)) :
    3 * s'.search.cells ≤ 51 * formulaVars F + 15 * F.length + 4 * formulaWords F +
      conflictBound (formulaVars F) * (4 * formulaVars F + 18) + 9 := by
  have h1 := C94_total ((Solver.Reachable.input h).solve e)
  have h2 := Nat.mul_le_mul_right (4 * formulaVars F + 18) (C87_conflicts h e)
  unfold conflictBound
  omega

/-- C106, proof: the bytes of the file. -/
theorem C106_proof (h : Solver.Input env F s) {k : Nat} {r : Option Bool} (e : s.solve env k = .ok (s', r))
    {log : List ProofStep} (hl : s'.ctx.proof = some log) (f : Cli.ProofFormat) :
    (f.bytes log).length ≤ 2 * conflictBound (formulaVars F) * lineBytes (formulaVars F) f :=
  Nat.le_trans (C88_bytes ((Solver.Reachable.input h).solve e) hl f)
    (Nat.mul_le_mul_right _ (Nat.mul_le_mul_left _ (C87_conflicts h e)))

/-- C106: adding a formula that fits to a new solver and solving it ends with the right answer within a number of steps
that is a function of the formula. -/
theorem C106_total (env : Env) (hF : Fits F) (hu : (unitLits F).Nodup) :
    ∃ t0 s t s' b, (Solver.default env).addClausesT F = .ok (t0, s) ∧
      s.solveT env (iterationBound (formulaVars F)) = .ok (t, s', some b) ∧
      (b = true ↔ ∃ α, FormulaSat α F) ∧
      t0 + t.1 + formulaVars F * t.2 ≤ loadBound F + solveBound F := by
  have h0 : (Solver.default env).words = 0 := rfl
  have hw := hF.words
  obtain ⟨s, e, _⟩ := C58_addClauses (env := env) F .new hF.valid (by simpa using hF.units) (by omega) hF.length
  have hin : Solver.Input env F s := by simpa using Solver.Input.new.addClauses F hF.valid e
  obtain ⟨s', b, e', hb, _⟩ := C95_answer hF hin (Nat.le_refl _)
  rw [← C104_counted] at e
  rw [← Solver.solveT_erase] at e'
  obtain ⟨⟨t0, s0⟩, f, hs⟩ := Except.map_eq_ok e
  obtain ⟨⟨t, s1, r⟩, f', hs'⟩ := Except.map_eq_ok e'
  cases hs
  cases hs'
  refine ⟨t0, _, t, _, b, f, f', hb, ?_⟩
  have h1 := C104_new F f
  have h2 := C106_time hin hu f'
  unfold loadBound
  omega

end

/-- A case for C106: all eight clauses over three variables take 290 steps, and at most 421465 by the
bound. -/
theorem C106_example : Fits (Example.cnf Example.unsat3) ∧ (unitLits (Example.cnf Example.unsat3)).Nodup ∧
    loadBound (Example.cnf Example.unsat3) + solveBound (Example.cnf Example.unsat3) = 421465 ∧
    ∃ s t s', (Solver.default Example.env).addClausesT (Example.cnf Example.unsat3) = .ok (120, s) ∧
      s.solveT Example.env (iterationBound (formulaVars (Example.cnf Example.unsat3))) = .ok (t, s', some false) ∧
      t = (170, 0) := by
  have h : (do
      let (t0, s) ← (Solver.default Example.env).addClausesT (Example.cnf Example.unsat3)
      let (t, _, r) ← s.solveT Example.env (iterationBound (formulaVars (Example.cnf Example.unsat3)))
      pure (t0, t, r) : M (Nat × Cost × Option Bool)) = .ok (120, (170, 0), some false) := by decide +kernel
  obtain ⟨⟨t0, s⟩, h1, h2⟩ := bind_eq_ok.1 h
  obtain ⟨⟨t, s', r⟩, h3, h2⟩ := bind_eq_ok.1 h2
  have h2 := Except.ok.inj h2
  simp only [Prod.mk.injEq] at h2
  obtain ⟨rfl, a2, rfl⟩ := h2
  have hn : formulaVars (Example.cnf Example.unsat3) = 3 := by decide +kernel
  have hl : Nat.log 2 3 = 1 := by rw [Nat.log_eq_iff] <;> simp
  refine ⟨⟨?_, by decide +kernel, by decide +kernel, by decide +kernel⟩, by decide +kernel, ?_, s, t, s', h1, h3, ?_⟩
  · exact Example.ok_valid (F := Example.unsat3) (by decide +kernel)
  · unfold solveBound
    rw [hn, hl]
    decide +kernel
  · exact a2

end Starlit
