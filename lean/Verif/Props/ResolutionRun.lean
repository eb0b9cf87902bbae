import Verif.Resolution
import Verif.Props.Fresh
import Verif.Props.Logging
import Verif.Solver.Incremental

/-!
# C84: runs of the solver are short resolution proofs

What the solver learns has a resolution derivation with at most one step for each conflict and variable.  So
the number of conflicts is bounded from below by the size of the shortest resolution refutation.
-/

namespace Starlit
open Resolution

section
variable {env : Env} {F : List (List Lit)} {s s' : Solver} {k : Nat}

/-- An accepted log gives a resolution derivation with one step for each addition and variable. -/
theorem Accepted.derivation {log : List ProofStep} {L : DB} (h : Accepted (toDB F) log L) :
    ∃ π, Derivation F π ∧ π.length ≤ formulaVars F * additions log ∧ Resolution.Covers F π (toDB F + L) := by
  induction h with
  | nil =>
    refine ⟨[], .nil, by simp [additions], ?_⟩
    intro c hc
    rw [Multiset.add_zero] at hc
    unfold toDB at hc
    obtain ⟨d, hd, rfl⟩ := List.mem_map.1 (Multiset.mem_coe.1 hc)
    exact ⟨d.toFinset, .inl ⟨d, hd, rfl⟩, fun o ho => by simpa using ho⟩
  | @add log L c _ hr _ ih =>
    obtain ⟨π, h1, h2, h3⟩ := ih
    obtain ⟨ρ, R, k1, k2, k3, k4⟩ := UpConflict.derive (fun c hc l hl => lt_formulaVars hc hl) h1 h3 hr
    have k4' : ∀ o ∈ R, o ∈ (c : Multiset Lit) := fun o ho => by simpa using k4 o ho
    refine ⟨ρ ++ π, k1, ?_, ?_⟩
    · have : additions (log ++ [.add c]) = additions log + 1 := by rw [additions_append]; rfl
      rw [List.length_append, this, Nat.mul_add]
      omega
    · intro d hd
      rcases Multiset.mem_add.1 hd with hd | hd
      · obtain ⟨Q, q1, q2⟩ := h3 d (Multiset.mem_add.2 (.inl hd))
        exact ⟨Q, q1.append ρ, q2⟩
      · rcases Multiset.mem_cons.1 hd with rfl | hd
        · exact ⟨R, k3, k4'⟩
        · obtain ⟨Q, q1, q2⟩ := h3 d (Multiset.mem_add.2 (.inr hd))
          exact ⟨Q, q1.append ρ, q2⟩
  | @delete log L c _ _ ih =>
    obtain ⟨π, h1, h2, h3⟩ := ih
    refine ⟨π, h1, ?_, ?_⟩
    · have : additions (log ++ [.delete c]) = additions log := by rw [additions_append]; rfl
      rw [this]; exact h2
    · intro d hd
      refine h3 d ?_
      rcases Multiset.mem_add.1 hd with hd | hd
      · exact Multiset.mem_add.2 (.inl hd)
      · exact Multiset.mem_add.2 (.inr (Multiset.mem_cons_of_mem hd))

/-- A run without a proof is also one with a proof. -/
theorem Solver.Input.logged (h : Solver.Input env F s) {r : Option Bool} (e : s.solve env k = .ok (s', r)) :
    ∃ s1 s1', Solver.Input env F s1 ∧ s1.ctx.proof ≠ none ∧ s1.solve env k = .ok (s1', r) ∧
      s'.search = s1'.search ∧ s'.ctx.search = s1'.ctx.search := by
  by_cases hp : s.ctx.proof = none
  · have hq : s = s.writeProof.quiet := by
      obtain ⟨⟨_, _, _, _⟩, _, _⟩ := s
      simp only at hp
      subst hp
      rfl
    have e2 := C39_logging_irrelevant k (.input (.proof h))
    rw [← hq, e] at e2
    cases e3 : s.writeProof.solve env k with
    | error x => rw [e3] at e2; cases e2
    | ok x =>
      rw [e3] at e2
      simp only [Except.map, Except.ok.injEq, Prod.mk.injEq] at e2
      obtain ⟨rfl, rfl⟩ := e2
      exact ⟨s.writeProof, x.1, .proof h, by simp [Solver.writeProof], e3, rfl, rfl⟩
  · exact ⟨s, s', h, hp, e, rfl, rfl⟩

theorem solve_unsat_flag {n : Nat} {D : DB} (h : SolverInv env n D s) (e : s.solve env k = .ok (s', some false)) :
    s'.search.prop.unsat = true := by
  obtain ⟨s2, ctx, search, ⟨L, S, h2⟩, e2, rfl⟩ := solve_last_inv h e
  obtain ⟨L', S', _, q⟩ := (searchStep_spec h2).ok_elim e2
  exact q.unsat

/-- C84: for the state after any number of iterations of `solve()` there is a resolution derivation from the
formula that has at most one step for each conflict and variable, and for every stored clause contains that clause
or a part of it. -/
theorem C84_learned (h : Solver.Input env F s) {r : Option Bool} (e : s.solve env k = .ok (s', r)) :
    ∃ π, Derivation F π ∧ π.length ≤ formulaVars F * s'.ctx.search.conflicts ∧
      ∀ D, Stored s'.search.prop D → ∃ R, Known F π R ∧ ∀ o ∈ R, o ∈ D := by
  obtain ⟨s1, s1', h1, hp, e1, q1, q2⟩ := h.logged e
  rw [q1, q2]
  clear e q1 q2 h
  have hr : Solver.Reachable env F s1' := Solver.Reachable.solve (.input h1) e1
  have hcnt := C55_run hr
  obtain ⟨S0, h0, _⟩ := h1.pending
  have hlog := solve_log ⟨0, S0, h0⟩ e1
  obtain ⟨L, S, hi⟩ := hr.inv
  obtain ⟨log, a, hl, _⟩ := hi.proof
  have hsome : s1'.ctx.proof = some log := by
    rcases hl with hl | hl
    · exfalso
      cases hx : s1.ctx.proof with
      | none => exact hp hx
      | some l0 =>
        obtain ⟨new, en⟩ := hlog.2 l0 hx
        rw [hl] at en; simp at en
    · exact hl
  obtain ⟨π, k1, k2, k3⟩ := a.derivation
  refine ⟨π, k1, le_trans k2 (Nat.mul_le_mul_left _ ?_), ?_⟩
  · cases hu : s1'.search.prop.unsat with
    | false => exact (hcnt.open_ hu log hsome).symm.le
    | true => rcases hcnt.closed hu log hsome with h | h <;> omega
  · intro D hD
    refine k3 D ?_
    cases hD with
    | unit h1 h2 => exact hi.db.unit _ h1 h2
    | binary h1 h2 => exact hi.db.bin _ _ _ h1 h2
    | long h1 =>
      obtain ⟨e, he, hl, rfl, rfl, rfl⟩ := hi.prop.rep.storedAt_iff.1 h1
      exact hi.db.mem he hl

/-- C84: if `solve()` answers UNSAT there is a resolution refutation of the formula that has at most one step for
each conflict and variable (if there was no conflict: one step for each variable). -/
theorem C84_refutation (h : Solver.Input env F s) (e : s.solve env k = .ok (s', some false)) :
    ∃ π, Refutation F π ∧ π.length ≤ formulaVars F * max 1 s'.ctx.search.conflicts := by
  obtain ⟨s1, s1', h1, hp, e1, q1, q2⟩ := h.logged e
  rw [q2]
  clear e q1 q2 h
  have hr : Solver.Reachable env F s1' := Solver.Reachable.solve (.input h1) e1
  have hcnt := C55_run hr
  obtain ⟨S0, h0, hpend⟩ := h1.pending
  obtain ⟨log, L', a, hl, hc⟩ := solve_refuted h0 hpend e1
  have hlog := solve_log ⟨0, S0, h0⟩ e1
  have hsome : s1'.ctx.proof = some log := by
    rcases hl with hl | hl
    · exfalso
      cases hx : s1.ctx.proof with
      | none => exact hp hx
      | some l0 =>
        obtain ⟨new, en⟩ := hlog.2 l0 hx
        rw [hl] at en; simp at en
    · exact hl
  obtain ⟨π, k1, k2, k3⟩ := a.derivation
  obtain ⟨ρ, R, q1, q2, q3, q4⟩ := UpConflict.derive (fun c hc l hl => lt_formulaVars hc hl) k1 k3 hc
  have hR : R = ∅ := Finset.eq_empty_of_forall_notMem fun o ho => q4 o ho
  refine ⟨ρ ++ π, ⟨q1, hR ▸ q3⟩, ?_⟩
  have hadd : additions log + 1 ≤ max 1 s1'.ctx.search.conflicts := by
    cases hu : s1'.search.prop.unsat with
    | false => rw [solve_unsat_flag ⟨_, _, h0⟩ e1] at hu; cases hu
    | true => rcases hcnt.closed hu log hsome with h | h <;> omega
  calc (ρ ++ π).length = ρ.length + π.length := List.length_append
    _ ≤ formulaVars F + formulaVars F * additions log := by omega
    _ = formulaVars F * (additions log + 1) := by rw [Nat.mul_add, Nat.mul_one, Nat.add_comm]
    _ ≤ _ := Nat.mul_le_mul_left _ hadd

/-- C84: if all resolution refutations of the formula have at least `N` steps, `solve()` needs at least `N`
divided by the number of variables many conflicts to answer UNSAT, whatever it decides. -/
theorem C84_conflicts (h : Solver.Input env F s) (e : s.solve env k = .ok (s', some false)) {N : Nat}
    (hN : ∀ π, Refutation F π → N ≤ π.length) : N ≤ formulaVars F * max 1 s'.ctx.search.conflicts := by
  obtain ⟨π, h1, h2⟩ := C84_refutation h e
  exact le_trans (hN π h1) h2

end

/-- A case for C84: the pigeonhole formula with four pigeons has 12 variables and is refuted with 6 conflicts, so
it has a resolution refutation with at most 72 steps. -/
theorem C84_example : ∃ s s', Solver.Input Example.env (Example.cnf (Example.php 4 3)) s ∧
    s.solve Example.env 100 = .ok (s', some false) ∧ s'.ctx.search.conflicts = 6 := by
  have h : (Example.run (Example.php 4 3)).map (fun x => (x.1.ctx.search.conflicts, x.2)) =
      .ok (6, some false) := by decide +kernel
  obtain ⟨⟨s', r⟩, h1, h2⟩ := Example.of_map h
  simp only [Prod.mk.injEq] at h2
  obtain ⟨h2, rfl⟩ := h2
  unfold Example.run Example.load at h1
  obtain ⟨s, h3, h1⟩ := bind_eq_ok.1 h1
  have hi := Solver.Input.addClauses _ (.proof (.new (env := Example.env)))
    (Example.ok_valid (F := Example.php 4 3) (by decide +kernel)) h3
  exact ⟨s, s', by simpa using hi, h1, h2⟩

end Starlit
