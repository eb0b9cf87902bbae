import Verif.Props.Counters
import Verif.Props.Range
import Verif.Props.Stats

/-!
# C60: decisions, propagations and iterations per conflict are bounded
-/

namespace Starlit

section
variable {env : Env} {F : List (List Lit)} {s s' : Solver}

/-- Each variable has at most one step above the top level. -/
theorem TrailInv.nodup_above {n : Nat} {values : PartialAssignment} {t : Trail} (h : TrailInv n values t)
    {k target : Nat} (hk : 1 ≤ k) (ht : t.decisions[k]? = some target) :
    ((t.steps.map Step.lit).drop target).Nodup := by
  rw [← List.map_drop, List.nodup_iff_getElem?_ne_getElem?]
  intro i j hij hj e
  have hi : i < ((t.steps.drop target).map Step.lit).length := by omega
  rw [List.length_map, List.length_drop] at hi hj
  have gi : t.steps[target + i]? = some (t.steps[target + i]'(by omega)) := List.getElem?_eq_getElem _
  have gj : t.steps[target + j]? = some (t.steps[target + j]'(by omega)) := List.getElem?_eq_getElem _
  rw [List.getElem?_map, List.getElem?_map, List.getElem?_drop, List.getElem?_drop, gi, gj] at e
  simp only [Option.map_some, Option.some.injEq] at e
  obtain ⟨a, x, a1, a2, a3, a4, a5⟩ := h.tix _ _ gi
  obtain ⟨b, y, b1, b2, b3, b4, b5⟩ := h.tix _ _ gj
  have li := (h.level _ _ gi k target hk ht).2 (by omega)
  have lj := (h.level _ _ gj k target hk ht).2 (by omega)
  rw [e, b1] at a1
  cases a1
  omega

theorem Solver.Input.noProps (h : Solver.Input env F s) : s.ctx.prop.propagations = 0 := by
  induction h with
  | new => rfl
  | proof _ ih => exact ih
  | @add F s s' c h hc e ih =>
    unfold Solver.addClause at e
    obtain ⟨s1, e2, e⟩ := bind_eq_ok.1 e
    obtain ⟨⟨ctx, p, r⟩, e3, e⟩ := bind_eq_ok.1 e
    cases e
    have h1 : s1.ctx.prop = s.ctx.prop := by
      unfold Solver.ensureVars at e2
      split at e2
      · unfold Solver.resize at e2
        obtain ⟨a, _, e2⟩ := bind_eq_ok.1 e2
        cases e2; rfl
      · cases e2; rfl
    simp only
    rw [(addClauseVerbatim_trail e3).1, h1]
    exact ih

/-- What bounds the effort in a state. -/
structure Effort (n : Nat) (s : Solver) : Prop where
  decisions : s.ctx.search.decisions ≤
    n * (s.ctx.search.conflicts + s.ctx.search.restarts) + s.search.prop.trail.decisionLevel
  propagations : s.ctx.prop.propagations ≤
    n * (s.ctx.search.conflicts + s.ctx.search.restarts) + s.search.prop.trail.propagated
  restarts : 512 * s.ctx.search.restarts ≤ s.ctx.search.conflicts + 512
  next : 512 * s.ctx.search.restarts ≤ s.schedule.nextRestart
  luby : 0 < s.schedule.luby.v

theorem Solver.Reachable.effort (h : Solver.Reachable env F s) : Effort (formulaVars F) s := by
  induction h with
  | @input s h =>
    have hst := h.start
    have hp := h.noProps
    refine ⟨?_, ?_, ?_, ?_, ?_⟩
    · rw [hst.search]; exact Nat.zero_le _
    · rw [hp]; exact Nat.zero_le _
    · rw [hst.search]; simp
    · rw [hst.search]; simp
    · rw [hst.schedule]; decide
  | @restart s s' h e ih =>
    obtain ⟨L, S, hi⟩ := h.inv
    obtain ⟨s1, e1, _, hr⟩ := maybeRestart_spec hi
    cases e.symm.trans e1
    rcases hr with ⟨_, rfl⟩ | ⟨h1, h2, h3⟩
    · exact ih
    · obtain ⟨ctx', t, e2, _, hc, hl, _, hb⟩ := restart_spec hi
      rw [h2] at e2
      simp only [Except.ok.injEq, Prod.mk.injEq] at e2
      have hlev := hi.prop.trail.level_le_vars
      have hprop : s.search.prop.trail.propagated ≤
          formulaVars F + s'.search.prop.trail.propagated := by
        rw [e2.2]
        rcases hb with ⟨_, rfl⟩ | ⟨target, ht, hb⟩
        · omega
        · have := hi.prop.trail.length_le (hi.prop.trail.nodup_above (Nat.le_refl 1) ht)
          have hp := hi.prop.trail.prop_le
          rw [hb.trail]
          simp only [Trail.cut]
          omega
      have i1 := ih.decisions
      have i2 := ih.propagations
      have i3 := ih.restarts
      have i4 := ih.next
      have i5 := ih.luby
      have hv : s.schedule.luby.advance.1 = s.schedule.luby.v := by
        unfold Luby.advance; split <;> rfl
      have hv2 : 0 < s.schedule.luby.advance.2.v := by
        unfold Luby.advance; split <;> simp; exact i5
      refine ⟨?_, ?_, ?_, ?_, ?_⟩
      · rw [e2.1, hc]
        simp only
        rw [← Nat.add_assoc, Nat.mul_add _ _ 1, Nat.mul_one]
        omega
      · rw [e2.1, hc]
        simp only
        rw [← Nat.add_assoc, Nat.mul_add _ _ 1, Nat.mul_one]
        omega
      · rw [e2.1, hc]
        simp only
        omega
      · rw [e2.1, hc, h3, hv]
        simp only
        omega
      · rw [h3]; exact hv2
  | @reduce s s' h e ih =>
    obtain ⟨L, S, hi⟩ := h.inv
    obtain ⟨s1, e1, _, hr⟩ := maybeReduce_spec hi
    cases e.symm.trans e1
    rcases hr with ⟨_, rfl⟩ | ⟨h1, h2, h3⟩
    · exact ih
    · obtain ⟨ctx', t, L', D, S', e2, _, q, _⟩ := reduce_inv hi
      rw [h2] at e2
      simp only [Except.ok.injEq, Prod.mk.injEq] at e2
      obtain ⟨a, ha⟩ := q.eq
      have hs := q.del.search
      have hp := q.del.prop
      refine ⟨?_, ?_, ?_, ?_, ?_⟩
      · rw [e2.1, e2.2, ha, hs]; exact ih.decisions
      · rw [e2.1, e2.2, ha, hs, hp]; exact ih.propagations
      · rw [e2.1, hs]; exact ih.restarts
      · rw [e2.1, hs, h3]; exact ih.next
      · rw [h3]; exact ih.luby
  | @step s ctx search r h e ih =>
    have hc := searchStep_cases h e
    have i1 := ih.decisions
    have i2 := ih.propagations
    have i3 := ih.restarts
    have i4 := ih.next
    cases hc with
    | already hu => exact ih
    | fail hp h0 =>
      obtain ⟨L, S, S2, hi, q⟩ := hp.phase
      have h1 := (C50_propagations hp).2 (by simp)
      have h2 := q.level
      have h3 := q.propagated
      have h4 := hi.prop.trail.level_le_vars
      refine ⟨?_, ?_, ?_, ?_, ih.luby⟩ <;> simp only [Ctx.conflict, hp.search]
      · rw [Nat.add_right_comm, Nat.mul_add _ _ 1, Nat.mul_one]; omega
      · rw [Nat.add_right_comm, Nat.mul_add _ _ 1, Nat.mul_one]; omega
      · omega
      · exact i4
    | learn hp h0 ea =>
      obtain ⟨L, S, S2, hi, q⟩ := hp.phase
      obtain ⟨S3, S', C, lvl, target, hi3, A⟩ := hp.analyze h0 ea
      have h1 := (C50_propagations hp).2 (by simp)
      have h2 := q.level
      have h3 := q.propagated
      have h4 := hi.prop.trail.level_le_vars
      have h5 := hi3.trail.length_le (hi3.trail.nodup_above (by omega) A.cutpos)
      have h6 := hi3.trail.prop_le
      obtain ⟨a, rest, rr, _, _, ht, _⟩ := A.trail
      have h7 : min _ target = _ := (congrArg Trail.propagated ht).symm
      refine ⟨?_, ?_, ?_, ?_, ih.luby⟩ <;> simp only [A.search, A.prop, Ctx.conflict, hp.search]
      · rw [Nat.add_right_comm, Nat.mul_add _ _ 1, Nat.mul_one]; omega
      · rw [Nat.add_right_comm, Nat.mul_add _ _ 1, Nat.mul_one]; omega
      · omega
      · exact i4
    | @decide p1 p p' ctx1 x v l hp e1 e2 e3 =>
      obtain ⟨L, S, S2, hi, q⟩ := hp.phase
      have h1 := (C50_propagations hp).1 rfl
      have h2 := q.level
      have h3 := q.done rfl
      obtain ⟨d1, d2, _⟩ := assignDecision_trail q.inv.trail e3
      have d3 : p'.trail.propagated = p.trail.propagated := by
        unfold PropState.assignDecision PropState.assign PropState.assignUnit at e3
        obtain ⟨_, _, e3⟩ := bind_eq_ok.1 e3
        obtain ⟨_, _, e3⟩ := bind_eq_ok.1 e3
        split at e3
        · obtain ⟨_, _, e3⟩ := bind_eq_ok.1 e3
          obtain ⟨_, _, e3⟩ := bind_eq_ok.1 e3
          cases e3; rfl
        · cases e3
      refine ⟨?_, ?_, ?_, ?_, ih.luby⟩ <;> simp only [Ctx.decision, hp.search]
      · omega
      · omega
      · exact i3
      · exact i4
    | sat hp e1 =>
      obtain ⟨L, S, S2, hi, q⟩ := hp.phase
      have h1 := (C50_propagations hp).1 rfl
      have h2 := q.level
      have h3 := q.done rfl
      refine ⟨?_, ?_, ?_, ?_, ih.luby⟩ <;> simp only [hp.search]
      · omega
      · omega
      · exact i3
      · exact i4

/-- C60: in every state of every run there is at most one restart per 512 conflicts, except for the one
before the first conflict, and per conflict and restart there are at most as many decisions, and at most as
many propagations, as there are variables.  Repeated unit clauses add to the propagations. -/
theorem C60_effort (h : Solver.Reachable env F s) :
    s.ctx.search.restarts ≤ s.ctx.search.conflicts / 512 + 1 ∧
    s.ctx.search.decisions ≤ formulaVars F * (s.ctx.search.conflicts + s.ctx.search.restarts + 1) ∧
    s.ctx.prop.propagations ≤ formulaVars F * (s.ctx.search.conflicts + s.ctx.search.restarts + 1) +
      (unitLits F).length := by
  obtain ⟨L, S, hi⟩ := h.inv
  have he := h.effort
  have h1 := he.decisions
  have h2 := he.propagations
  have h3 := he.restarts
  have h4 := hi.prop.trail.level_le_vars
  have h5 := hi.prop.trail.length_le (h.fixed.nodup (unitLits F).length (.inr (Nat.le_refl _)))
  have h6 := hi.prop.trail.prop_le
  refine ⟨by omega, ?_, ?_⟩
  · rw [Nat.mul_add _ _ 1, Nat.mul_one]; omega
  · rw [Nat.mul_add _ _ 1, Nat.mul_one]; omega

/-- An iteration of `solve()` that does not answer makes one decision or has one conflict. -/
theorem scheduleStep_effort (h : Solver.Reachable env F s) (e : s.scheduleStep env = .ok (s', none)) :
    Solver.Reachable env F s' ∧ s'.ctx.search.conflicts + s'.ctx.search.decisions =
      s.ctx.search.conflicts + s.ctx.search.decisions + 1 := by
  obtain ⟨s1, s2, ctx, search, e1, e2, e3, rfl⟩ := Solver.scheduleStep_eq e
  have r1 := h.restart e1
  have r2 := r1.reduce e2
  refine ⟨r2.step e3, ?_⟩
  have a1 : s1.ctx.search.conflicts = s.ctx.search.conflicts ∧
      s1.ctx.search.decisions = s.ctx.search.decisions := by
    rcases C55_restart h e1 with ⟨_, rfl⟩ | ⟨_, _, _, h4, h5, _⟩
    · exact ⟨rfl, rfl⟩
    · exact ⟨h4, h5⟩
  have a2 : s2.ctx.search.conflicts = s1.ctx.search.conflicts ∧
      s2.ctx.search.decisions = s1.ctx.search.decisions := by
    rcases C55_reduce r1 e2 with ⟨_, rfl⟩ | ⟨_, _, _, _, _, h4, h5, _⟩
    · exact ⟨rfl, rfl⟩
    · exact ⟨h4, h5⟩
  cases hu : s2.search.prop.unsat with
  | true =>
    unfold searchStep at e3
    rw [if_pos hu] at e3
    cases e3
  | false =>
    obtain ⟨p1, ctx1, p, c, hp, hl, hk⟩ := C55_step r2 hu e3
    cases hk with
    | learned h1 => simp only [h1]; omega
    | decided h1 => simp only [h1]; omega

/-- C60: the iterations of `solve()` are the conflicts and decisions. -/
theorem C60_iterations {k : Nat} (h : Solver.Reachable env F s) (e : s.solve env k = .ok (s', none)) :
    s'.ctx.search.conflicts + s'.ctx.search.decisions =
      s.ctx.search.conflicts + s.ctx.search.decisions + k := by
  induction k generalizing s with
  | zero => cases e; rfl
  | succ k ih =>
    simp only [Solver.solve] at e
    obtain ⟨⟨s1, r1⟩, e1, e⟩ := bind_eq_ok.1 e
    cases r1 with
    | some b => cases e
    | none =>
      obtain ⟨h1, h2⟩ := scheduleStep_effort h e1
      have := ih h1 e
      omega

/-- C60: a run that is still going on after `k` iterations and has had `c` conflicts has
`k ≤ c + n * (c + c / 512 + 2)`: a run without progress in conflicts ends. -/
theorem C60_bound {k : Nat} (h : Solver.Input env F s) (e : s.solve env k = .ok (s', none)) :
    k ≤ s'.ctx.search.conflicts +
      formulaVars F * (s'.ctx.search.conflicts + s'.ctx.search.conflicts / 512 + 2) := by
  have hr : Solver.Reachable env F s := .input h
  have h1 := C60_iterations hr e
  obtain ⟨h2, h3, _⟩ := C60_effort (hr.solve e)
  have h4 : s.ctx.search = ⟨0, 0, 0, 0⟩ := h.start.search
  rw [h4] at h1
  simp only at h1
  have h5 : formulaVars F * (s'.ctx.search.conflicts + s'.ctx.search.restarts + 1) ≤
      formulaVars F * (s'.ctx.search.conflicts + s'.ctx.search.conflicts / 512 + 2) :=
    Nat.mul_le_mul_left _ (by omega)
  omega

end

/-- The hypotheses of C60 are met by a run that is still going on after 34 iterations, with 14 conflicts, 20
decisions and one restart for a formula with 20 variables. -/
theorem C60_example : ∃ s s', Solver.Input Example.envReduce (Example.cnf (Example.php 5 4)) s ∧
    s.solve Example.envReduce 34 = .ok (s', none) ∧ formulaVars (Example.cnf (Example.php 5 4)) = 20 ∧
    s'.ctx.search = ⟨20, 14, 1, 15⟩ ∧ s'.ctx.prop.propagations = 33 := by
  have h : (do
      let s ← (Solver.default Example.envReduce).writeProof.addClauses (Example.cnf (Example.php 5 4))
      let (s', r) ← s.solve Example.envReduce 34
      pure (r, s'.ctx.search, s'.ctx.prop.propagations) : M (Option Bool × SearchStats × Nat)) =
      .ok (none, ⟨20, 14, 1, 15⟩, 33) := by
    decide +kernel
  obtain ⟨s, h1, h2⟩ := bind_eq_ok.1 h
  obtain ⟨⟨s', r⟩, h3, h2⟩ := bind_eq_ok.1 h2
  have h2 := Except.ok.inj h2
  simp only [Prod.mk.injEq] at h2
  obtain ⟨rfl, a1, a2⟩ := h2
  have hi := Solver.Input.addClauses _ (.proof (.new (env := Example.envReduce)))
    (Example.ok_valid (F := Example.php 5 4) (by decide +kernel)) h1
  exact ⟨s, s', by simpa using hi, h3, by decide +kernel, a1, a2⟩

end Starlit
