import Verif.Props.Sizes
import Verif.Props.GcCost
import Verif.Props.Guided
import Verif.Props.LubySum
import Verif.Props.Incremental
import Verif.Props.ResolutionRun

/-!
# C97: asking again

`solve()` can be called any number of times (starlit/src/solver.rs:61-68).  After the answer `true` the assignment stays in place and the next
call finds it complete: it answers `true` again and changes nothing, so the user can read the same model.  After the answer `false` all
further calls answer `false`, also when clauses are added in between.
-/

namespace Starlit

/-! ## Propagation keeps the size of the arena -/

section
variable {env : Env} {p p' : PropState} {l : Lit}

theorem len_visitWatch {w : Watch} : Res (visitWatch l w p) (fun r => r.1.long.buffer.length = p.long.buffer.length) := by
  unfold visitWatch
  refine Res.any fun b => ?_
  split
  · exact Res.pure rfl
  refine Res.any fun r => ?_
  obtain ⟨hd, ls⟩ := r
  dsimp only
  split
  · exact Res.pure rfl
  refine Res.any fun l0 => Res.any fun l1 => Res.any fun _ => Res.any fun b => ?_
  split
  · exact Res.pure rfl
  refine Res.any fun r => ?_
  cases r with
  | isTrue x pos => exact Res.bind fit_modHeader.res fun a ha => Res.pure ha
  | unassigned x pos =>
    refine Res.any fun ws => Res.bind fit_modHeader.res fun a ha => ?_
    refine Res.any fun _ => Res.any fun _ => Res.any fun _ => ?_
    exact Res.bind fit_setLits.res fun a' ha' => Res.pure (ha'.trans ha)
  | none pos =>
    refine Res.bind fit_modHeader.res fun a ha => Res.any fun b => ?_
    split
    · exact Res.pure ha
    refine Res.any fun _ => Res.any fun _ => Res.bind fit_setLits.res fun a' ha' => ?_
    refine Res.bind res_assign fun p1 h1 => Res.pure ?_
    rw [h1]; exact ha'.trans ha

theorem len_propagateLongLoop : ∀ (ws kept : List Watch) {p : PropState},
    Res (propagateLongLoop l ws kept p) (fun r => r.1.long.buffer.length = p.long.buffer.length)
  | [], _, p => Res.pure rfl
  | w :: ws, kept, p => by
    unfold propagateLongLoop
    refine Res.bind len_visitWatch fun r h1 => ?_
    obtain ⟨p1, r⟩ := r
    cases r with
    | keep w => exact (len_propagateLongLoop ws _).mono fun _ h2 => h2.trans h1
    | remove => exact (len_propagateLongLoop ws _).mono fun _ h2 => h2.trans h1
    | conflict w => exact Res.pure h1

theorem len_propagateLiteral : Res (propagateLiteral p l) (fun r => r.1.long.buffer.length = p.long.buffer.length) := by
  unfold propagateLiteral
  refine Res.any fun _ => Res.bind (res_propagateBinary _) fun r h1 => ?_
  obtain ⟨p1, r⟩ := r
  cases r with
  | some c => exact Res.pure (congrArg (fun a : Arena => a.buffer.length) h1)
  | none =>
    unfold propagateLong
    refine Res.any fun _ => Res.any fun _ => Res.any fun _ => Res.bind (len_propagateLongLoop _ _) fun r h2 => ?_
    obtain ⟨p2, kept, r⟩ := r
    refine Res.any fun _ => Res.any fun _ => Res.any fun _ => Res.any fun _ => Res.pure ?_
    exact h2.trans (congrArg (fun a : Arena => a.buffer.length) h1)

theorem len_propagateLoop : ∀ (fuel : Nat) {p : PropState},
    Res (propagateLoop fuel p) (fun r => r.1.long.buffer.length = p.long.buffer.length)
  | 0, _ => Res.throw
  | fuel + 1, p => by
    unfold propagateLoop
    split
    · exact Res.pure rfl
    refine Res.bind len_propagateLiteral fun r h1 => ?_
    obtain ⟨p1, r⟩ := r
    cases r with
    | some c => exact Res.pure h1
    | none => exact Res.any fun _ => (len_propagateLoop fuel).mono fun _ h2 => h2.trans h1

theorem len_propagate {ctx : Ctx} : Res (propagate ctx p) (fun r => r.2.1.long.buffer.length = p.long.buffer.length) := by
  unfold propagate
  refine Res.bind res_rebuild fun q hq => Res.bind (len_propagateLoop _) fun r h1 => ?_
  obtain ⟨p1, r⟩ := r
  rw [hq] at h1
  cases r with
  | some c => exact Res.pure h1
  | none => exact Res.any fun _ => Res.pure h1

end

/-! ## Nothing to do -/

section
variable {env : Env} {F : List (List Lit)} {s s' : Solver} {p p1 q : PropState} {ctx ctx1 : Ctx}

theorem Arena.gapsUpdate_nil (c : Nat) : Arena.gapsUpdate [] c = .ok (some c) := rfl

theorem Trail.updateSteps_nil : ∀ ss : List Step, Trail.updateSteps [] ss = .ok ss
  | [] => rfl
  | s :: ss => by
    obtain ⟨l, v, r⟩ := s
    unfold Trail.updateSteps
    rw [Trail.updateSteps_nil ss]
    cases r <;> rfl

theorem Watches.updateList_nil : ∀ ws : List Watch, Watches.updateList [] ws = .ok ws
  | [] => rfl
  | w :: ws => by
    unfold Watches.updateList
    rw [Watches.updateList_nil ws]
    rfl

theorem Watches.updateAll_nil : ∀ ls : List (List Watch), Watches.updateAll [] ls = .ok ls
  | [] => rfl
  | l :: ls => by
    unfold Watches.updateAll
    rw [Watches.updateAll_nil ls, Watches.updateList_nil l]
    rfl

/-- Collecting the garbage of an empty arena. -/
theorem collectGarbageNow_empty (h : p.long = ⟨[], 0⟩) (he : p.watches.enabled = true) : collectGarbageNow p = .ok p := by
  unfold collectGarbageNow
  rw [if_pos (by rw [h]; decide), h]
  have e : Arena.collectGarbage Long.hl ⟨[], 0⟩ = .ok (⟨[], 0⟩, []) := rfl
  rw [e, bind_ok]
  simp only
  rw [Trail.updateSteps_nil, bind_ok, debugM_ok he, bind_ok, Watches.updateAll_nil, bind_ok, ← h]
  rfl

/-- Right after a collection there is nothing to collect. -/
theorem collectGarbage_again {n : Nat} {S : List LC} (h : PInv n S p) (e : collectGarbage p = .ok p1)
    (hg : q.long.garbage = p1.long.garbage) (hl : q.long.buffer.length = p1.long.buffer.length)
    (he : q.watches.enabled = true) : collectGarbage q = .ok q := by
  unfold collectGarbage at e ⊢
  by_cases hq : Arena.shouldCollectGarbage q.long = true
  · rw [if_pos hq]
    refine collectGarbageNow_empty ?_ he
    simp only [Arena.shouldCollectGarbage, decide_eq_true_eq] at hq
    split at e
    · have := (collectGarbageNow_long h e).1
      have h0 : q.long.buffer = [] := List.length_eq_zero_iff.1 (by omega)
      have h1 : q.long.garbage = 0 := by omega
      cases hql : q.long with
      | mk b g => rw [hql] at h0 h1; simp only at h0 h1; subst h0 h1; rfl
    · next hn =>
      cases e
      simp only [Arena.shouldCollectGarbage, decide_eq_true_eq] at hn
      omega
  · rw [if_neg hq]; rfl

/-- Propagating again. -/
theorem propagate_again (he : p.watches.enabled = true) (hd : p.trail.propagated = p.trail.steps.length)
    (hf : p.trail.decisionLevel = 0 → ctx.prop.fixedVars = p.trail.fixedVarCount) : propagate ctx p = .ok (ctx, p, none) := by
  unfold propagate
  have e1 : enableWatchLists p true = .ok p := by
    unfold enableWatchLists
    rw [if_pos he]; rfl
  have e2 : propagateLoop (p.trail.steps.length + p.trail.trailIndex.length + 1) p = .ok (p, none) := by
    unfold propagateLoop
    rw [hd, List.getElem?_eq_none (Nat.le_refl _)]
    rfl
  rw [e1, bind_ok]
  simp only
  rw [e2, bind_ok]
  simp only
  rw [debugM_ok (by simp), bind_ok, Nat.sub_self, Nat.add_zero]
  split
  · next h0 =>
    rw [← hf h0]; rfl
  · rfl

theorem propagate_fixed {r : Option ConflictClause} (e : propagate ctx p = .ok (ctx1, p1, r)) (hr : r = none)
    (h0 : p1.trail.decisionLevel = 0) : ctx1.prop.fixedVars = p1.trail.fixedVarCount := by
  subst hr
  unfold propagate at e
  obtain ⟨p2, _, e⟩ := bind_eq_ok.1 e
  obtain ⟨⟨p3, r⟩, _, e⟩ := bind_eq_ok.1 e
  cases r with
  | some c => cases e
  | none =>
    simp only at e
    obtain ⟨_, _, e⟩ := bind_eq_ok.1 e
    cases e
    rw [if_pos h0]

theorem Vsids.popLoop_again {values : PartialAssignment} : ∀ (fuel : Nat) {h h' : Heap Nat},
    Vsids.popLoop values fuel h = .ok (none, h') → h'.heap = []
  | 0, _, _, e => by cases e
  | fuel + 1, h, h', e => by
    unfold Vsids.popLoop at e
    obtain ⟨⟨x, h1⟩, e1, e⟩ := bind_eq_ok.1 e
    cases x with
    | none =>
      cases e
      unfold Heap.popMax at e1
      split at e1
      · next h2 => cases e1; exact h2
      · simp only at e1
        split at e1
        · obtain ⟨_, _, e1⟩ := bind_eq_ok.1 e1
          cases e1
        · obtain ⟨_, _, e1⟩ := bind_eq_ok.1 e1
          obtain ⟨_, _, e1⟩ := bind_eq_ok.1 e1
          obtain ⟨_, _, e1⟩ := bind_eq_ok.1 e1
          cases e1
    | some x =>
      simp only at e
      obtain ⟨b, _, e⟩ := bind_eq_ok.1 e
      cases b with
      | true => exact Vsids.popLoop_again fuel e
      | false => cases e

theorem Vsids.popDecisionVar_again {v v' : Vsids} {values values' : PartialAssignment}
    (e : v.popDecisionVar values = .ok (none, v')) : v'.popDecisionVar values' = .ok (none, v') := by
  unfold Vsids.popDecisionVar at e
  obtain ⟨⟨x, h⟩, e1, e⟩ := bind_eq_ok.1 e
  cases e
  have hh := Vsids.popLoop_again _ e1
  unfold Vsids.popDecisionVar Vsids.popLoop Heap.popMax
  simp only [hh]
  rfl

/-- After the answer `true`, another search step changes nothing. -/
theorem searchStep_again (h : Solver.Reachable env F s) {search : Search}
    (e : searchStep env s.ctx s.search = .ok (ctx, search, some true)) :
    searchStep env ctx search = .ok (ctx, search, some true) := by
  cases searchStep_cases h e with
  | @sat p1 p ctx1 v hp e1 =>
    obtain ⟨L, S, S2, hi, ph⟩ := hp.phase
    have g := collectGarbage_again hi.prop hp.gc (res_propagate _ hp.prop) (len_propagate _ hp.prop) ph.inv.enabled
    have q := propagate_again (ctx := ctx) ph.inv.enabled (ph.done rfl) fun h0 => propagate_fixed hp.prop rfl h0
    unfold searchStep
    simp only
    rw [if_neg (by rw [ph.unsat, hp.unsat]; decide), g, bind_ok, q, bind_ok]
    simp only
    rw [Vsids.popDecisionVar_again e1, bind_ok]
    rfl

/-- Right after a step that answers, no restart is due if none was before it. -/
theorem maybeRestart_due (h : Solver.Reachable env F s) (e : s.maybeRestart = .ok s') :
    s'.ctx.search.conflicts < s'.schedule.nextRestart := by
  obtain ⟨L, S, hi⟩ := h.inv
  obtain ⟨t, f1, _, hc⟩ := maybeRestart_spec hi
  cases e.symm.trans f1
  rcases hc with ⟨k1, rfl⟩ | ⟨k1, k2, k3⟩
  · exact k1
  · obtain ⟨ctx', t', f2, _, f3, _⟩ := restart_spec hi
    rw [k2] at f2
    simp only [Except.ok.injEq, Prod.mk.injEq] at f2
    have hcf : s'.ctx.search.conflicts = s.ctx.search.conflicts := by rw [f2.1, f3]
    have hnx : s'.schedule.nextRestart = s.ctx.search.conflicts + (Luby.after s.ctx.search.restarts).v * 512 := by
      rw [k3, h.luby, Luby.advance_fst]
    obtain ⟨a, ha⟩ := (Luby.inv_after s.ctx.search.restarts).pow
    have hpos := Nat.two_pow_pos a
    rw [hnx, hcf, ha]; omega

theorem scheduleStep_again (h : Solver.Reachable env F s) (e : s.scheduleStep env = .ok (s', some true))
    (hr : s'.ctx.search.conflicts < s'.schedule.nextReduce) : s'.scheduleStep env = .ok (s', some true) := by
  obtain ⟨s1, s2, ctx, search, e1, e2, e3, rfl⟩ := Solver.scheduleStep_eq e
  have r1 := h.restart e1
  have r2 := r1.reduce e2
  have d := maybeRestart_due h e1
  obtain ⟨m1, m2, _⟩ := maybeReduce_next r1 e2
  have hs : ctx.search = s2.ctx.search := by
    cases searchStep_cases r2 e3 with
    | sat hp => exact hp.search
  have a := searchStep_again r2 e3
  unfold Solver.scheduleStep Solver.maybeRestart Solver.maybeReduce
  simp only at hr ⊢
  rw [if_neg (by rw [hs, m1, m2]; simp only; omega)]
  simp only [pure_eq, bind_ok]
  rw [if_neg (by omega)]
  simp only [bind_ok]
  rw [a]
  rfl

/-- C97: after the answer `true` further calls of `solve()` answer `true` and leave the solver as it is, if the reduction of the clauses is
not due: the model, the counters and the proof stay the same. -/
theorem C97_true (h : Solver.Reachable env F s) {k : Nat} (e : s.solve env k = .ok (s', some true))
    (hr : s'.ctx.search.conflicts < s'.schedule.nextReduce) (j : Nat) : s'.solve env (j + 1) = .ok (s', some true) := by
  induction k generalizing s with
  | zero => cases e
  | succ k ih =>
    unfold Solver.solve at e
    obtain ⟨⟨s1, r1⟩, e1, e2⟩ := bind_eq_ok.1 e
    cases r1 with
    | some b =>
      cases e2
      unfold Solver.solve
      rw [scheduleStep_again h e1 hr]
      rfl
    | none => exact ih (h.schedule e1) e2

/-- The number of conflicts does not run ahead of the next reduction. -/
theorem reduce_onTime (hpos : ∀ i, 0 < env.reduceInterval (i + 1)) {k : Nat} {r : Option Bool} (h : Solver.Reachable env F s)
    (hn : s.ctx.search.conflicts ≤ s.schedule.nextReduce) (e : s.solve env k = .ok (s', r)) :
    s'.ctx.search.conflicts ≤ s'.schedule.nextReduce ∧
      (r = some true → s'.ctx.search.conflicts < s'.schedule.nextReduce) := by
  induction k generalizing s with
  | zero => cases e; exact ⟨hn, nofun⟩
  | succ k ih =>
    unfold Solver.solve at e
    obtain ⟨⟨s1, r1⟩, e1, e2⟩ := bind_eq_ok.1 e
    have key : s1.ctx.search.conflicts ≤ s1.schedule.nextReduce ∧
        (r1 = some true → s1.ctx.search.conflicts < s1.schedule.nextReduce) := by
      clear e2
      obtain ⟨t1, t2, ctx, search, f1, f2, f3, rfl⟩ := Solver.scheduleStep_eq e1
      have q1 := h.restart f1
      have q2 := q1.reduce f2
      have n1 : t1.ctx.search.conflicts ≤ t1.schedule.nextReduce := by
        obtain ⟨L, S, hi⟩ := h.inv
        obtain ⟨t, g1, _, hc⟩ := maybeRestart_spec hi
        cases f1.symm.trans g1
        rcases hc with ⟨_, rfl⟩ | ⟨_, k2, k3⟩
        · exact hn
        · obtain ⟨ctx', t', g2, _, g3, _⟩ := restart_spec hi
          rw [k2] at g2
          simp only [Except.ok.injEq, Prod.mk.injEq] at g2
          rw [g2.1, g3, k3]
          exact hn
      have n2 : t2.ctx.search.conflicts < t2.schedule.nextReduce := by
        obtain ⟨L, S, hi⟩ := q1.inv
        obtain ⟨t, g1, _, hc⟩ := maybeReduce_spec (env := env) hi
        cases f2.symm.trans g1
        rcases hc with ⟨k1, rfl⟩ | ⟨k1, k2, k3⟩
        · exact k1
        · have := hpos t1.schedule.reductions
          rw [(maybeReduce_next q1 f2).1, k3]
          simp only
          omega
      obtain ⟨k1, k2, _⟩ := searchStep_conflicts q2 f3
      refine ⟨by simp only; omega, ?_⟩
      rintro rfl
      simp only
      cases searchStep_cases q2 f3 with
      | sat hp => rw [hp.search]; exact n2
    cases r1 with
    | some b => cases e2; exact key
    | none => exact ih (h.schedule e1) key.1 e2

/-- C97: with intervals between reductions that are not zero, this holds for every run: after the answer `true`, `solve()` can be called
again any number of times and nothing changes. -/
theorem C97_same (hpos : ∀ i, 0 < env.reduceInterval (i + 1)) (h : Solver.Input env F s) {k : Nat}
    (e : s.solve env k = .ok (s', some true)) (j : Nat) : s'.solve env (j + 1) = .ok (s', some true) := by
  refine C97_true (.input h) e ((reduce_onTime hpos (.input h) ?_ e).2 rfl) j
  rw [h.start.search]; exact Nat.zero_le _

theorem maybeRestart_unsat (hu : s.search.prop.unsat = true) (e : s.maybeRestart = .ok s') : s'.search.prop.unsat = true := by
  unfold Solver.maybeRestart at e
  split at e
  · obtain ⟨⟨ctx3, search3⟩, e5, e⟩ := bind_eq_ok.1 e
    cases e
    unfold restart at e5
    simp only at e5
    split at e5
    · obtain ⟨⟨p, cb⟩, e6, e5⟩ := bind_eq_ok.1 e5
      cases e5
      unfold backtrackToLevel at e6
      obtain ⟨_, _, e6⟩ := bind_eq_ok.1 e6
      obtain ⟨_, _, e6⟩ := bind_eq_ok.1 e6
      obtain ⟨_, _, e6⟩ := bind_eq_ok.1 e6
      obtain ⟨⟨_, _⟩, _, e6⟩ := bind_eq_ok.1 e6
      cases e6
      exact hu
    · cases e5; exact hu
  · cases e; exact hu

theorem maybeReduce_unsat (hu : s.search.prop.unsat = true) (e : s.maybeReduce env = .ok s') : s'.search.prop.unsat = true := by
  unfold Solver.maybeReduce at e
  split at e
  · obtain ⟨⟨ctx3, search3⟩, e5, e⟩ := bind_eq_ok.1 e
    cases e
    simp only
    unfold reduce at e5
    simp only at e5
    obtain ⟨_, _, e5⟩ := bind_eq_ok.1 e5
    obtain ⟨⟨_, _⟩, _, e5⟩ := bind_eq_ok.1 e5
    obtain ⟨⟨_, _⟩, _, e5⟩ := bind_eq_ok.1 e5
    obtain ⟨_, _, e5⟩ := bind_eq_ok.1 e5
    cases e5
    exact hu
  · cases e; exact hu

/-- A state in which the formula is known to be unsatisfiable answers in one step. -/
theorem solve_known (h : Solver.Reachable env F s) (hu : s.search.prop.unsat = true) (j : Nat) :
    ∃ s', s.solve env (j + 1) = .ok (s', some false) ∧ s'.search.prop.unsat = true := by
  obtain ⟨L, S, hi⟩ := h.inv
  obtain ⟨s1, e1, h1, _⟩ := maybeRestart_spec hi
  obtain ⟨s2, e2, _⟩ := maybeReduce_spec (env := env) h1
  have u2 := maybeReduce_unsat (maybeRestart_unsat hu e1) e2
  refine ⟨s2, ?_, u2⟩
  unfold Solver.solve Solver.scheduleStep
  rw [e1, bind_ok, e2, bind_ok]
  unfold searchStep
  rw [if_pos u2]
  rfl

/-- C97: after the answer `false` the next call of `solve()` answers `false` at once; it never panics. -/
theorem C97_false (h : Solver.Reachable env F s) {k : Nat} (e : s.solve env k = .ok (s', some false)) (j : Nat) :
    ∃ s'', s'.solve env (j + 1) = .ok (s'', some false) := by
  have hu := solve_unsat_flag h.inv e
  obtain ⟨s'', e2, _⟩ := solve_known (h.solve e) hu j
  exact ⟨s'', e2⟩

/-- C97: this remains so whatever is added in between: no sequence of calls makes a solver that answered `false` answer `true`, and every
later call that runs at least one iteration answers `false`. -/
theorem C97_never (h : Solver.Reachable env F s) {k : Nat} (e : s.solve env k = .ok (s', some false)) (cs : List Call)
    {t u : Solver} {r r' : Option Bool} {j : Nat} (ec : Call.run env cs s' none = .ok (t, r)) (et : t.solve env (j + 1) = .ok (u, r')) :
    r' = some false := by
  have hu := solve_unsat_flag h.inv e
  clear e
  have key : ∀ (cs : List Call) (s : Solver) (r0 : Option Bool), s.search.prop.unsat = true →
      Call.run env cs s r0 = .ok (t, r) → t.search.prop.unsat = true := by
    intro cs
    induction cs with
    | nil => intro s r0 hu e; cases e; exact hu
    | cons c cs ih =>
      intro s r0 hu e
      cases c with
      | add c =>
        obtain ⟨s1, e1, e2⟩ := bind_eq_ok.1 e
        exact ih s1 _ (addClause_unsat hu e1) e2
      | solve k =>
        obtain ⟨⟨s1, r1⟩, e1, e2⟩ := bind_eq_ok.1 e
        exact ih s1 _ (solve_unsat hu e1).1 e2
  have ht := key cs s' none hu ec
  unfold Solver.solve at et
  obtain ⟨⟨t1, r1⟩, f1, f2⟩ := bind_eq_ok.1 et
  obtain ⟨t2, t3, ctx, search, g1, g2, g3, rfl⟩ := Solver.scheduleStep_eq f1
  have u3 := maybeReduce_unsat (maybeRestart_unsat ht g1) g2
  unfold searchStep at g3
  rw [if_pos u3] at g3
  cases g3
  cases f2
  rfl

end

/-- The hypotheses of C97 are met: a satisfiable formula whose solution takes a conflict, asked twice; and an unsatisfiable one, asked again
after another clause was added. -/
theorem C97_example :
    (Example.load [[1, 2, 3], [1, 2, -3], [1, -2, 3], [1, -2, -3], [-1, 4]] >>= fun s => do
      let (s1, r1) ← s.solve Example.env 20
      let (s2, r2) ← s1.solve Example.env 1
      pure (r1, s1.ctx.search.conflicts, s1.schedule.nextReduce, r2, s2.ctx.search.conflicts,
        s2.search.prop.trail.steps.length)) = .ok (some true, 2, 2000, some true, 2, 4) ∧
    (Example.load [[1, 2], [1, -2], [-1, 2], [-1, -2]] >>= fun s => do
      let (s1, r1) ← s.solve Example.env 20
      let (s2, r2) ← Call.run Example.env [.solve 1, .add [Example.lit 3]] s1 none
      let (_, r3) ← s2.solve Example.env 1
      pure (r1, r2, r3)) = .ok (some false, none, some false) := by
  refine ⟨?_, ?_⟩ <;> decide +kernel

/-- The condition on the intervals is needed: if they were zero, every call would count another reduction. -/
theorem C97_interval : (Example.load [[1, 2]] >>= fun s => do
      let (s1, r1) ← s.solve { Example.env with reduceInterval := fun _ => 0 } 20
      let (s2, r2) ← s1.solve { Example.env with reduceInterval := fun _ => 0 } 1
      pure (r1, r2, s1.schedule.reductions, s2.schedule.reductions)) = .ok (some true, some true, 2, 3) := by
  decide +kernel

end Starlit
