import Verif.Props.Runs

/-!
# C55: the counters of the search
-/

namespace Starlit

/-- The number of clause additions in a proof log. -/
def additions (log : List ProofStep) : Nat :=
  (log.filter (fun x => match x with
    | .add _ => true
    | .delete _ => false)).length

theorem additions_append (a b : List ProofStep) : additions (a ++ b) = additions a + additions b := by
  simp [additions]

/-- Nothing or deletions are added to the proof log. -/
def OnlyDeletes (p p' : Option (List ProofStep)) : Prop :=
  (p = none → p' = none) ∧ ∀ log, p = some log → ∃ new, p' = some (log ++ new) ∧ additions new = 0

section
variable {env : Env} {F : List (List Lit)} {s s' : Solver}

theorem OnlyDeletes.refl (p : Option (List ProofStep)) : OnlyDeletes p p :=
  ⟨fun h => h, fun log h => ⟨[], by simpa using h, rfl⟩⟩

theorem OnlyDeletes.trans {p q r : Option (List ProofStep)} (h : OnlyDeletes p q)
    (h' : OnlyDeletes q r) : OnlyDeletes p r := by
  refine ⟨fun e => h'.1 (h.1 e), fun log e => ?_⟩
  obtain ⟨n1, e1, a1⟩ := h.2 log e
  obtain ⟨n2, e2, a2⟩ := h'.2 _ e1
  exact ⟨n1 ++ n2, by rw [e2, List.append_assoc], by rw [additions_append, a1, a2]⟩

theorem logDelete_deletes {ctx ctx' : Ctx} {a : Arena} {c : Nat} (h : logDelete ctx a c = .ok ctx') :
    OnlyDeletes ctx.proof ctx'.proof := by
  unfold logDelete at h
  split at h
  · obtain ⟨ls, _, h⟩ := bind_eq_ok.1 h
    cases h
    refine ⟨fun e => ?_, fun log e => ⟨[.delete ls], ?_, rfl⟩⟩
    · simp [Ctx.logProof, e]
    · simp [Ctx.logProof, e]
  · cases h
    exact .refl _

theorem deleteLoop_deletes : ∀ (ds : List (Nat × Nat)) {ctx ctx' : Ctx} {a a' : Arena},
    deleteLoop ds ctx a = .ok (ctx', a') → OnlyDeletes ctx.proof ctx'.proof
  | [], ctx, ctx', a, a', h => by
    simp only [deleteLoop, pure_eq, Except.ok.injEq, Prod.mk.injEq] at h
    exact h.1 ▸ .refl _
  | (x, c) :: ds, ctx, ctx', a, a', h => by
    simp only [deleteLoop] at h
    split at h
    · simp [throw_eq] at h
    · obtain ⟨ctx1, h1, h⟩ := bind_eq_ok.1 h
      obtain ⟨a1, _, h⟩ := bind_eq_ok.1 h
      exact (logDelete_deletes h1).trans (deleteLoop_deletes ds h)

theorem reduce_deletes {ctx ctx' : Ctx} {s s' : Search} (h : reduce env ctx s = .ok (ctx', s')) :
    OnlyDeletes ctx.proof ctx'.proof := by
  unfold reduce at h
  simp only at h
  obtain ⟨a1, _, h⟩ := bind_eq_ok.1 h
  obtain ⟨⟨a2, cands⟩, _, h⟩ := bind_eq_ok.1 h
  obtain ⟨⟨ctx2, a3⟩, h3, h⟩ := bind_eq_ok.1 h
  obtain ⟨a4, _, h⟩ := bind_eq_ok.1 h
  simp only [pure_eq, Except.ok.injEq, Prod.mk.injEq] at h
  have := deleteLoop_deletes _ h3
  rw [← h.1]
  exact this

/-- C55: a restart is counted exactly if one is due; it ends at the top level, leaves the other counters and
the proof alone. -/
theorem C55_restart (h : Solver.Reachable env F s) (e : s.maybeRestart = .ok s') :
    (s.ctx.search.conflicts < s.schedule.nextRestart ∧ s' = s) ∨
    (s.schedule.nextRestart ≤ s.ctx.search.conflicts ∧ s'.search.prop.trail.decisionLevel = 0 ∧
      s'.ctx.search.restarts = s.ctx.search.restarts + 1 ∧
      s'.ctx.search.conflicts = s.ctx.search.conflicts ∧
      s'.ctx.search.decisions = s.ctx.search.decisions ∧
      s'.ctx.search.reductions = s.ctx.search.reductions ∧ s'.ctx.proof = s.ctx.proof ∧
      s'.search.prop.unsat = s.search.prop.unsat ∧
      s'.schedule.reductions = s.schedule.reductions) := by
  obtain ⟨L, S, hi⟩ := h.inv
  obtain ⟨s1, e1, _, hr⟩ := maybeRestart_spec hi
  cases e.symm.trans e1
  rcases hr with hr | ⟨h1, h2, h3⟩
  · exact .inl hr
  · obtain ⟨ctx', t, e2, _, hc, hl, _, hb⟩ := restart_spec hi
    rw [h2] at e2
    simp only [Except.ok.injEq, Prod.mk.injEq] at e2
    rw [e2.1, e2.2, hc, h3]
    refine .inr ⟨h1, hl, rfl, rfl, rfl, rfl, rfl, ?_, rfl⟩
    rcases hb with ⟨_, rfl⟩ | ⟨_, _, hb⟩
    · rfl
    · exact hb.unsat

/-- C55: a reduction is counted exactly if one is due; it leaves the trail and the other counters alone and
adds nothing but deletions to the proof. -/
theorem C55_reduce (h : Solver.Reachable env F s) (e : s.maybeReduce env = .ok s') :
    (s.ctx.search.conflicts < s.schedule.nextReduce ∧ s' = s) ∨
    (s.schedule.nextReduce ≤ s.ctx.search.conflicts ∧
      s'.search.prop.trail = s.search.prop.trail ∧ s'.search.prop.unsat = s.search.prop.unsat ∧
      s'.ctx.search.reductions = s.ctx.search.reductions + 1 ∧
      s'.schedule.reductions = s.schedule.reductions + 1 ∧
      s'.ctx.search.conflicts = s.ctx.search.conflicts ∧
      s'.ctx.search.decisions = s.ctx.search.decisions ∧
      s'.ctx.search.restarts = s.ctx.search.restarts ∧ OnlyDeletes s.ctx.proof s'.ctx.proof) := by
  obtain ⟨L, S, hi⟩ := h.inv
  obtain ⟨s1, e1, _, hr⟩ := maybeReduce_spec hi
  cases e.symm.trans e1
  rcases hr with hr | ⟨h1, h2, h3⟩
  · exact .inl hr
  · have hd := reduce_deletes h2
    obtain ⟨ctx', t, L', D, S', e2, _, q, _⟩ := reduce_inv hi
    rw [h2] at e2
    simp only [Except.ok.injEq, Prod.mk.injEq] at e2
    obtain ⟨a, ha⟩ := q.eq
    have hs := q.del.search
    refine .inr ⟨h1, ?_, ?_, ?_, ?_, ?_, ?_, ?_, hd⟩
    · rw [e2.2, ha]
    · rw [e2.2, ha]
    · rw [e2.1, hs]
    · rw [h3]
    · rw [e2.1, hs]
    · rw [e2.1, hs]
    · rw [e2.1, hs]

/-- What a step did, read off the propagation inside of it and its result. -/
inductive StepKind (ctx : Ctx) (p : PropState) : Option ConflictClause → Ctx → Search → Option Bool → Prop
  /-- A conflict at the top level: one more conflict, the answer is "unsatisfiable". -/
  | refuted {c : ConflictClause} {ctx' : Ctx} {s' : Search} : p.trail.decisionLevel = 0 →
      ctx'.search = { ctx.search with conflicts := ctx.search.conflicts + 1 } →
      ctx'.proof = ctx.proof → s'.prop.unsat = true → s'.prop.trail = p.trail →
      StepKind ctx p (some c) ctx' s' (some false)
  /-- A conflict at a higher level: one more conflict, one clause is added to the proof and decisions are
  undone. -/
  | learned {c : ConflictClause} {ctx' : Ctx} {s' : Search} {C : List Lit} :
      ctx'.search = { ctx.search with conflicts := ctx.search.conflicts + 1 } →
      ctx'.proof = ctx.proof.map (· ++ [.add C]) → s'.prop.unsat = false →
      s'.prop.trail.decisionLevel < p.trail.decisionLevel →
      StepKind ctx p (some c) ctx' s' none
  /-- A decision: it is counted and the only new step of the trail. -/
  | decided {ctx' : Ctx} {s' : Search} {l : Lit} :
      ctx'.search = { ctx.search with decisions := ctx.search.decisions + 1 } →
      ctx'.proof = ctx.proof → s'.prop.unsat = false →
      s'.prop.trail.steps = p.trail.steps ++ [⟨l, p.trail.decisionLevel + 1, .decision⟩] →
      s'.prop.trail.decisionLevel = p.trail.decisionLevel + 1 →
      StepKind ctx p none ctx' s' none
  /-- A model: nothing is counted. -/
  | model {ctx' : Ctx} {s' : Search} :
      ctx'.search = ctx.search → ctx'.proof = ctx.proof → s'.prop.unsat = false →
      s'.prop.trail = p.trail → StepKind ctx p none ctx' s' (some true)

theorem Solver.Propagating.proof {p1 p : PropState} {ctx1 : Ctx} {r : Option ConflictClause}
    (h : Solver.Propagating env F s p1 ctx1 p r) : ctx1.proof = s.ctx.proof := by
  obtain ⟨L, S1, hi, _, _⟩ := h.inv
  exact ((propagate_spec s.ctx hi).ok_elim h.prop).2.1

theorem assignDecision_trail {n : Nat} {p p' : PropState} {l : Lit}
    (h : TrailInv n p.values p.trail) (e : p.assignDecision l = .ok p') :
    p'.trail.steps = p.trail.steps ++ [⟨l, p.trail.decisionLevel + 1, .decision⟩] ∧
      p'.trail.decisionLevel = p.trail.decisionLevel + 1 ∧ p'.unsat = p.unsat := by
  have hd := h.decisions_pos
  unfold PropState.assignDecision PropState.assign PropState.assignUnit at e
  obtain ⟨_, _, e⟩ := bind_eq_ok.1 e
  obtain ⟨_, _, e⟩ := bind_eq_ok.1 e
  split at e
  · obtain ⟨_, _, e⟩ := bind_eq_ok.1 e
    obtain ⟨_, _, e⟩ := bind_eq_ok.1 e
    cases e
    refine ⟨?_, ?_, rfl⟩
    · simp only [Trail.decisionLevel, List.length_append, List.length_singleton]
      congr 4
      omega
    · simp only [Trail.decisionLevel, List.length_append, List.length_singleton]
      omega
  · cases e

/-- C55: a search step counts one conflict exactly if propagation found one and one decision exactly if it
made one. -/
theorem C55_step (h : Solver.Reachable env F s) (hu : s.search.prop.unsat = false) {ctx' : Ctx}
    {search' : Search} {r : Option Bool}
    (e : searchStep env s.ctx s.search = .ok (ctx', search', r)) :
    ∃ p1 ctx1 p c, Solver.Propagating env F s p1 ctx1 p c ∧
      p.trail.decisionLevel = s.search.prop.trail.decisionLevel ∧
      StepKind s.ctx p c ctx' search' r := by
  have hc := searchStep_cases h e
  cases hc with
  | already hu' => rw [hu] at hu'; cases hu'
  | fail hp h0 =>
    obtain ⟨L, S, S2, hi, q⟩ := hp.phase
    refine ⟨_, _, _, _, hp, q.level, .refuted h0 ?_ hp.proof rfl rfl⟩
    simp [Ctx.conflict, hp.search]
  | learn hp h0 ea =>
    obtain ⟨L, S, S2, hi, q⟩ := hp.phase
    obtain ⟨_, _, C, lvl, target, _, A⟩ := hp.analyze h0 ea
    refine ⟨_, _, _, _, hp, q.level, .learned (C := C) ?_ ?_ ?_ ?_⟩
    · rw [A.search]; simp [Ctx.conflict, hp.search]
    · rw [A.proof]; simp [Ctx.logProof, Ctx.conflict, hp.proof]
    · exact (A.unsat.trans q.unsat).trans hu
    · simp only
      rw [A.level]; exact A.asserting.lt
  | decide hp e1 e2 e3 =>
    obtain ⟨L, S, S2, hi, q⟩ := hp.phase
    obtain ⟨d1, d2, d3⟩ := assignDecision_trail q.inv.trail e3
    refine ⟨_, _, _, _, hp, q.level, .decided ?_ hp.proof ?_ d1 d2⟩
    · simp [Ctx.decision, hp.search]
    · exact (d3.trans q.unsat).trans hu
  | sat hp e1 =>
    obtain ⟨L, S, S2, hi, q⟩ := hp.phase
    exact ⟨_, _, _, _, hp, q.level, .model hp.search hp.proof (q.unsat.trans hu) rfl⟩

/-- What the counters say in a state with a given proof log. -/
structure Counted (s : Solver) : Prop where
  level : s.search.prop.trail.decisionLevel ≤ s.ctx.search.decisions
  reductions : s.schedule.reductions = s.ctx.search.reductions
  open_ : s.search.prop.unsat = false → ∀ log, s.ctx.proof = some log →
    s.ctx.search.conflicts = additions log
  closed : s.search.prop.unsat = true → ∀ log, s.ctx.proof = some log →
    s.ctx.search.conflicts = additions log + 1 ∨ s.ctx.search.conflicts = 0 ∧ additions log = 0

/-- C55: in every state of every run the number of conflicts is the number of clauses added to the proof,
plus one if the search has found the formula unsatisfiable; if the input was found unsatisfiable before the
search there are neither.  There are at least as many decisions as decisions on the trail, and the number of
reductions is the one used by the schedule. -/
theorem C55_run (h : Solver.Reachable env F s) : Counted s := by
  induction h with
  | @input s h =>
    have hst := h.start
    obtain ⟨S, hi⟩ := h.inv
    have h1 : s.search.prop.trail.decisionLevel = 0 := by
      unfold Trail.decisionLevel; rw [hi.decisions]; rfl
    have h2 : ∀ log, s.ctx.proof = some log → additions log = 0 := by
      intro log e
      rcases hi.proof with e' | e'
      · rw [e'] at e; cases e
      · rw [e'] at e; cases e; rfl
    refine ⟨by rw [h1]; exact Nat.zero_le _, by rw [hst.schedule, hst.search], fun _ log e => ?_,
      fun _ log e => .inr ⟨by rw [hst.search], h2 log e⟩⟩
    rw [h2 log e, hst.search]
  | @restart s s' h e ih =>
    rcases C55_restart h e with ⟨_, rfl⟩ | ⟨_, h1, _, h4, _, h5, h6, h3, h8⟩
    · exact ih
    · exact ⟨by rw [h1]; exact Nat.zero_le _, by rw [h8, h5]; exact ih.reductions,
        by rw [h3, h6, h4]; exact ih.open_, by rw [h3, h6, h4]; exact ih.closed⟩
  | @reduce s s' h e ih =>
    rcases C55_reduce h e with ⟨_, rfl⟩ | ⟨_, h1, h2, h3, h4, h5, h6, _, h7⟩
    · exact ih
    · have key : ∀ log, s'.ctx.proof = some log → ∃ old, s.ctx.proof = some old ∧
          additions log = additions old := by
        intro log e
        cases hp : s.ctx.proof with
        | none => rw [h7.1 hp] at e; cases e
        | some old =>
          obtain ⟨new, e1, e2⟩ := h7.2 old hp
          rw [e1] at e
          cases e
          exact ⟨old, rfl, by rw [additions_append, e2]; rfl⟩
      refine ⟨by rw [h1, h6]; exact ih.level, by rw [h3, h4, ih.reductions], ?_, ?_⟩
      · intro hu log e
        obtain ⟨old, e1, e2⟩ := key log e
        rw [h5, e2]
        exact ih.open_ (by rw [← h2]; exact hu) old e1
      · intro hu log e
        obtain ⟨old, e1, e2⟩ := key log e
        rw [h5, e2]
        exact ih.closed (by rw [← h2]; exact hu) old e1
  | @step s ctx search r h e ih =>
    cases hu : s.search.prop.unsat with
    | true =>
      unfold searchStep at e
      rw [if_pos hu] at e
      cases e
      exact ih
    | false =>
      obtain ⟨p1, ctx1, p, c, hp, hl, hk⟩ := C55_step h hu e
      have io := ih.open_ hu
      have il := ih.level
      cases hk with
      | refuted h0 h1 h2 h3 h4 =>
        refine ⟨?_, ?_, ?_, ?_⟩
        · simp only; rw [h4, hl, h1]; exact il
        · simp only; rw [h1]; exact ih.reductions
        · intro hu'; simp only at hu'; rw [h3] at hu'; cases hu'
        · intro _ log e
          simp only at e ⊢
          rw [h2] at e
          left
          rw [h1]
          simp only
          rw [io log e]
      | @learned _ _ _ C h1 h2 h3 h4 =>
        refine ⟨?_, ?_, ?_, ?_⟩
        · simp only; rw [h1]; simp only; omega
        · simp only; rw [h1]; exact ih.reductions
        · intro _ log e
          simp only at e ⊢
          rw [h2] at e
          obtain ⟨old, e1, rfl⟩ := Option.map_eq_some_iff.1 e
          rw [h1, additions_append]
          simp only
          rw [io old e1]
          rfl
        · intro hu'; simp only at hu'; rw [h3] at hu'; cases hu'
      | decided h1 h2 h3 h4 h5 =>
        refine ⟨?_, ?_, ?_, ?_⟩
        · simp only; rw [h1]; simp only; omega
        · simp only; rw [h1]; exact ih.reductions
        · intro _ log e
          simp only at e ⊢
          rw [h2] at e
          rw [h1]
          exact io log e
        · intro hu'; simp only at hu'; rw [h3] at hu'; cases hu'
      | model h1 h2 h3 h4 =>
        refine ⟨?_, ?_, ?_, ?_⟩
        · simp only; rw [h4, hl, h1]; exact il
        · simp only; rw [h1]; exact ih.reductions
        · intro _ log e
          simp only at e ⊢
          rw [h2] at e
          rw [h1]
          exact io log e
        · intro hu'; simp only at hu'; rw [h3] at hu'; cases hu'

end

/-- The hypotheses of C55 are met by a run that has made 20 decisions, 3 of them still on the trail, and 14
conflicts, each giving one of the 14 additions of a proof of 16 lines. -/
theorem C55_example : ∃ s log,
    Solver.Reachable Example.envReduce (Example.cnf (Example.php 5 4)) s ∧
    s.ctx.search = ⟨20, 14, 1, 15⟩ ∧ s.ctx.proof = some log ∧ log.length = 16 ∧ additions log = 14 ∧
    s.search.prop.trail.decisionLevel = 3 ∧ s.search.prop.unsat = false := by
  have h : (do
      let (s, _) ← Example.runReduce (Example.php 5 4) 34
      pure (s.ctx.search, s.ctx.proof.map (fun log => (log.length, additions log)),
        s.search.prop.trail.decisionLevel, s.search.prop.unsat) :
      M (SearchStats × Option (Nat × Nat) × Nat × Bool)) =
      .ok (⟨20, 14, 1, 15⟩, some (16, 14), 3, false) := by
    decide +kernel
  obtain ⟨⟨s, r⟩, h1, h2⟩ := bind_eq_ok.1 h
  have h2 := Except.ok.inj h2
  simp only [Prod.mk.injEq, Option.map_eq_some_iff] at h2
  obtain ⟨a1, ⟨log, a2, a3, a4⟩, a5, a6⟩ := h2
  exact ⟨s, log, Example.runReduce_reachable (by decide +kernel) h1, a1, a2, a3, a4, a5, a6⟩

end Starlit
