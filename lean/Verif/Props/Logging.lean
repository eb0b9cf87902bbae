import Verif.Props.Solver

/-!
# C39: proof logging does not influence solving
-/

namespace Starlit

/-- The context without its proof writer. -/
def Ctx.quiet (ctx : Ctx) : Ctx := { ctx with proof := none }

/-- The solver without its proof writer: everything else (assignment, clauses, heuristics, statistics,
schedule) is the same. -/
def Solver.quiet (s : Solver) : Solver := { s with ctx := s.ctx.quiet }

section
variable {α β γ : Type}

private theorem map_bind' (m : M α) (f : α → M β) (g : β → γ) :
    (m >>= f).map g = m >>= fun x => (f x).map g := by
  cases m <;> rfl

private theorem bind_map' (m : M α) (f : α → β) (g : β → M γ) :
    m.map f >>= g = m >>= fun x => g (f x) := by
  cases m <;> rfl

private theorem bind_congr' {m : M α} {f g : α → M β} (h : ∀ x, m = .ok x → f x = g x) :
    m >>= f = m >>= g := by
  cases m with
  | error e => rfl
  | ok x => exact h x rfl

end

theorem logProof_quiet (ctx : Ctx) (x : ProofStep) : (ctx.logProof x).quiet = ctx.quiet := rfl

theorem quiet_logProof (ctx : Ctx) (x : ProofStep) : ctx.quiet.logProof x = ctx.quiet := rfl

theorem addClauseVerbatim_quiet (ctx : Ctx) (p : PropState) (h : LongHeader) (ls : List Lit) :
    addClauseVerbatim ctx.quiet p h ls =
      (addClauseVerbatim ctx p h ls).map fun r => (r.1.quiet, r.2) := by
  match ls with
  | [] => rfl
  | [a] =>
    simp only [addClauseVerbatim, map_bind']
    apply bind_congr'
    intro b _
    cases b
    · simp only [Bool.false_eq_true, if_false, map_bind']; rfl
    · rfl
  | [a, b] => simp only [addClauseVerbatim, map_bind']; rfl
  | a :: b :: c :: ls =>
    simp only [addClauseVerbatim, map_bind']
    apply bind_congr'
    intro r _
    match r with
    | none => rfl
    | some (long, r) =>
      simp only [map_bind']
      apply bind_congr'
      intro w _
      by_cases hr : h.redundant = true <;> simp [hr, Ctx.quiet, pure_eq, Except.map]

theorem propagate_quiet (ctx : Ctx) (p : PropState) :
    propagate ctx.quiet p = (propagate ctx p).map fun r => (r.1.quiet, r.2) := by
  unfold propagate
  simp only [map_bind']
  apply bind_congr'
  intro p _
  apply bind_congr'
  rintro ⟨p, r⟩ _
  cases r with
  | some c => rfl
  | none =>
    simp only [map_bind']
    apply bind_congr'
    intro _ _
    by_cases hl : p.trail.decisionLevel = 0 <;> simp [hl, Ctx.quiet, pure_eq, Except.map]

theorem learnAndAssign_quiet (ctx : Ctx) (an : Analysis) (p : PropState) :
    Analysis.learnAndAssign ctx.quiet an p =
      (Analysis.learnAndAssign ctx an p).map fun r => (r.1.quiet, r.2) := by
  unfold Analysis.learnAndAssign
  simp only [map_bind']
  apply bind_congr'
  intro _ _
  apply bind_congr'
  rintro ⟨an, h⟩ _
  simp only [quiet_logProof, ← logProof_quiet ctx (.add an.derivedClause), addClauseVerbatim_quiet,
    bind_map']
  apply bind_congr'
  rintro ⟨ctx', p, added⟩ _
  cases added <;> simp only [map_bind'] <;> rfl

theorem analyzeConflict_quiet (env : Env) (ctx : Ctx) (an : Analysis) (p : PropState)
    (conflict : ConflictClause) (cb : Callbacks) :
    Analysis.analyzeConflict env ctx.quiet an p conflict cb =
      (Analysis.analyzeConflict env ctx an p conflict cb).map fun r => (r.1.quiet, r.2) := by
  unfold Analysis.analyzeConflict
  simp only [map_bind', learnAndAssign_quiet, bind_map']
  rfl

theorem searchStep_quiet (env : Env) (ctx : Ctx) (s : Search) :
    searchStep env ctx.quiet s = (searchStep env ctx s).map fun r => (r.1.quiet, r.2) := by
  unfold searchStep
  by_cases hu : s.prop.unsat = true
  · rw [if_pos hu, if_pos hu]; rfl
  · rw [if_neg hu, if_neg hu]
    simp only [map_bind', propagate_quiet, bind_map']
    apply bind_congr'
    intro p _
    apply bind_congr'
    rintro ⟨ctx, p, r⟩ _
    cases r with
    | some conflict =>
      simp only
      by_cases hl : p.trail.decisionLevel = 0
      · rw [if_pos hl, if_pos hl]; rfl
      · rw [if_neg hl, if_neg hl]
        simp only [map_bind']
        have := analyzeConflict_quiet env
          { ctx with search := { ctx.search with conflicts := ctx.search.conflicts + 1 } }
          s.analysis p conflict s.cb
        refine (congrArg (· >>= _) this).trans ?_
        rw [bind_map']
        rfl
    | none =>
      simp only [map_bind']
      apply bind_congr'
      rintro ⟨v, vsids⟩ _
      cases v with
      | none => rfl
      | some v => simp only [map_bind']; rfl

theorem restart_quiet (ctx : Ctx) (s : Search) :
    restart ctx.quiet s = (restart ctx s).map fun r => (r.1.quiet, r.2) := by
  unfold restart
  by_cases hl : s.prop.trail.decisionLevel > 0
  · simp only [if_pos hl, map_bind']; rfl
  · simp only [if_neg hl]; rfl

theorem logDelete_quiet {ctx ctx' : Ctx} {a : Arena} {c : Nat} (h : logDelete ctx a c = .ok ctx') :
    ctx'.quiet = ctx.quiet := by
  unfold logDelete at h
  split at h
  · obtain ⟨ls, _, h⟩ := bind_eq_ok.1 h
    cases h
    rfl
  · cases h
    rfl

theorem deleteLoop_quiet : ∀ (ds : List (Nat × Nat)) {ctx ctx' : Ctx} {a a' : Arena},
    deleteLoop ds ctx a = .ok (ctx', a') → deleteLoop ds ctx.quiet a = .ok (ctx'.quiet, a')
  | [], ctx, ctx', a, a', h => by cases h; rfl
  | (x, c) :: ds, ctx, ctx', a, a', h => by
    simp only [deleteLoop] at h ⊢
    by_cases hr : ctx.formula.redundant = 0
    · rw [if_pos hr] at h; cases h
    · rw [if_neg hr] at h
      rw [if_neg (show ¬ ctx.quiet.formula.redundant = 0 from hr)]
      obtain ⟨ctx1, h1, h⟩ := bind_eq_ok.1 h
      obtain ⟨a1, h2, h⟩ := bind_eq_ok.1 h
      have := deleteLoop_quiet ds h
      rw [logDelete_quiet h1] at this
      show (pure _ >>= _ : M _) = _
      rw [bind_pure_ok, h2, bind_ok]
      exact this

theorem reduce_quiet {env : Env} {ctx ctx' : Ctx} {s s' : Search}
    (h : reduce env ctx s = .ok (ctx', s')) : reduce env ctx.quiet s = .ok (ctx'.quiet, s') := by
  unfold reduce at h ⊢
  simp only at h ⊢
  obtain ⟨a1, h1, h⟩ := bind_eq_ok.1 h
  obtain ⟨⟨a2, cands⟩, h2, h⟩ := bind_eq_ok.1 h
  obtain ⟨⟨ctx2, a3⟩, h3, h⟩ := bind_eq_ok.1 h
  obtain ⟨a4, h4, h⟩ := bind_eq_ok.1 h
  cases h
  have := deleteLoop_quiet _ h3
  rw [h1, bind_ok, h2, bind_ok]
  refine (congrArg (· >>= _) this).trans ?_
  rw [bind_ok, h4, bind_ok]
  rfl

theorem maybeRestart_quiet (s : Solver) :
    s.quiet.maybeRestart = s.maybeRestart.map Solver.quiet := by
  unfold Solver.maybeRestart
  by_cases hc : s.ctx.search.conflicts ≥ s.schedule.nextRestart
  · rw [if_pos hc, if_pos (show s.quiet.ctx.search.conflicts ≥ s.quiet.schedule.nextRestart from hc)]
    simp only [map_bind']
    refine (congrArg (· >>= _) (restart_quiet s.ctx s.search)).trans ?_
    rw [bind_map']
    rfl
  · rw [if_neg hc, if_neg (show ¬ s.quiet.ctx.search.conflicts ≥ s.quiet.schedule.nextRestart from hc)]
    rfl

theorem maybeReduce_quiet {env : Env} {s s' : Solver} (h : s.maybeReduce env = .ok s') :
    s.quiet.maybeReduce env = .ok s'.quiet := by
  unfold Solver.maybeReduce at h ⊢
  by_cases hc : s.ctx.search.conflicts ≥ s.schedule.nextReduce
  · rw [if_pos hc] at h
    rw [if_pos (show s.quiet.ctx.search.conflicts ≥ s.quiet.schedule.nextReduce from hc)]
    obtain ⟨⟨ctx, search⟩, h1, h⟩ := bind_eq_ok.1 h
    cases h
    simp only
    refine (congrArg (· >>= _) (reduce_quiet h1)).trans ?_
    rfl
  · rw [if_neg hc] at h
    rw [if_neg (show ¬ s.quiet.ctx.search.conflicts ≥ s.quiet.schedule.nextReduce from hc)]
    cases h
    rfl

theorem scheduleStep_quiet {env : Env} {F : List (List Lit)} {s : Solver}
    (h : Solver.Reachable env F s) :
    s.quiet.scheduleStep env = (s.scheduleStep env).map fun r => (r.1.quiet, r.2) := by
  unfold Solver.scheduleStep
  rw [maybeRestart_quiet, bind_map', map_bind']
  apply bind_congr'
  intro s1 e1
  have h1 := h.restart e1
  obtain ⟨L, S, hi⟩ := h1.inv
  obtain ⟨s2, e2, _⟩ := maybeReduce_spec hi
  rw [maybeReduce_quiet e2, e2, bind_ok, bind_ok, map_bind']
  refine (congrArg (· >>= _) (searchStep_quiet env s2.ctx s2.search)).trans ?_
  rw [bind_map']
  rfl

/-- C39: from every state of every run, the remaining run with the proof writer detached makes the
same steps: after any number of iterations it gives the same answer (or the same panic), and all of the
solver's state is the same except for the writer. -/
theorem C39_logging_irrelevant {env : Env} {F : List (List Lit)} : ∀ (k : Nat) {s : Solver},
    Solver.Reachable env F s →
    s.quiet.solve env k = (s.solve env k).map fun r => (r.1.quiet, r.2)
  | 0, s, h => rfl
  | k + 1, s, h => by
    simp only [Solver.solve]
    rw [scheduleStep_quiet h, bind_map', map_bind']
    apply bind_congr'
    rintro ⟨s1, r⟩ e
    cases r with
    | some b => rfl
    | none => exact C39_logging_irrelevant k (h.schedule e)

theorem addClause_quiet (s : Solver) (c : List Lit) :
    s.quiet.addClause c = (s.addClause c).map Solver.quiet := by
  unfold Solver.addClause Solver.ensureVars
  by_cases hv : s.ctx.formula.vars < Solver.varCount c
  · rw [if_pos hv, if_pos (show s.quiet.ctx.formula.vars < _ from hv)]
    simp only [Solver.resize, map_bind', bind_assoc]
    apply bind_congr'
    intro act _
    simp only [bind_pure_ok]
    refine (congrArg (· >>= _) (addClauseVerbatim_quiet
      { s.ctx with formula := { s.ctx.formula with vars := Solver.varCount c } } _ _ _)).trans ?_
    rw [bind_map']
    rfl
  · rw [if_neg hv, if_neg (show ¬ s.quiet.ctx.formula.vars < _ from hv)]
    simp only [bind_pure_ok, map_bind']
    refine (congrArg (· >>= _) (addClauseVerbatim_quiet _ _ _ _)).trans ?_
    rw [bind_map']
    rfl

theorem addClauses_quiet : ∀ (F : List (List Lit)) (s : Solver),
    s.quiet.addClauses F = (s.addClauses F).map Solver.quiet
  | [], _ => rfl
  | c :: cs, s => by
    simp only [Solver.addClauses]
    rw [addClause_quiet, bind_map', map_bind']
    apply bind_congr'
    intro s1 _
    exact addClauses_quiet cs s1

/-- C39 for whole runs: solving a formula with a proof writer attached at the start and solving it
without one give the same result, and the final states differ in the writer only. -/
theorem C39_fresh (env : Env) (F : List (List Lit)) (hF : ∀ c ∈ F, ∀ l ∈ c, l.Valid) (k : Nat) :
    (do (← (Solver.default env).addClauses F).solve env k : M _) =
      (do (← (Solver.default env).writeProof.addClauses F).solve env k : M _).map
        fun r => (r.1.quiet, r.2) := by
  have h0 : Solver.default env = (Solver.default env).writeProof.quiet := rfl
  have h1 : (Solver.default env).addClauses F =
      ((Solver.default env).writeProof.addClauses F).map Solver.quiet := by
    rw [← addClauses_quiet, ← h0]
  rw [h1, bind_map', map_bind']
  apply bind_congr'
  intro s e
  have := Solver.Input.addClauses _ (.proof (.new (env := env))) hF e
  exact C39_logging_irrelevant k (.input (by simpa using this))

/-- The same for the values read by the user. -/
theorem C39_value (s : Solver) (l : Lit) : s.quiet.value l = s.value l := rfl

/-- A case for C39 in which clauses are learned and deleted: the log of the first run has 14
additions and two deletions, the second run has no log. -/
theorem C39_example : (Example.runReduce (Example.php 5 4) 34).map (fun x =>
      (x.2, x.1.ctx.proof.map fun log => ((log.filter Example.isDelete).length, log.length),
        x.1.search.prop.long.garbage)) = .ok (none, some (2, 16), 17) ∧
    ((Solver.default Example.envReduce).addClauses (Example.cnf (Example.php 5 4)) >>=
      fun s => s.solve Example.envReduce 34).map (fun x => (x.2, x.1.ctx.proof, x.1.search.prop.long.garbage)) =
      .ok (none, none, 17) := by
  decide +kernel

end Starlit
