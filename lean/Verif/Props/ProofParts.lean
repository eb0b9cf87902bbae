import Verif.Props.IncrementalProof
import Verif.Props.Logging

/-!
# C96: proof writers can be exchanged between calls

`write_proof` (starlit/src/solver.rs:46-48) can be called at any time and replaces the writer, `close_proof` (51-56) detaches it.  The
file of a writer that is attached later continues the earlier one: the two files together are the file that one writer
would have written.  Alone it is a proof only for a checker that is also given the learned clauses of that time.
-/

namespace Starlit

/-- The context with `pre` written before everything else. -/
def Ctx.prepend (pre : List ProofStep) (ctx : Ctx) : Ctx := { ctx with proof := ctx.proof.map (pre ++ ·) }

/-- The solver with `pre` written before everything else. -/
def Solver.prepend (pre : List ProofStep) (s : Solver) : Solver := { s with ctx := s.ctx.prepend pre }

section
variable {α β γ : Type}

private theorem map_bind' (m : M α) (f : α → M β) (g : β → γ) :
    (m >>= f).map g = m >>= fun x => (f x).map g := by
  cases m <;> rfl

private theorem bind_map' (m : M α) (f : α → β) (g : β → M γ) :
    m.map f >>= g = m >>= fun x => g (f x) := by
  cases m <;> rfl

private theorem bind_congr' {m : M α} {f g : α → M β} (h : ∀ x, m = .ok x → f x = g x) :
    m >>= f = m >>= g := by
  cases m with
  | error e => rfl
  | ok x => exact h x rfl

end

theorem logProof_prepend (pre : List ProofStep) (ctx : Ctx) (x : ProofStep) :
    (ctx.prepend pre).logProof x = (ctx.logProof x).prepend pre := by
  unfold Ctx.prepend Ctx.logProof
  cases ctx.proof <;> simp

section
variable (pre : List ProofStep)

theorem addClauseVerbatim_prepend (ctx : Ctx) (p : PropState) (h : LongHeader) (ls : List Lit) :
    addClauseVerbatim (ctx.prepend pre) p h ls =
      (addClauseVerbatim ctx p h ls).map fun r => (r.1.prepend pre, r.2) := by
  match ls with
  | [] => rfl
  | [a] =>
    simp only [addClauseVerbatim, map_bind']
    apply bind_congr'
    intro b _
    cases b
    · simp only [Bool.false_eq_true, if_false, map_bind']; rfl
    · rfl
  | [a, b] => simp only [addClauseVerbatim, map_bind']; rfl
  | a :: b :: c :: ls =>
    simp only [addClauseVerbatim, map_bind']
    apply bind_congr'
    intro r _
    match r with
    | none => rfl
    | some (long, r) =>
      simp only [map_bind']
      apply bind_congr'
      intro w _
      by_cases hr : h.redundant = true <;> simp [hr, Ctx.prepend, pure_eq, Except.map]

theorem propagate_prepend (ctx : Ctx) (p : PropState) :
    propagate (ctx.prepend pre) p = (propagate ctx p).map fun r => (r.1.prepend pre, r.2) := by
  unfold propagate
  simp only [map_bind']
  apply bind_congr'
  intro p _
  apply bind_congr'
  rintro ⟨p, r⟩ _
  cases r with
  | some c => rfl
  | none =>
    simp only [map_bind']
    apply bind_congr'
    intro _ _
    by_cases hl : p.trail.decisionLevel = 0 <;> simp [hl, Ctx.prepend, pure_eq, Except.map]

theorem learnAndAssign_prepend (ctx : Ctx) (an : Analysis) (p : PropState) :
    Analysis.learnAndAssign (ctx.prepend pre) an p =
      (Analysis.learnAndAssign ctx an p).map fun r => (r.1.prepend pre, r.2) := by
  unfold Analysis.learnAndAssign
  simp only [map_bind']
  apply bind_congr'
  intro _ _
  apply bind_congr'
  rintro ⟨an, h⟩ _
  simp only [logProof_prepend, addClauseVerbatim_prepend pre,
    bind_map']
  apply bind_congr'
  rintro ⟨ctx', p, added⟩ _
  cases added <;> simp only [map_bind'] <;> rfl

theorem analyzeConflict_prepend (env : Env) (ctx : Ctx) (an : Analysis) (p : PropState)
    (conflict : ConflictClause) (cb : Callbacks) :
    Analysis.analyzeConflict env (ctx.prepend pre) an p conflict cb =
      (Analysis.analyzeConflict env ctx an p conflict cb).map fun r => (r.1.prepend pre, r.2) := by
  unfold Analysis.analyzeConflict
  simp only [map_bind', learnAndAssign_prepend pre, bind_map']
  rfl

theorem searchStep_prepend (env : Env) (ctx : Ctx) (s : Search) :
    searchStep env (ctx.prepend pre) s = (searchStep env ctx s).map fun r => (r.1.prepend pre, r.2) := by
  unfold searchStep
  by_cases hu : s.prop.unsat = true
  · rw [if_pos hu, if_pos hu]; rfl
  · rw [if_neg hu, if_neg hu]
    simp only [map_bind', propagate_prepend pre, bind_map']
    apply bind_congr'
    intro p _
    apply bind_congr'
    rintro ⟨ctx, p, r⟩ _
    cases r with
    | some conflict =>
      simp only
      by_cases hl : p.trail.decisionLevel = 0
      · rw [if_pos hl, if_pos hl]; rfl
      · rw [if_neg hl, if_neg hl]
        simp only [map_bind']
        have := analyzeConflict_prepend pre env
          { ctx with search := { ctx.search with conflicts := ctx.search.conflicts + 1 } }
          s.analysis p conflict s.cb
        refine (congrArg (· >>= _) this).trans ?_
        rw [bind_map']
        rfl
    | none =>
      simp only [map_bind']
      apply bind_congr'
      rintro ⟨v, vsids⟩ _
      cases v with
      | none => rfl
      | some v => simp only [map_bind']; rfl

theorem restart_prepend (ctx : Ctx) (s : Search) :
    restart (ctx.prepend pre) s = (restart ctx s).map fun r => (r.1.prepend pre, r.2) := by
  unfold restart
  by_cases hl : s.prop.trail.decisionLevel > 0
  · simp only [if_pos hl, map_bind']; rfl
  · simp only [if_neg hl]; rfl

theorem logDelete_prepend (ctx : Ctx) (a : Arena) (c : Nat) :
    logDelete (ctx.prepend pre) a c = (logDelete ctx a c).map (Ctx.prepend pre) := by
  obtain ⟨x, y, z, w⟩ := ctx
  cases w with
  | none => rfl
  | some log =>
    unfold logDelete
    simp only [Ctx.prepend, Option.map_some, map_bind']
    apply bind_congr'
    intro ls _
    have := logProof_prepend pre ⟨x, y, z, some log⟩ (.delete ls)
    simp only [Ctx.prepend, Option.map_some] at this
    rw [this]
    rfl

theorem deleteLoop_prepend : ∀ (ds : List (Nat × Nat)) (ctx : Ctx) (a : Arena),
    deleteLoop ds (ctx.prepend pre) a = (deleteLoop ds ctx a).map fun r => (r.1.prepend pre, r.2)
  | [], _, _ => rfl
  | (x, c) :: ds, ctx, a => by
    simp only [deleteLoop]
    by_cases hr : ctx.formula.redundant = 0
    · rw [if_pos hr, if_pos (show (ctx.prepend pre).formula.redundant = 0 from hr)]; rfl
    · rw [if_neg hr, if_neg (show ¬ (ctx.prepend pre).formula.redundant = 0 from hr), map_bind']
      refine (congrArg (· >>= _) (logDelete_prepend pre
        { ctx with formula := { ctx.formula with redundant := ctx.formula.redundant - 1 } } a c)).trans ?_
      rw [bind_map']
      apply bind_congr'
      intro ctx1 _
      rw [map_bind']
      apply bind_congr'
      intro a1 _
      exact deleteLoop_prepend ds ctx1 a1

theorem reduce_prepend (env : Env) (ctx : Ctx) (s : Search) :
    reduce env (ctx.prepend pre) s = (reduce env ctx s).map fun r => (r.1.prepend pre, r.2) := by
  unfold reduce
  simp only [map_bind']
  apply bind_congr'
  intro a1 _
  apply bind_congr'
  rintro ⟨a2, cands⟩ _
  refine (congrArg (· >>= _) (deleteLoop_prepend pre (higher env cands)
    { ctx with search := { ctx.search with reductions := ctx.search.reductions + 1 } } a2)).trans ?_
  rw [bind_map']
  rfl

theorem maybeRestart_prepend (s : Solver) :
    (s.prepend pre).maybeRestart = s.maybeRestart.map (Solver.prepend pre) := by
  unfold Solver.maybeRestart
  by_cases hc : s.ctx.search.conflicts ≥ s.schedule.nextRestart
  · rw [if_pos hc, if_pos (show (s.prepend pre).ctx.search.conflicts ≥ (s.prepend pre).schedule.nextRestart from hc)]
    simp only [map_bind']
    refine (congrArg (· >>= _) (restart_prepend pre s.ctx s.search)).trans ?_
    rw [bind_map']
    rfl
  · rw [if_neg hc, if_neg (show ¬ (s.prepend pre).ctx.search.conflicts ≥ (s.prepend pre).schedule.nextRestart from hc)]
    rfl

theorem maybeReduce_prepend (env : Env) (s : Solver) :
    (s.prepend pre).maybeReduce env = (s.maybeReduce env).map (Solver.prepend pre) := by
  unfold Solver.maybeReduce
  by_cases hc : s.ctx.search.conflicts ≥ s.schedule.nextReduce
  · rw [if_pos hc, if_pos (show (s.prepend pre).ctx.search.conflicts ≥ (s.prepend pre).schedule.nextReduce from hc)]
    simp only [map_bind']
    refine (congrArg (· >>= _) (reduce_prepend pre env s.ctx s.search)).trans ?_
    rw [bind_map']
    rfl
  · rw [if_neg hc, if_neg (show ¬ (s.prepend pre).ctx.search.conflicts ≥ (s.prepend pre).schedule.nextReduce from hc)]
    rfl

theorem scheduleStep_prepend (env : Env) (s : Solver) :
    (s.prepend pre).scheduleStep env = (s.scheduleStep env).map fun r => (r.1.prepend pre, r.2) := by
  unfold Solver.scheduleStep
  rw [maybeRestart_prepend, bind_map', map_bind']
  apply bind_congr'
  intro s1 _
  rw [maybeReduce_prepend, bind_map', map_bind']
  apply bind_congr'
  intro s2 _
  rw [map_bind']
  refine (congrArg (· >>= _) (searchStep_prepend pre env s2.ctx s2.search)).trans ?_
  rw [bind_map']
  rfl

theorem solve_prepend (env : Env) : ∀ (k : Nat) (s : Solver),
    (s.prepend pre).solve env k = (s.solve env k).map fun r => (r.1.prepend pre, r.2)
  | 0, _ => rfl
  | k + 1, s => by
    simp only [Solver.solve]
    rw [scheduleStep_prepend, bind_map', map_bind']
    apply bind_congr'
    rintro ⟨s1, r⟩ _
    cases r with
    | some b => rfl
    | none => exact solve_prepend env k s1

theorem addClause_prepend (s : Solver) (c : List Lit) :
    (s.prepend pre).addClause c = (s.addClause c).map (Solver.prepend pre) := by
  unfold Solver.addClause Solver.ensureVars
  by_cases hv : s.ctx.formula.vars < Solver.varCount c
  · rw [if_pos hv, if_pos (show (s.prepend pre).ctx.formula.vars < _ from hv)]
    simp only [Solver.resize, map_bind', bind_assoc]
    apply bind_congr'
    intro act _
    simp only [bind_pure_ok]
    refine (congrArg (· >>= _) (addClauseVerbatim_prepend pre
      { s.ctx with formula := { s.ctx.formula with vars := Solver.varCount c } } _ _ _)).trans ?_
    rw [bind_map']
    rfl
  · rw [if_neg hv, if_neg (show ¬ (s.prepend pre).ctx.formula.vars < _ from hv)]
    simp only [bind_pure_ok, map_bind']
    refine (congrArg (· >>= _) (addClauseVerbatim_prepend pre _ _ _ _)).trans ?_
    rw [bind_map']
    rfl

theorem Call.run_prepend (env : Env) : ∀ (cs : List Call) (s : Solver) (r : Option Bool),
    Call.run env cs (s.prepend pre) r = (Call.run env cs s r).map fun x => (x.1.prepend pre, x.2)
  | [], _, _ => rfl
  | .add c :: cs, s, r => by
    simp only [Call.run]
    rw [addClause_prepend, bind_map', map_bind']
    apply bind_congr'
    intro s1 _
    exact Call.run_prepend env cs s1 none
  | .solve k :: cs, s, r => by
    simp only [Call.run]
    rw [solve_prepend, bind_map', map_bind']
    apply bind_congr'
    rintro ⟨s1, r1⟩ _
    exact Call.run_prepend env cs s1 r1

end

/-! ## The writer stays attached -/

theorem addClauseVerbatim_proof {ctx ctx' : Ctx} {p p' : PropState} {h : LongHeader} {ls : List Lit} {r : AddedClause}
    (e : addClauseVerbatim ctx p h ls = .ok (ctx', p', r)) : ctx'.proof = ctx.proof := by
  match ls with
  | [] => cases e; rfl
  | [a] =>
    simp only [addClauseVerbatim] at e
    obtain ⟨b, _, e⟩ := bind_eq_ok.1 e
    cases b with
    | true => cases e; rfl
    | false =>
      simp only [Bool.false_eq_true, if_false] at e
      obtain ⟨p1, e3, e⟩ := bind_eq_ok.1 e
      cases e; rfl
  | [a, b] =>
    simp only [addClauseVerbatim] at e
    obtain ⟨_, _, e⟩ := bind_eq_ok.1 e
    cases e; rfl
  | a :: b :: c :: ls =>
    simp only [addClauseVerbatim] at e
    obtain ⟨x, _, e⟩ := bind_eq_ok.1 e
    match x with
    | none => cases e
    | some (long, r) =>
      simp only at e
      obtain ⟨_, _, e⟩ := bind_eq_ok.1 e
      cases e
      split <;> rfl

theorem addClause_proof {s s' : Solver} {c : List Lit} (e : s.addClause c = .ok s') : s'.ctx.proof = s.ctx.proof := by
  unfold Solver.addClause at e
  obtain ⟨s1, e1, e⟩ := bind_eq_ok.1 e
  obtain ⟨⟨ctx, p, r⟩, e2, e⟩ := bind_eq_ok.1 e
  cases e
  refine (addClauseVerbatim_proof e2).trans ?_
  unfold Solver.ensureVars at e1
  split at e1
  · unfold Solver.resize at e1
    obtain ⟨_, _, e1⟩ := bind_eq_ok.1 e1
    cases e1; rfl
  · cases e1; rfl

theorem propagate_proof {ctx ctx' : Ctx} {p p' : PropState} {r : Option ConflictClause}
    (e : propagate ctx p = .ok (ctx', p', r)) : ctx'.proof = ctx.proof := by
  unfold propagate at e
  obtain ⟨p1, _, e⟩ := bind_eq_ok.1 e
  obtain ⟨⟨p2, r2⟩, _, e⟩ := bind_eq_ok.1 e
  cases r2 with
  | some c => cases e; rfl
  | none =>
    simp only at e
    obtain ⟨_, _, e⟩ := bind_eq_ok.1 e
    cases e
    split <;> rfl

theorem learnAndAssign_some {ctx : Ctx} {an : Analysis} {p : PropState} {x : Ctx × Analysis × PropState}
    (e : Analysis.learnAndAssign ctx an p = .ok x) : x.1.proof.isSome = ctx.proof.isSome := by
  unfold Analysis.learnAndAssign at e
  obtain ⟨_, _, e⟩ := bind_eq_ok.1 e
  obtain ⟨⟨an1, h⟩, _, e⟩ := bind_eq_ok.1 e
  simp only at e
  obtain ⟨⟨ctx1, p1, added⟩, e1, e⟩ := bind_eq_ok.1 e
  have : ctx1.proof.isSome = ctx.proof.isSome := by
    rw [addClauseVerbatim_proof e1]
    simp [Ctx.logProof]
  rw [← this]
  cases added <;> simp only at e
  all_goals first
    | (cases e; rfl)
    | (obtain ⟨_, _, e⟩ := bind_eq_ok.1 e; obtain ⟨_, _, e⟩ := bind_eq_ok.1 e; cases e; rfl)

theorem analyzeConflict_some {env : Env} {ctx ctx' : Ctx} {an an' : Analysis} {p p' : PropState} {conflict : ConflictClause}
    {cb cb' : Callbacks} (e : Analysis.analyzeConflict env ctx an p conflict cb = .ok (ctx', an', p', cb')) :
    ctx'.proof.isSome = ctx.proof.isSome := by
  unfold Analysis.analyzeConflict at e
  obtain ⟨_, _, e⟩ := bind_eq_ok.1 e
  obtain ⟨⟨_, _, _⟩, _, e⟩ := bind_eq_ok.1 e
  obtain ⟨⟨_, _⟩, _, e⟩ := bind_eq_ok.1 e
  obtain ⟨⟨_, _⟩, _, e⟩ := bind_eq_ok.1 e
  obtain ⟨⟨_, _, _⟩, e1, e⟩ := bind_eq_ok.1 e
  cases e
  exact learnAndAssign_some e1

theorem searchStep_some {env : Env} {ctx ctx' : Ctx} {s s' : Search} {r : Option Bool}
    (e : searchStep env ctx s = .ok (ctx', s', r)) : ctx'.proof.isSome = ctx.proof.isSome := by
  unfold searchStep at e
  split at e
  · cases e; rfl
  · obtain ⟨p, _, e⟩ := bind_eq_ok.1 e
    obtain ⟨⟨ctx1, p1, r1⟩, e1, e⟩ := bind_eq_ok.1 e
    rw [← propagate_proof e1]
    cases r1 with
    | some conflict =>
      simp only at e
      split at e
      · cases e; rfl
      · obtain ⟨⟨_, _, _, _⟩, e2, e⟩ := bind_eq_ok.1 e
        cases e
        have := analyzeConflict_some e2
        exact this
    | none =>
      simp only at e
      obtain ⟨⟨v, vsids⟩, _, e⟩ := bind_eq_ok.1 e
      cases v with
      | none => cases e; rfl
      | some v =>
        simp only at e
        obtain ⟨_, _, e⟩ := bind_eq_ok.1 e
        obtain ⟨_, _, e⟩ := bind_eq_ok.1 e
        cases e; rfl

theorem deleteLoop_some : ∀ {ds : List (Nat × Nat)} {ctx ctx' : Ctx} {a a' : Arena},
    deleteLoop ds ctx a = .ok (ctx', a') → ctx'.proof.isSome = ctx.proof.isSome
  | [], _, _, _, _, e => by cases e; rfl
  | (x, c) :: ds, ctx, ctx', a, a', e => by
    simp only [deleteLoop] at e
    split at e
    · cases e
    · obtain ⟨ctx1, e1, e⟩ := bind_eq_ok.1 e
      obtain ⟨a1, _, e⟩ := bind_eq_ok.1 e
      rw [deleteLoop_some e]
      unfold logDelete at e1
      simp only at e1
      split at e1
      · obtain ⟨ls, _, e1⟩ := bind_eq_ok.1 e1
        cases e1
        simp [Ctx.logProof]
      · cases e1; rfl

theorem scheduleStep_some {env : Env} {s s' : Solver} {r : Option Bool} (e : s.scheduleStep env = .ok (s', r)) :
    s'.ctx.proof.isSome = s.ctx.proof.isSome := by
  obtain ⟨s3, s2, ctx, search, e1, e2, e3, rfl⟩ := Solver.scheduleStep_eq e
  have h3 : s3.ctx.proof = s.ctx.proof := by
    unfold Solver.maybeRestart at e1
    split at e1
    · obtain ⟨⟨ctx3, search3⟩, e5, e1⟩ := bind_eq_ok.1 e1
      cases e1
      unfold restart at e5
      simp only at e5
      split at e5
      · obtain ⟨⟨_, _⟩, _, e5⟩ := bind_eq_ok.1 e5
        cases e5; rfl
      · cases e5; rfl
    · cases e1; rfl
  have h2 : s2.ctx.proof.isSome = s3.ctx.proof.isSome := by
    unfold Solver.maybeReduce at e2
    split at e2
    · obtain ⟨⟨ctx3, search3⟩, e5, e2⟩ := bind_eq_ok.1 e2
      cases e2
      unfold reduce at e5
      simp only at e5
      obtain ⟨_, _, e5⟩ := bind_eq_ok.1 e5
      obtain ⟨⟨_, _⟩, _, e5⟩ := bind_eq_ok.1 e5
      obtain ⟨⟨_, _⟩, e6, e5⟩ := bind_eq_ok.1 e5
      obtain ⟨_, _, e5⟩ := bind_eq_ok.1 e5
      cases e5
      have := deleteLoop_some e6
      exact this
    · cases e2; rfl
  rw [← h3, ← h2]
  exact searchStep_some e3

theorem solve_some {env : Env} : ∀ {k : Nat} {s s' : Solver} {r : Option Bool}, s.solve env k = .ok (s', r) →
    s'.ctx.proof.isSome = s.ctx.proof.isSome
  | 0, s, s', r, e => by cases e; rfl
  | k + 1, s, s', r, e => by
    simp only [Solver.solve] at e
    obtain ⟨⟨s1, r1⟩, e1, e⟩ := bind_eq_ok.1 e
    rw [← scheduleStep_some e1]
    cases r1 with
    | some b => cases e; rfl
    | none => exact solve_some e

theorem Call.run_some {env : Env} : ∀ {cs : List Call} {s s' : Solver} {r r' : Option Bool},
    Call.run env cs s r = .ok (s', r') → s'.ctx.proof.isSome = s.ctx.proof.isSome
  | [], s, s', r, r', e => by cases e; rfl
  | .add c :: cs, s, s', r, r', e => by
    simp only [Call.run] at e
    obtain ⟨s1, e1, e⟩ := bind_eq_ok.1 e
    rw [← addClause_proof e1]
    exact Call.run_some e
  | .solve k :: cs, s, s', r, r', e => by
    simp only [Call.run] at e
    obtain ⟨⟨s1, r1⟩, e1, e⟩ := bind_eq_ok.1 e
    rw [← solve_some e1]
    exact Call.run_some e

/-! ## Checking the two files -/

theorem DratCheck.steps_nonzero : ∀ {ds : List DratLine} {F F' : List (List Int)}, DratCheck.steps F ds = some F' →
    (∀ c ∈ F, ∀ n ∈ c, n ≠ 0) → ∀ c ∈ F', ∀ n ∈ c, n ≠ 0
  | [], F, F', h, h0 => by cases h; exact h0
  | d :: ds, F, F', h, h0 => by
    unfold DratCheck.steps at h
    obtain ⟨G, hG, h⟩ := Option.bind_eq_some_iff.1 h
    refine steps_nonzero h ?_
    unfold DratCheck.step at hG
    split at hG
    · exact fun c hc => h0 c (DratCheck.remove_sub hG c hc)
    · split at hG
      · cases hG
      · next hz =>
        split at hG
        · cases hG
          intro c hc n hn hn0
          rcases List.mem_cons.1 hc with rfl | hc
          · subst hn0; exact hz (by simpa using hn)
          · exact h0 c hc n hn hn0
        · cases hG

/-- A proof can be cut: the second part is a proof for the clauses that the checker has after the first. -/
theorem DratCheck.check_append {F : List (List Int)} {ds es : List DratLine} (h : DratCheck.check F (ds ++ es) = true) :
    ∃ D, DratCheck.steps F ds = some D ∧ DratCheck.check D es = true := by
  unfold DratCheck.check at h
  simp only [Bool.and_eq_true, Bool.not_eq_true'] at h
  obtain ⟨h0, h⟩ := h
  rw [DratCheck.steps_append] at h
  cases hD : DratCheck.steps F ds with
  | none => rw [hD] at h; simp at h
  | some D =>
    rw [hD, Option.bind_some] at h
    refine ⟨D, rfl, ?_⟩
    unfold DratCheck.check
    simp only [Bool.and_eq_true, Bool.not_eq_true']
    refine ⟨?_, h⟩
    have hF : ∀ c ∈ F, ∀ n ∈ c, n ≠ 0 := by
      rintro c hc n hn rfl
      rw [← Bool.not_eq_true] at h0
      exact h0 (by simpa using ⟨c, hc, hn⟩)
    have := DratCheck.steps_nonzero hD hF
    rw [← Bool.not_eq_true]
    intro hn
    simp only [List.contains_eq_mem, decide_eq_true_eq, List.mem_flatten] at hn
    obtain ⟨c, hc, hn⟩ := hn
    exact this c hc 0 hn rfl

section
variable {env : Env} {F : List (List Lit)} {s s1 s2 : Solver} {pre : List ProofStep}

theorem Solver.eq_prepend (hl : s.ctx.proof = some pre) : s = s.writeProof.prepend pre := by
  obtain ⟨⟨a, b, c, d⟩, x, y⟩ := s
  simp only at hl
  subst hl
  simp [Solver.writeProof, Solver.prepend, Ctx.prepend]

/-- C96: when the writer is replaced by a new one, the calls after that have the same outcome, the states of the solver differ in the
writer only, and what the new writer gets is what the old one would have got. -/
theorem C96_exchange (hl : s.ctx.proof = some pre) (cs : List Call) (r : Option Bool) :
    (∀ err, Call.run env cs s r = .error err ↔ Call.run env cs s.writeProof r = .error err) ∧
    ∀ s' r', Call.run env cs s r = .ok (s', r') ↔ ∃ late, s'.ctx.proof = some (pre ++ late) ∧
      Call.run env cs s.writeProof r = .ok ({ s' with ctx := { s'.ctx with proof := some late } }, r') := by
  have h := Call.run_prepend pre env cs s.writeProof r
  rw [← Solver.eq_prepend hl] at h
  rw [h]
  cases e : Call.run env cs s.writeProof r with
  | error err => simp [Except.map]
  | ok x =>
    obtain ⟨s1, r1⟩ := x
    have hs := Call.run_some e
    simp only [Solver.writeProof, Option.isSome_some] at hs
    obtain ⟨late, hlate⟩ := Option.isSome_iff_exists.1 hs
    obtain ⟨⟨a, b, c, d⟩, x, y⟩ := s1
    simp only at hlate
    subst hlate
    refine ⟨by simp [Except.map], fun s' r' => ⟨fun h' => ?_, ?_⟩⟩
    · simp only [Except.map, Except.ok.injEq, Prod.mk.injEq] at h'
      obtain ⟨rfl, rfl⟩ := h'
      exact ⟨late, rfl, rfl⟩
    · rintro ⟨late', h1, h2⟩
      simp only [Except.ok.injEq, Prod.mk.injEq] at h2
      obtain ⟨h2, rfl⟩ := h2
      obtain ⟨⟨a', b', c', d'⟩, x', y'⟩ := s'
      simp only [Solver.mk.injEq, Ctx.mk.injEq, Option.some.injEq] at h1 h2
      obtain ⟨⟨rfl, rfl, rfl, rfl⟩, rfl, rfl⟩ := h2
      subst h1
      rfl

/-- C96: the two files together are the file of a single writer. -/
theorem C96_files (f : Cli.ProofFormat) (pre late : List ProofStep) : f.bytes (pre ++ late) = f.bytes pre ++ f.bytes late := by
  cases f <;> simp [Cli.ProofFormat.bytes, Drat.output, BinaryDrat.output]

/-- C96: when `solve()` answers `false` after the exchange, the two files together are a proof; and the second file is one
for the clauses `D` that a checker has after the first file, which follow from the formula. -/
theorem C96_refuted (h : Solver.IncrOpen env F s) (hl : s.ctx.proof = some pre) {cs : List Call}
    (hc : ∀ c ∈ Call.clauses cs, ∀ l ∈ c, l.Valid) (hs : Call.harmless env cs s = true) {r1 : Option Bool}
    (e : Call.run env cs s.writeProof none = .ok (s1, r1)) {k : Nat} (e2 : s1.solve env k = .ok (s2, some false))
    (f : Cli.ProofFormat) :
    ∃ late lines1 lines2 D, s2.ctx.proof = some late ∧
      f.parse (f.bytes pre) = some lines1 ∧ f.parse (f.bytes late) = some lines2 ∧
      f.parse (f.bytes pre ++ f.bytes late) = some (lines1 ++ lines2) ∧
      DratCheck.check ((F ++ Call.clauses cs).map (List.map Lit.dimacs)) (lines1 ++ lines2) = true ∧
      DratCheck.steps ((F ++ Call.clauses cs).map (List.map Lit.dimacs)) lines1 = some D ∧
      (∀ α, CnfSat α ((F ++ Call.clauses cs).map (List.map Lit.dimacs)) → CnfSat α D) ∧
      DratCheck.check D lines2 = true := by
  have h1 := Call.run_prepend pre env cs s.writeProof none
  rw [← Solver.eq_prepend hl, e] at h1
  have ho := h.run hc hs h1
  have h2 := solve_prepend pre env k s1
  rw [e2] at h2
  obtain ⟨late, hlate⟩ : ∃ late, s2.ctx.proof = some late := by
    refine Option.isSome_iff_exists.1 ?_
    rw [solve_some e2, Call.run_some e]
    rfl
  obtain ⟨L, S, hi⟩ := ho.incr.inv
  obtain ⟨log', L', a, hl', hcf⟩ := (ho.shown.solve hi h2).2 rfl
  have hv := ho.incr.valid
  have e3 : log' = pre ++ late := by
    rcases hl' with hl' | hl' <;> simp [Solver.prepend, Ctx.prepend, hlate] at hl'
    exact hl'.symm
  subst e3
  have hck := DratCheck.check_complete a (toDB_valid hv) toDB_nums (dimacs_nonzero hv) hcf
  rw [List.map_append (f := ProofStep.line)] at hck
  obtain ⟨D, hD, hck2⟩ := DratCheck.check_append hck
  have hva := a.valid.1
  refine ⟨late, _, _, D, hlate, parse_bytes f (fun c hc => hva c ?_), parse_bytes f (fun c hc => hva c ?_), ?_, hck, hD,
    fun α hα => (DratCheck.steps_sound hD (dimacs_nonzero hv) hα).2, hck2⟩
  · exact hc.imp (List.mem_append_left _) (List.mem_append_left _)
  · exact hc.imp (List.mem_append_right _) (List.mem_append_right _)
  · rw [← C96_files, parse_bytes f hva, List.map_append]

/-- Seven clauses over three variables, and a unit clause after the first answer. -/
def Example.partCalls : List Call := [.add [Example.lit (-1)]]

/-- The seven clauses, `solve()`, the state after that. -/
def Example.partFirst : List Call :=
  (Example.unsat3.eraseIdx 4).map (fun c => Call.add (c.map Example.lit)) ++ [.solve 20]

/-- The hypotheses of C96 are met, and the exchange is visible: the first file has three lines, the second file none, and
the second alone is not a proof for the formula. -/
theorem C96_example : ∃ s s1 s2, Solver.IncrOpen Example.env (Call.clauses Example.partFirst) s ∧
    s.ctx.proof = some [.add [Example.lit 3, Example.lit 1], .add [Example.lit 1], .add [Example.lit (-3)]] ∧
    Call.harmless Example.env Example.partCalls s = true ∧
    Call.run Example.env Example.partCalls s.writeProof none = .ok (s1, none) ∧
    s1.solve Example.env 20 = .ok (s2, some false) ∧ s2.ctx.proof = some [] ∧
    DratCheck.check ((Call.clauses Example.partFirst ++ Call.clauses Example.partCalls).map (List.map Lit.dimacs)) [] = false ∧
    DratCheck.check ((Call.clauses Example.partFirst ++ Call.clauses Example.partCalls).map (List.map Lit.dimacs))
      [⟨false, [3, 1]⟩, ⟨false, [1]⟩, ⟨false, [-3]⟩] = true := by
  have hv : ∀ c ∈ Call.clauses Example.partFirst, ∀ l ∈ c, l.Valid := by unfold Lit.Valid; decide +kernel
  have h0 : Call.harmless Example.env Example.partFirst (Solver.default Example.env).writeProof = true := by decide +kernel
  have h1 : (Call.run Example.env Example.partFirst (Solver.default Example.env).writeProof none >>= fun x =>
      Call.run Example.env Example.partCalls x.1.writeProof none >>= fun y =>
      (y.1.solve Example.env 20).map (fun z => (x.1.ctx.proof, Call.harmless Example.env Example.partCalls x.1, y.2,
        z.2, z.1.ctx.proof))) =
      .ok (some [.add [Example.lit 3, Example.lit 1], .add [Example.lit 1], .add [Example.lit (-3)]], true,
        none, some false, some []) := by decide +kernel
  cases e : Call.run Example.env Example.partFirst (Solver.default Example.env).writeProof none with
  | error err => rw [e] at h1; cases h1
  | ok x =>
    obtain ⟨s, r⟩ := x
    have ho := (Solver.IncrOpen.input (env := Example.env) (.proof .new)).run hv h0 e
    rw [e, bind_ok] at h1
    cases e1 : Call.run Example.env Example.partCalls s.writeProof none with
    | error err => simp only [e1] at h1; cases h1
    | ok y =>
      obtain ⟨s1, r1⟩ := y
      simp only [e1, bind_ok] at h1
      cases e2 : s1.solve Example.env 20 with
      | error err => simp only [e2] at h1; cases h1
      | ok z =>
        obtain ⟨s2, r2⟩ := z
        simp only [e2, Except.map, Except.ok.injEq, Prod.mk.injEq] at h1
        obtain ⟨h1, h2, rfl, rfl, h3⟩ := h1
        exact ⟨s, s1, s2, ho, h1, h2, e1, e2, h3, by decide +kernel, by decide +kernel⟩

end

end Starlit
