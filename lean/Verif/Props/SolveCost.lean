import Verif.Props.Sizes
import Verif.Props.PropLinear
import Verif.Props.AnalysisCost
import Verif.Props.TwoSat
import Verif.Props.Horn

/-!
# C83: the work of `solve()` is polynomial in the formula and the number of conflicts

`solve` again, with the counters of garbage collection, propagation, conflict analysis, decisions, restarts and reductions
added up.  Nothing in the solver takes long but the search itself.
-/

namespace Starlit

/-! ## Calls of `rescale` in conflict analysis -/

theorem Vsids.bumpVarT_rescale {env : Env} {v v' : Vsids} {x : Nat} {k : Cost}
    (e : v.bumpVarT env x = .ok (k, v')) : k.2 ≤ 1 := by
  unfold bumpVarT at e
  obtain ⟨_, _, e⟩ := bind_eq_ok.1 e
  obtain ⟨⟨_, _⟩, _, e⟩ := bind_eq_ok.1 e
  simp only at e
  split at e <;> cases e <;> simp

namespace Analysis

theorem addLiteralT_rescale {env : Env} {an an' : Analysis} {t : Trail} {l : Lit} {cb cb' : Callbacks} {k : Cost}
    (e : addLiteralT env an t l cb = .ok (k, an', cb')) : k.2 ≤ 1 := by
  unfold addLiteralT at e
  obtain ⟨i, _, e⟩ := bind_eq_ok.1 e
  obtain ⟨s, _, e⟩ := bind_eq_ok.1 e
  split at e
  · cases e; simp
  obtain ⟨old, _, e⟩ := bind_eq_ok.1 e
  obtain ⟨flags, _, e⟩ := bind_eq_ok.1 e
  simp only at e
  split at e
  · cases e; simp
  obtain ⟨⟨k, v⟩, e1, e⟩ := bind_eq_ok.1 e
  have h1 := Vsids.bumpVarT_rescale e1
  simp only at e
  split at e <;> cases e <;> simpa using h1

theorem addLiteralsT_rescale {env : Env} {t : Trail} : ∀ {ls : List Lit} {an an' : Analysis} {cb cb' : Callbacks}
    {k : Cost}, addLiteralsT env t ls an cb = .ok (k, an', cb') → k.2 ≤ ls.length
  | [], an, an', cb, cb', k, e => by cases e; simp
  | l :: ls, an, an', cb, cb', k, e => by
    unfold addLiteralsT at e
    obtain ⟨⟨k1, an1, cb1⟩, e1, e⟩ := bind_eq_ok.1 e
    obtain ⟨⟨k2, r⟩, e2, e⟩ := bind_eq_ok.1 e
    cases e
    have := addLiteralT_rescale e1
    have := addLiteralsT_rescale e2
    rw [Prod.snd_add, List.length_cons]; omega

variable {n : Nat} {S : List LC} {p p' : PropState}

theorem uipLoopT_rescale {env : Env} : ∀ (k : Nat) {S : List LC} {an an' : Analysis} {p p' : PropState}
    {cb cb' : Callbacks} {t : Cost}, PInv n S p → uipLoopT env k an p cb = .ok (t, an', p', cb') →
    t.2 ≤ graphBelow p k
  | 0, S, an, an', p, p', cb, cb', t, h, e => by cases e; simp
  | k + 1, S, an, an', p, p', cb, cb', t, h, e => by
    have hmono := graphBelow_mono p k
    unfold uipLoopT at e
    obtain ⟨flag, _, e⟩ := bind_eq_ok.1 e
    obtain ⟨flags, _, e⟩ := bind_eq_ok.1 e
    simp only at e
    split at e
    · obtain ⟨s, es, e⟩ := bind_eq_ok.1 e
      have hs := idx_eq_ok.1 es
      split at e
      · cases e
      split at e
      · obtain ⟨flags, _, e⟩ := bind_eq_ok.1 e
        cases e
        exact Nat.zero_le _
      · obtain ⟨⟨t1, an1, p1⟩, e1, e⟩ := bind_eq_ok.1 e
        obtain ⟨ls, e2, e⟩ := bind_eq_ok.1 e
        obtain ⟨⟨t2, an2, cb2⟩, e3, e⟩ := bind_eq_ok.1 e
        obtain ⟨⟨t3, r⟩, e4, e⟩ := bind_eq_ok.1 e
        cases e
        obtain ⟨a1, a2, S1, o⟩ := bumpReasonT_le h (List.mem_iff_getElem?.2 ⟨k, hs⟩) e1
        have b1 := addLiteralsT_rescale e3
        have c1 := uipLoopT_rescale k o.inv e4
        have hl : ls.length = reasonLen p s := by
          have := o.reasonLen h (List.mem_iff_getElem?.2 ⟨k, hs⟩)
          rw [← this]
          unfold reasonLen
          rw [e2]
        rw [o.graphBelow h] at c1
        rw [hl] at b1
        rw [graphBelow_succ p hs]
        simp only [Prod.snd_add] at b1 c1 ⊢
        omega
    · obtain ⟨⟨t3, r⟩, e4, e⟩ := bind_eq_ok.1 e
      cases e
      have c1 := uipLoopT_rescale k h e4
      simp only [Prod.snd_add] at c1 ⊢
      omega

theorem derive1uipT_rescale {env : Env} {an an' : Analysis} {cb cb' : Callbacks} {c : ConflictClause} {conf : List Lit}
    {t : Cost} (h : PInv n S p) (hc : ConflictOK S p c) (hconf : c.lits p = .ok conf)
    (e : derive1uipT env an p c cb = .ok (t, an', p', cb')) : t.2 ≤ conf.length + graphSize p := by
  unfold derive1uipT at e
  simp only at e
  obtain ⟨⟨t1, an1, p1⟩, e1, e⟩ := bind_eq_ok.1 e
  obtain ⟨ls, e2, e⟩ := bind_eq_ok.1 e
  obtain ⟨⟨t2, an2, cb2⟩, e3, e⟩ := bind_eq_ok.1 e
  obtain ⟨⟨t3, r⟩, e4, e⟩ := bind_eq_ok.1 e
  obtain ⟨_, _, e⟩ := bind_eq_ok.1 e
  cases e
  have key : ls.length = conf.length ∧ ∃ S', OnlyHeaders n S p S' p1 := by
    cases c with
    | binary a b =>
      cases e1; cases e2; cases hconf
      exact ⟨rfl, S, .refl h⟩
    | long c =>
      obtain ⟨x, hx, rfl, _⟩ := hc
      obtain ⟨k1, k2, S', o⟩ := bumpLongClauseT_le h hx e1
      obtain ⟨l1, l2, f1, f2, hl⟩ := o.litsLen h hx
      cases hconf.symm.trans f1
      cases e2.symm.trans f2
      exact ⟨hl, S', o⟩
  obtain ⟨k2, S', o⟩ := key
  have b1 := addLiteralsT_rescale e3
  have c1 := uipLoopT_rescale _ o.inv e4
  rw [o.graphBelow h, o.trail, graphBelow_all] at c1
  rw [k2] at b1
  simp only [Prod.snd_add] at c1 b1 ⊢
  omega

/-- Conflict analysis rescales the activities at most once for each literal it visits, and once for the decay. -/
theorem analyzeConflictT_rescale {env : Env} {ctx ctx' : Ctx} {an an' : Analysis} {cb cb' : Callbacks}
    {c : ConflictClause} {conf : List Lit} {t : Cost} (h : PInv n S p) (hc : ConflictOK S p c)
    (hconf : c.lits p = .ok conf) (e : analyzeConflictT env ctx an p c cb = .ok (t, ctx', an', p', cb')) :
    t.2 ≤ conf.length + graphSize p + 1 := by
  unfold analyzeConflictT at e
  obtain ⟨_, _, e⟩ := bind_eq_ok.1 e
  obtain ⟨⟨t1, an1, p2, cb1⟩, e1, e⟩ := bind_eq_ok.1 e
  simp only at e
  obtain ⟨⟨t3, an2, level⟩, e2, e⟩ := bind_eq_ok.1 e
  obtain ⟨⟨t4, p3, cb2⟩, e3, e⟩ := bind_eq_ok.1 e
  obtain ⟨⟨t5, ctx5, an5, p5⟩, e4, e⟩ := bind_eq_ok.1 e
  cases e
  have h1 := derive1uipT_rescale h hc hconf e1
  have h2 : (Vsids.doDecayT env cb1.vsids).1.2 ≤ 1 := by
    unfold Vsids.doDecayT
    simp only
    split <;> simp
  simp only [Prod.snd_add] at h1 ⊢
  omega

end Analysis

/-! ## The size of the implication graph -/

theorem sum_sum_comm {α β : Type} (f : α → β → Nat) (as : List α) (bs : List β) :
    (as.map fun a => (bs.map (f a)).sum).sum = (bs.map fun b => (as.map fun a => f a b).sum).sum := by
  induction as with
  | nil => simp
  | cons a as ih =>
    simp only [List.map_cons, List.sum_cons, ih]
    rw [← List.sum_map_add]

theorem sum_eq_once {α : Type} [DecidableEq α] (x : α) (k : Nat) : ∀ (as : List α), as.Nodup →
    (as.map fun a => if a = x then k else 0).sum ≤ k
  | [], _ => by simp
  | a :: as, h => by
    obtain ⟨h1, h2⟩ := List.nodup_cons.1 h
    rw [List.map_cons, List.sum_cons]
    split
    · rename_i hx
      have : (as.map fun a => if a = x then k else 0).sum = 0 := by
        rw [List.sum_eq_zero_iff]
        intro y hy
        obtain ⟨b, hb, rfl⟩ := List.mem_map.1 hy
        rw [if_neg]
        rintro rfl
        exact h1 (hx ▸ hb)
      omega
    · have := sum_eq_once x k as h2
      omega

/-- If no literal is on the trail twice, each clause is the reason of at most one of them: the graph has at most as many
edges as there are literals on the trail and in long clauses. -/
theorem graphSize_le {n : Nat} {S : List LC} {p : PropState} (h : PInv n S p)
    (hn : (p.trail.steps.map Step.lit).Nodup) : graphSize p ≤ p.trail.steps.length + litsS S := by
  let f : Step → LC → Nat := fun s e => if e.lits.head? = some s.lit then e.lits.length else 0
  have h1 : ∀ st ∈ p.trail.steps, reasonLen p st ≤ 1 + (S.map (f st)).sum := by
    intro st hst
    obtain ⟨i, hi⟩ := List.mem_iff_getElem?.1 hst
    have hr := h.reasons i st hi
    unfold ReasonOK at hr
    unfold reasonLen
    cases hx : st.reason with
    | decision => exact Nat.zero_le _
    | unit => exact Nat.zero_le _
    | binary o => exact Nat.le_add_right _ _
    | long c =>
      rw [hx] at hr
      obtain ⟨e, he, rfl, rest, h1, _⟩ := hr
      simp only [PropState.reasonLits, h.rep.lits_ok he, bind_ok, h1]
      have h2 : f st e ≤ (S.map (f st)).sum := List.single_le_sum (by simp) _ (List.mem_map.2 ⟨e, he, rfl⟩)
      have h3 : f st e = rest.length + 1 := by simp [f, h1]
      show rest.length ≤ _
      omega
  have h2 : graphSize p ≤ (p.trail.steps.map fun st => 1 + (S.map (f st)).sum).sum :=
    List.sum_le_sum h1
  rw [List.sum_map_add, sum_sum_comm] at h2
  have h3 : (S.map fun e => (p.trail.steps.map fun st => f st e).sum).sum ≤ litsS S := by
    refine List.sum_le_sum fun e _ => ?_
    cases hl : e.lits with
    | nil => simp [f, hl]
    | cons x rest =>
      have := sum_eq_once x e.lits.length _ hn
      rw [List.map_map] at this
      rw [← hl]
      refine Nat.le_trans (List.sum_le_sum fun st _ => ?_) this
      simp only [f, Function.comp, hl, List.head?_cons, Option.some.injEq]
      by_cases hx : x = st.lit
      · rw [if_pos hx, if_pos hx.symm]
      · rw [if_neg hx, if_neg (Ne.symm hx)]
  simp only [List.map_const', List.sum_replicate, smul_eq_mul, Nat.mul_one] at h2
  omega

/-! ## Counting -/

/-- `search_step` (`/repo/starlit/src/search.rs:41-86`) with the work of garbage collection, propagation, conflict analysis
and the choice of a variable; the call counts one. -/
def searchStepT (env : Env) (ctx : Ctx) (s : Search) : M (Cost × Ctx × Search × Option Bool) :=
  if s.prop.unsat then pure ((1, 0), ctx, s, some false)
  else do
    let (t1, p) ← collectGarbageS s.prop
    let (t2, ctx, p, r) ← propagateT ctx p
    match r with
    | some conflict =>
      let ctx := { ctx with search := { ctx.search with conflicts := ctx.search.conflicts + 1 } }
      if p.trail.decisionLevel = 0 then
        pure ((1 + t1 + t2, 0), ctx, { s with prop := { p with unsat := true } }, some false)
      else do
        let (t3, ctx, an, p, cb) ← Analysis.analyzeConflictT env ctx s.analysis p conflict s.cb
        pure ((1 + t1 + t2 + t3.1, t3.2), ctx, { prop := p, analysis := an, cb := cb }, none)
    | none => do
      let (t3, v, vsids) ← s.cb.vsids.popDecisionVarT p.values
      let cb := { s.cb with vsids := vsids }
      match v with
      | some v => do
        let ctx := { ctx with
          search := { ctx.search with decisions := ctx.search.decisions + 1 } }
        let l ← decidePhase cb.phases v
        let p ← p.assignDecision l
        pure ((1 + t1 + t2 + (t3.1 + t3.2), 0), ctx, { s with prop := p, cb := cb }, none)
      | none => pure ((1 + t1 + t2 + (t3.1 + t3.2), 0), ctx, { s with prop := p, cb := cb }, some true)

/-- `restart` (`/repo/starlit/src/search.rs:111-126`) with the work of backtracking. -/
def restartT (ctx : Ctx) (s : Search) : M (Nat × Ctx × Search) := do
  let ctx := { ctx with search := { ctx.search with restarts := ctx.search.restarts + 1 } }
  if s.prop.trail.decisionLevel > 0 then do
    let (t, p, cb) ← backtrackToLevelT s.prop 0 s.cb
    pure (t, ctx, { s with prop := p, cb := cb })
  else pure (0, ctx, s)

/-- All the work of a reduction. -/
def ReduceWork.total (w : ReduceWork) : Nat := w.steps + w.words + w.visits + w.cands + w.deleted

namespace Solver

/-- `if should_restart(..) { restart(..) }` (`/repo/starlit/src/state.rs:32-34`, `55-63`). -/
def maybeRestartT (s : Solver) : M (Nat × Solver) :=
  if s.ctx.search.conflicts ≥ s.schedule.nextRestart then do
    let (v, luby) := s.schedule.luby.advance
    let schedule := { s.schedule with
      nextRestart := s.ctx.search.conflicts + v * 512, luby := luby }
    let (t, ctx, search) ← restartT s.ctx s.search
    pure (t, { ctx := ctx, search := search, schedule := schedule })
  else pure (0, s)

/-- `if should_reduce(..) { reduce(..); report(..) }` (`/repo/starlit/src/state.rs:36-39`, `65-75`) without the report. -/
def maybeReduceT (env : Env) (s : Solver) : M (Nat × Solver) :=
  if s.ctx.search.conflicts ≥ s.schedule.nextReduce then do
    let reductions := s.schedule.reductions + 1
    let schedule := { s.schedule with
      reductions := reductions
      nextReduce := s.schedule.nextReduce + env.reduceInterval reductions }
    let (w, ctx, search) ← reduceT env s.ctx s.search
    pure (w.total, { ctx := ctx, search := search, schedule := schedule })
  else pure (0, s)

/-- `schedule_search_step` (`/repo/starlit/src/state.rs:31-42`). -/
def scheduleStepT (env : Env) (s : Solver) : M (Cost × Solver × Option Bool) := do
  let (t1, s) ← s.maybeRestartT
  let (t2, s) ← s.maybeReduceT env
  let (t3, ctx, search, r) ← searchStepT env s.ctx s.search
  pure ((t1 + t2 + t3.1, t3.2), { s with ctx := ctx, search := search }, r)

/-- The loop of `solve` (`/repo/starlit/src/solver.rs:61-68`) cut off after the given number of iterations. -/
def solveT (env : Env) : Nat → Solver → M (Cost × Solver × Option Bool)
  | 0, s => pure ((0, 0), s, none)
  | k + 1, s => do
    let (t1, s, r) ← s.scheduleStepT env
    match r with
    | some b => pure (t1, s, some b)
    | none => do
      let (t2, r) ← solveT env k s
      pure (t1 + t2, r)

end Solver

/-! ## The counted functions are those of the model -/

theorem searchStepT_erase (env : Env) (ctx : Ctx) (s : Search) :
    Except.map Prod.snd (searchStepT env ctx s) = searchStep env ctx s := by
  unfold searchStepT searchStep
  split
  · rfl
  rw [← collectGarbageS_erase, bind_map_snd, map_snd_bind]
  congr 1; funext ⟨t1, p⟩
  simp only
  rw [← propagateT_erase, bind_map_snd, map_snd_bind]
  congr 1; funext ⟨t2, ctx1, p, r⟩
  cases r with
  | some c =>
    simp only
    split
    · rfl
    rw [← Analysis.analyzeConflictT_erase, bind_map_snd, map_snd_bind]
    rfl
  | none =>
    simp only
    rw [← Vsids.popDecisionVarT_erase, bind_map_snd, map_snd_bind]
    congr 1; funext ⟨t3, v, vsids⟩
    cases v with
    | none => rfl
    | some x =>
      simp only [map_snd_bind]
      rfl

theorem restartT_erase (ctx : Ctx) (s : Search) : Except.map Prod.snd (restartT ctx s) = restart ctx s := by
  unfold restartT restart
  simp only
  split
  · rw [← backtrackToLevelT_erase, bind_map_snd, map_snd_bind]; rfl
  · rfl

namespace Solver

theorem maybeRestartT_erase (s : Solver) : Except.map Prod.snd s.maybeRestartT = s.maybeRestart := by
  unfold maybeRestartT maybeRestart
  split
  · simp only
    rw [← restartT_erase, bind_map_snd, map_snd_bind]; rfl
  · rfl

theorem maybeReduceT_erase (env : Env) (s : Solver) :
    Except.map Prod.snd (s.maybeReduceT env) = s.maybeReduce env := by
  unfold maybeReduceT maybeReduce
  split
  · simp only
    rw [← reduceT_erase, bind_map_snd, map_snd_bind]; rfl
  · rfl

theorem scheduleStepT_erase (env : Env) (s : Solver) :
    Except.map Prod.snd (s.scheduleStepT env) = s.scheduleStep env := by
  unfold scheduleStepT scheduleStep
  rw [← maybeRestartT_erase, bind_map_snd, map_snd_bind]
  congr 1; funext ⟨t1, s1⟩
  simp only
  rw [← maybeReduceT_erase, bind_map_snd, map_snd_bind]
  congr 1; funext ⟨t2, s2⟩
  simp only
  rw [← searchStepT_erase, bind_map_snd, map_snd_bind]
  rfl

/-- The counted run is the run of the model. -/
theorem solveT_erase (env : Env) : ∀ (k : Nat) (s : Solver),
    Except.map Prod.snd (s.solveT env k) = s.solve env k
  | 0, _ => rfl
  | k + 1, s => by
    simp only [solveT, solve]
    rw [← scheduleStepT_erase, bind_map_snd, map_snd_bind]
    congr 1; funext ⟨t1, s1, r⟩
    cases r with
    | some b => rfl
    | none =>
      simp only
      rw [map_snd_bind, ← solveT_erase env k s1]
      cases s1.solveT env k <;> rfl

end Solver

/-! ## The work of one iteration -/

/-- Variables, room for the long clauses and entries of the watch lists, after so many conflicts. -/
def sizeBound (F : List (List Lit)) (c : Nat) : Nat :=
  formulaVars F + (formulaWords F + c * (formulaVars F + 3)) + 2 * (F.length + c) + 1

section
variable {env : Env} {F : List (List Lit)} {s s' : Solver}

theorem sizeBound_mono {c c' : Nat} (h : c ≤ c') : sizeBound F c ≤ sizeBound F c' := by
  unfold sizeBound
  have := Nat.mul_le_mul_right (formulaVars F + 3) h
  omega

theorem Solver.Reachable.nodup (h : Solver.Reachable env F s) (hu : (unitLits F).Nodup) :
    (s.search.prop.trail.steps.map Step.lit).Nodup := by
  have := h.fixed.nodup 0 (.inl hu)
  simpa using this

theorem Solver.Reachable.steps_le (h : Solver.Reachable env F s) (hu : (unitLits F).Nodup) :
    s.search.prop.trail.steps.length ≤ formulaVars F := by
  obtain ⟨L, S, hi⟩ := h.inv
  have := hi.prop.trail.length_le (u := 0) (by simpa using h.nodup hu)
  omega

theorem Solver.Reachable.heap_le (h : Solver.Reachable env F s) :
    s.search.cb.vsids.activity.heap.length ≤ formulaVars F := by
  obtain ⟨L, S, hi⟩ := h.inv
  have := hi.cb.wf.length_le
  rwa [hi.cb.len] at this

theorem Solver.maybeRestartT_le (h : Solver.Reachable env F s) (hu : (unitLits F).Nodup) {t : Nat}
    (e : s.maybeRestartT = .ok (t, s')) : t ≤ formulaVars F * (1 + Nat.log 2 (formulaVars F)) := by
  have e' : s.maybeRestart = .ok s' := by rw [← maybeRestartT_erase, e]; rfl
  have hh := (h.restart e').heap_le
  have hs := h.steps_le hu
  unfold maybeRestartT at e
  split at e
  · simp only at e
    obtain ⟨⟨t1, ctx, search⟩, e1, e⟩ := bind_eq_ok.1 e
    cases e
    unfold restartT at e1
    simp only at e1
    split at e1
    · obtain ⟨⟨t2, p, cb⟩, e2, e1⟩ := bind_eq_ok.1 e1
      cases e1
      refine Nat.le_trans (backtrackToLevelT_le e2) (Nat.mul_le_mul hs (Nat.add_le_add_left (Nat.log_mono_right hh) 1))
    · cases e1; exact Nat.zero_le _
  · cases e; exact Nat.zero_le _

theorem Solver.maybeReduceT_le (h : Solver.Reachable env F s) (hu : (unitLits F).Nodup) {t : Nat}
    (e : s.maybeReduceT env = .ok (t, s')) : t ≤ 2 * formulaVars F + 4 * s.words + 3 := by
  have hs := h.steps_le hu
  unfold maybeReduceT at e
  split at e
  · simp only at e
    obtain ⟨⟨w, ctx, search⟩, e1, e⟩ := bind_eq_ok.1 e
    cases e
    obtain ⟨h1, h2, h3, h4, _, h5⟩ := C80_linear h e1
    unfold ReduceWork.total Solver.words
    simp only
    omega
  · cases e; omega

theorem Solver.Propagating.nodup {p1 p : PropState} {ctx : Ctx} {r : Option ConflictClause}
    (h : Solver.Propagating env F s p1 ctx p r) (hu : (unitLits F).Nodup) : (p.trail.steps.map Step.lit).Nodup := by
  obtain ⟨_, _, _, _, hn⟩ := h.keys
  have := hn 0 (by simpa using h.reach.nodup hu)
  simpa using this

theorem Solver.Propagating.steps_le {p1 p : PropState} {ctx : Ctx} {r : Option ConflictClause}
    (h : Solver.Propagating env F s p1 ctx p r) (hu : (unitLits F).Nodup) :
    p.trail.steps.length ≤ formulaVars F ∧ p.trail.propagated ≤ p.trail.steps.length := by
  obtain ⟨L, S, S2, hi, q⟩ := h.phase
  have := q.inv.trail.length_le (u := 0) (by simpa using h.nodup hu)
  exact ⟨by omega, q.inv.trail.prop_le⟩

theorem Solver.Propagating.binary {p1 p : PropState} {ctx : Ctx} {r : Option ConflictClause}
    (h : Solver.Propagating env F s p1 ctx p r) : p1.binary = s.search.prop.binary := by
  obtain ⟨L, S, hi⟩ := h.reach.inv
  rcases (collectGarbage_spec hi.prop).ok_elim h.gc with rfl | ⟨ρ, hg⟩
  · rfl
  · obtain ⟨a, rfl⟩ := hg.eq; rfl

/-- The sizes of the falsified clause and of the implication graph. -/
theorem Solver.Propagating.graph_le {p1 p : PropState} {ctx : Ctx} {c : ConflictClause} {conf : List Lit}
    (h : Solver.Propagating env F s p1 ctx p (some c)) (hu : (unitLits F).Nodup) (hconf : c.lits p = .ok conf) :
    conf.length ≤ s.words + 2 ∧ graphSize p ≤ formulaVars F + s.words := by
  obtain ⟨L, S, S2, hi, q⟩ := h.phase
  obtain ⟨_, _, hi1, _⟩ := h.inv
  have hg := (grow_propagate hi1.enabled _ h.prop).1.trans (grow_collectGarbage hi.prop _ h.gc).1
  have hl := q.inv.rep.litsS_le
  have h1 := graphSize_le q.inv (h.nodup hu)
  have h2 := h.steps_le hu
  simp only [Solver.words] at *
  refine ⟨?_, by omega⟩
  have hc := q.conflict c rfl
  cases c with
  | binary a b => cases hconf; simp
  | long c =>
    obtain ⟨x, hx, rfl, _⟩ := hc
    cases hconf.symm.trans (q.inv.rep.lits_ok hx)
    have := litsS_mem hx
    omega

/-- Garbage collection and propagation together. -/
theorem Solver.Propagating.work {p1 p : PropState} {ctx : Ctx} {r : Option ConflictClause} {t1 t2 : Nat}
    (h : Solver.Propagating env F s p1 ctx p r) (hu : (unitLits F).Nodup)
    (e1 : collectGarbageS s.search.prop = .ok (t1, p1)) (e2 : propagateT s.ctx p1 = .ok (t2, ctx, p, r)) :
    1 + t1 + t2 ≤ 38 * sizeBound F s.ctx.search.conflicts := by
  obtain ⟨L, S, hi⟩ := h.reach.inv
  obtain ⟨g1, _⟩ := collectGarbageS_le e1
  obtain ⟨g2, g3⟩ := grow_collectGarbage hi.prop _ h.gc
  obtain ⟨t, e3, g4⟩ := C69_linear h (.inr hu)
  cases e2.symm.trans e3
  have hb := (C35_formula_stats h.reach).2.1
  have hb' := (C64_bounds h.reach).2.2.2.2.1
  obtain ⟨w1, w2⟩ := h.reach.sizes
  have hs := h.reach.steps_le hu
  have hp := h.steps_le hu
  have hw : s.search.prop.watches.byLit.length = formulaVars F * 2 := hi.prop.sized.wat
  rw [h.binary, hb] at g4
  unfold sizeBound
  simp only [watchSum, Solver.words] at *
  omega

theorem searchStepT_le (h : Solver.Reachable env F s) (hu : (unitLits F).Nodup) {t : Cost} {ctx : Ctx} {search : Search}
    {r : Option Bool} (e : searchStepT env s.ctx s.search = .ok (t, ctx, search, r)) :
    t.1 ≤ (72 + 2 * Nat.log 2 (formulaVars F)) * sizeBound F s.ctx.search.conflicts ∧
    t.2 + 3 * sizeBound F s.ctx.search.conflicts * s.ctx.search.conflicts ≤
      3 * sizeBound F s.ctx.search.conflicts * ctx.search.conflicts := by
  have e0 : searchStep env s.ctx s.search = .ok (ctx, search, r) := by rw [← searchStepT_erase, e]; rfl
  have hst := (searchStep_cases h e0).stats.2
  have hm : 3 * sizeBound F s.ctx.search.conflicts * s.ctx.search.conflicts ≤
      3 * sizeBound F s.ctx.search.conflicts * ctx.search.conflicts := Nat.mul_le_mul_left _ hst
  have hB : 1 ≤ sizeBound F s.ctx.search.conflicts := by unfold sizeBound; omega
  have hBn : formulaVars F + s.words + 1 ≤ sizeBound F s.ctx.search.conflicts := by
    have := h.sizes.1
    unfold sizeBound; omega
  have hn : formulaVars F * Nat.log 2 (formulaVars F) ≤
      sizeBound F s.ctx.search.conflicts * Nat.log 2 (formulaVars F) := Nat.mul_le_mul_right _ (by omega)
  have hexp : (72 + 2 * Nat.log 2 (formulaVars F)) * sizeBound F s.ctx.search.conflicts =
      72 * sizeBound F s.ctx.search.conflicts +
        2 * (sizeBound F s.ctx.search.conflicts * Nat.log 2 (formulaVars F)) := by ring
  rw [hexp]
  unfold searchStepT at e
  by_cases hun : s.search.prop.unsat = true
  · rw [if_pos hun] at e
    cases e
    simp only
    omega
  rw [if_neg hun] at e
  have hun : s.search.prop.unsat = false := by simpa using hun
  obtain ⟨⟨t1, p1⟩, e1, e⟩ := bind_eq_ok.1 e
  simp only at e
  obtain ⟨⟨t2, ctx1, p, rc⟩, e2, e⟩ := bind_eq_ok.1 e
  have hp : Solver.Propagating env F s p1 ctx1 p rc := ⟨h, hun, by rw [← collectGarbageS_erase, e1]; rfl,
    by rw [← propagateT_erase, e2]; rfl⟩
  have hw := hp.work hu e1 e2
  cases rc with
  | some c =>
    simp only at e
    by_cases h0 : p.trail.decisionLevel = 0
    · rw [if_pos h0] at e
      cases e
      simp only at hm ⊢
      omega
    · rw [if_neg h0] at e
      obtain ⟨⟨t3, ctx3, an, p3, cb⟩, e3, e⟩ := bind_eq_ok.1 e
      cases e
      obtain ⟨L, S, S2, hi, q⟩ := hp.phase
      obtain ⟨conf, hconf, _⟩ := q.inv.conflict q.inv.storedInv (q.conflict c rfl)
      obtain ⟨t4, ctx4, e4, b1⟩ := C71_linear hp h0 hconf e0
      cases (show Analysis.analyzeConflictT env ctx1.conflict s.search.analysis p c s.search.cb = _ from e3).symm.trans e4
      have b2 := Analysis.analyzeConflictT_rescale q.inv (q.conflict c rfl) hconf e3
      obtain ⟨b3, b4⟩ := hp.graph_le hu hconf
      have b5 := (hp.steps_le hu).1
      have e5 : Analysis.analyzeConflict env ctx1.conflict s.search.analysis p c s.search.cb = .ok (ctx3, an, p3, cb) := by
        rw [← Analysis.analyzeConflictT_erase, e4]; rfl
      obtain ⟨_, _, _, _, _, _, A⟩ := hp.analyze h0 e5
      have hc : ctx3.search.conflicts = s.ctx.search.conflicts + 1 := by
        rw [A.search]; simp [Ctx.conflict, hp.search]
      have b6 : (13 + Nat.log 2 (formulaVars F)) * (conf.length + graphSize p + p.trail.steps.length) ≤
          (13 + Nat.log 2 (formulaVars F)) * (2 * sizeBound F s.ctx.search.conflicts) :=
        Nat.mul_le_mul_left _ (by omega)
      have b7 : (13 + Nat.log 2 (formulaVars F)) * (2 * sizeBound F s.ctx.search.conflicts) =
          26 * sizeBound F s.ctx.search.conflicts +
            2 * (sizeBound F s.ctx.search.conflicts * Nat.log 2 (formulaVars F)) := by ring
      rw [hc, Nat.mul_add]
      simp only at b1 ⊢
      omega
  | none =>
    simp only at e
    obtain ⟨⟨⟨k, t3⟩, v, vsids⟩, e3, e⟩ := bind_eq_ok.1 e
    obtain ⟨b1, b2⟩ := popDecisionVarT_le e3 h.heap_le
    have b3 := h.heap_le
    have b4 : k * (Nat.log 2 (formulaVars F) + 1) ≤ formulaVars F * (Nat.log 2 (formulaVars F) + 1) :=
      Nat.mul_le_mul_right _ (by omega)
    rw [Nat.mul_add (formulaVars F)] at b4
    cases v with
    | none =>
      cases e
      simp only at hm ⊢
      omega
    | some x =>
      simp only at e
      obtain ⟨l, _, e⟩ := bind_eq_ok.1 e
      obtain ⟨p4, _, e⟩ := bind_eq_ok.1 e
      cases e
      simp only at hm ⊢
      omega

theorem StepCase.decisions {ctx : Ctx} {search : Search} {r : Option Bool} (h : StepCase env F s ctx search r) :
    s.ctx.search.decisions ≤ ctx.search.decisions := by
  cases h with
  | already => exact Nat.le_refl _
  | fail hp => simp [Ctx.conflict, hp.search]
  | learn hp h0 e =>
    obtain ⟨_, _, _, _, _, _, A⟩ := hp.analyze h0 e
    rw [A.search]
    simp [Ctx.conflict, hp.search]
  | decide hp => simp [Ctx.decision, hp.search]
  | sat hp => rw [hp.search]

theorem scheduleStepT_le (h : Solver.Reachable env F s) (hu : (unitLits F).Nodup) {t : Cost} {r : Option Bool}
    (e : s.scheduleStepT env = .ok (t, s', r)) :
    t.1 ≤ (77 + 3 * Nat.log 2 (formulaVars F)) * sizeBound F s.ctx.search.conflicts ∧
    t.2 + 3 * sizeBound F s.ctx.search.conflicts * s.ctx.search.conflicts ≤
      3 * sizeBound F s.ctx.search.conflicts * s'.ctx.search.conflicts ∧
    s.ctx.search.conflicts ≤ s'.ctx.search.conflicts ∧ s.ctx.search.decisions ≤ s'.ctx.search.decisions := by
  unfold Solver.scheduleStepT at e
  obtain ⟨⟨t1, s1⟩, e1, e⟩ := bind_eq_ok.1 e
  simp only at e
  obtain ⟨⟨t2, s2⟩, e2, e⟩ := bind_eq_ok.1 e
  simp only at e
  obtain ⟨⟨t3, ctx, search, r⟩, e3, e⟩ := bind_eq_ok.1 e
  cases e
  have f1 : s.maybeRestart = .ok s1 := by rw [← Solver.maybeRestartT_erase, e1]; rfl
  have f2 : s1.maybeReduce env = .ok s2 := by rw [← Solver.maybeReduceT_erase, e2]; rfl
  have f3 : searchStep env s2.ctx s2.search = .ok (ctx, search, r) := by rw [← searchStepT_erase, e3]; rfl
  have r1 := h.restart f1
  have r2 := r1.reduce f2
  obtain ⟨c1, d1⟩ : s1.ctx.search.conflicts = s.ctx.search.conflicts ∧
      s1.ctx.search.decisions = s.ctx.search.decisions := by
    rcases C55_restart h f1 with ⟨_, rfl⟩ | ⟨_, _, _, h4, h5, _⟩
    · exact ⟨rfl, rfl⟩
    · exact ⟨h4, h5⟩
  obtain ⟨c2, d2⟩ : s2.ctx.search.conflicts = s1.ctx.search.conflicts ∧
      s2.ctx.search.decisions = s1.ctx.search.decisions := by
    rcases C55_reduce r1 f2 with ⟨_, rfl⟩ | ⟨_, _, _, _, _, h4, h5, _⟩
    · exact ⟨rfl, rfl⟩
    · exact ⟨h4, h5⟩
  have c3 := (searchStep_cases r2 f3).stats.2
  have d3 := (searchStep_cases r2 f3).decisions
  have a1 := Solver.maybeRestartT_le h hu e1
  have a2 := Solver.maybeReduceT_le r1 hu e2
  obtain ⟨a3, a4⟩ := searchStepT_le r2 hu e3
  have w := r1.sizes.1
  rw [c2, c1] at a3 a4 c3
  rw [c1] at w
  rw [d2, d1] at d3
  refine ⟨?_, a4, c3, d3⟩
  have hBn : formulaVars F + s1.words + 1 ≤ sizeBound F s.ctx.search.conflicts := by unfold sizeBound; omega
  have b1 : formulaVars F * (1 + Nat.log 2 (formulaVars F)) ≤
      sizeBound F s.ctx.search.conflicts * (1 + Nat.log 2 (formulaVars F)) := Nat.mul_le_mul_right _ (by omega)
  have b2 : (77 + 3 * Nat.log 2 (formulaVars F)) * sizeBound F s.ctx.search.conflicts =
      (72 + 2 * Nat.log 2 (formulaVars F)) * sizeBound F s.ctx.search.conflicts +
      sizeBound F s.ctx.search.conflicts * (1 + Nat.log 2 (formulaVars F)) +
      4 * sizeBound F s.ctx.search.conflicts := by ring
  rw [b2]
  simp only
  omega

/-! ## All iterations -/

theorem solveT_le (hu : (unitLits F).Nodup) : ∀ (k : Nat) {s s' : Solver} {t : Cost} {r : Option Bool},
    Solver.Reachable env F s → s.solveT env k = .ok (t, s', r) →
    s.ctx.search.conflicts ≤ s'.ctx.search.conflicts ∧
    ∃ j, t.1 ≤ j * ((77 + 3 * Nat.log 2 (formulaVars F)) * sizeBound F s'.ctx.search.conflicts) ∧
      j + s.ctx.search.conflicts + s.ctx.search.decisions ≤
        s'.ctx.search.conflicts + s'.ctx.search.decisions + 1 ∧
      t.2 + 3 * sizeBound F s'.ctx.search.conflicts * s.ctx.search.conflicts ≤
        3 * sizeBound F s'.ctx.search.conflicts * s'.ctx.search.conflicts
  | 0, s, s', t, r, h, e => by
    cases e
    exact ⟨Nat.le_refl _, 0, by simp, by omega, by simp⟩
  | k + 1, s, s', t, r, h, e => by
    simp only [Solver.solveT] at e
    obtain ⟨⟨t1, s1, r1⟩, e1, e⟩ := bind_eq_ok.1 e
    obtain ⟨a1, a2, a3, a4⟩ := scheduleStepT_le h hu e1
    have e1' : s.scheduleStep env = .ok (s1, r1) := by rw [← Solver.scheduleStepT_erase, e1]; rfl
    have lift : ∀ {c : Nat}, s1.ctx.search.conflicts ≤ c →
        t1.1 ≤ (77 + 3 * Nat.log 2 (formulaVars F)) * sizeBound F c ∧
        t1.2 + 3 * sizeBound F c * s.ctx.search.conflicts ≤ 3 * sizeBound F c * s1.ctx.search.conflicts := by
      intro c hc
      have hb : sizeBound F s.ctx.search.conflicts ≤ sizeBound F c := sizeBound_mono (by omega)
      refine ⟨Nat.le_trans a1 (Nat.mul_le_mul_left _ hb), ?_⟩
      obtain ⟨d, hd⟩ := Nat.le.dest a3
      rw [← hd, Nat.mul_add] at a2 ⊢
      have := Nat.mul_le_mul_right d (Nat.mul_le_mul_left 3 hb)
      omega
    cases r1 with
    | some b =>
      cases e
      obtain ⟨l1, l2⟩ := lift (Nat.le_refl _)
      exact ⟨a3, 1, by simp only; omega, by simp only; omega, l2⟩
    | none =>
      simp only at e
      obtain ⟨⟨t2, s2, r2⟩, e2, e⟩ := bind_eq_ok.1 e
      cases e
      obtain ⟨h1, h2⟩ := scheduleStep_effort h e1'
      obtain ⟨b1, j, b2, b3, b4⟩ := solveT_le hu k h1 e2
      obtain ⟨l1, l2⟩ := lift b1
      refine ⟨by omega, j + 1, ?_, by omega, ?_⟩
      · rw [Nat.add_mul, Prod.fst_add]; simp only; omega
      · rw [Prod.snd_add]; simp only; omega

/-- C83: all the work of `solve()` — loops of garbage collections, propagation, conflict analysis, minimisation,
backtracking, decisions and reductions, including those inside of the heap — is polynomial in the formula and the number of
conflicts; so is the number of rescales, of which each takes one step for each variable. -/
theorem C83_total (h : Solver.Input env F s) (hu : (unitLits F).Nodup) {k : Nat} {t : Cost} {r : Option Bool}
    (e : s.solveT env k = .ok (t, s', r)) :
    t.1 ≤ (s'.ctx.search.conflicts +
        formulaVars F * (s'.ctx.search.conflicts + s'.ctx.search.conflicts / 512 + 2) + 1) *
      ((77 + 3 * Nat.log 2 (formulaVars F)) * sizeBound F s'.ctx.search.conflicts) ∧
    t.2 ≤ 3 * sizeBound F s'.ctx.search.conflicts * s'.ctx.search.conflicts := by
  have hr : Solver.Reachable env F s := .input h
  obtain ⟨_, j, h1, h2, h3⟩ := solveT_le hu k hr e
  have e' : s.solve env k = .ok (s', r) := by rw [← Solver.solveT_erase, e]; rfl
  have h4 := (C64_bounds (hr.solve e')).2.1
  have h5 : s.ctx.search = ⟨0, 0, 0, 0⟩ := h.start.search
  rw [h5] at h2 h3
  simp only at h2 h3
  exact ⟨Nat.le_trans h1 (Nat.mul_le_mul_right _ (by omega)), by omega⟩

/-- C83: every run of `solve()` has such a count. -/
theorem C83_counts {k : Nat} {r : Option Bool} (e : s.solve env k = .ok (s', r)) :
    ∃ t, s.solveT env k = .ok (t, s', r) := of_erase (s.solveT_erase env k) e

/-- C83: formulas with clauses of at most two literals take polynomial time. -/
theorem C83_two (hF : TwoCnf F) (h : Solver.Input env F s) (hu : (unitLits F).Nodup) {k : Nat} {r : Option Bool}
    (e : s.solve env k = .ok (s', r)) :
    ∃ t, s.solveT env k = .ok (t, s', r) ∧
      t.1 ≤ ((formulaVars F + 1) + formulaVars F * ((formulaVars F + 1) + (formulaVars F + 1) / 512 + 2) + 1) *
        ((77 + 3 * Nat.log 2 (formulaVars F)) * sizeBound F (formulaVars F + 1)) ∧
      t.2 ≤ 3 * sizeBound F (formulaVars F + 1) * (formulaVars F + 1) := by
  obtain ⟨t, et⟩ := C83_counts e
  obtain ⟨h1, h2⟩ := C83_total h hu et
  have hc := (C82_conflicts hF ((Solver.Reachable.input h).solve e)).1
  have hd := Nat.div_le_div_right (c := 512) hc
  have hb := sizeBound_mono (F := F) hc
  refine ⟨t, et, h1.trans (Nat.mul_le_mul ?_ (Nat.mul_le_mul_left _ hb)),
    h2.trans (Nat.mul_le_mul (Nat.mul_le_mul_left _ hb) hc)⟩
  have := Nat.mul_le_mul_left (formulaVars F) (Nat.add_le_add_right (Nat.add_le_add hc hd) 2)
  omega

/-- C83: Horn formulas take polynomial time. -/
theorem C83_horn (hF : HornFormula F) (h : Solver.Input env F s) (hu : (unitLits F).Nodup) {k : Nat} {r : Option Bool}
    (e : s.solve env k = .ok (s', r)) :
    ∃ t, s.solveT env k = .ok (t, s', r) ∧
      t.1 ≤ (3 * formulaVars F + 2) * ((77 + 3 * Nat.log 2 (formulaVars F)) * sizeBound F 1) ∧
      t.2 ≤ 3 * sizeBound F 1 := by
  obtain ⟨t, et⟩ := C83_counts e
  obtain ⟨h1, h2⟩ := C83_total h hu et
  have hc := (C81_horn hF h e).1
  have hb := sizeBound_mono (F := F) hc
  refine ⟨t, et, h1.trans (Nat.mul_le_mul ?_ (Nat.mul_le_mul_left _ hb)),
    h2.trans (by simpa using Nat.mul_le_mul (Nat.mul_le_mul_left 3 hb) hc)⟩
  have := Nat.mul_le_mul_left (formulaVars F)
    (show s'.ctx.search.conflicts + s'.ctx.search.conflicts / 512 + 2 ≤ 3 by omega)
  omega

end

/-- The hypotheses of `C83_total` are met by a run with three conflicts that takes 125 steps; three conflicts, four
variables and 36 words for the formula give the bound 163344. -/
theorem C83_example : ∃ s s' t, Solver.Input Example.env (Example.cnf
      [[1, 2, 3], [1, -2, 3], [1, 2, -3], [1, -2, -3], [-1, 2], [-1, -2, 4], [-4, -1, -2]]) s ∧
    (unitLits (Example.cnf [[1, 2, 3], [1, -2, 3], [1, 2, -3], [1, -2, -3], [-1, 2], [-1, -2, 4], [-4, -1, -2]])).Nodup ∧
    s.solveT Example.env 100 = .ok (t, s', some false) ∧ t = (125, 0) ∧ s'.ctx.search.conflicts = 3 ∧
    (3 + 4 * (3 + 3 / 512 + 2) + 1) * ((77 + 3 * Nat.log 2 4) * sizeBound (Example.cnf
      [[1, 2, 3], [1, -2, 3], [1, 2, -3], [1, -2, -3], [-1, 2], [-1, -2, 4], [-4, -1, -2]]) 3) = 163344 := by
  have h : (do
      let s ← (Solver.default Example.env).addClauses (Example.cnf
        [[1, 2, 3], [1, -2, 3], [1, 2, -3], [1, -2, -3], [-1, 2], [-1, -2, 4], [-4, -1, -2]])
      let (t, s', r) ← s.solveT Example.env 100
      pure (t, s'.ctx.search.conflicts, r) : M (Cost × Nat × Option Bool)) = .ok ((125, 0), 3, some false) := by
    decide +kernel
  obtain ⟨s, h1, h2⟩ := bind_eq_ok.1 h
  obtain ⟨⟨t, s', r⟩, h3, h2⟩ := bind_eq_ok.1 h2
  have h2 := Except.ok.inj h2
  simp only [Prod.mk.injEq] at h2
  obtain ⟨a1, a2, rfl⟩ := h2
  have hin := Solver.Input.addClauses _ (.new (env := Example.env))
    (Example.ok_valid (F := [[1, 2, 3], [1, -2, 3], [1, 2, -3], [1, -2, -3], [-1, 2], [-1, -2, 4], [-4, -1, -2]])
      (by decide +kernel)) h1
  have hl : Nat.log 2 4 = 2 := by rw [Nat.log_eq_iff] <;> simp
  exact ⟨s, s', t, by simpa using hin, by decide +kernel, h3, a1, a2, by rw [hl]; decide +kernel⟩

end Starlit
