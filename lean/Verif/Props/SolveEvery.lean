import Verif.Props.WholeRun
import Verif.Props.PropRepeat

/-!
# C83 and C106 for all formulas

The bounds of `Verif/Props/SolveCost.lean` and `Verif/Props/WholeRun.lean` without the condition that no unit clause is
repeated: the size of the clause database is multiplied by the number of unit clauses.
-/

namespace Starlit

/-- The size of the clause database after `c` conflicts, once more for each unit clause. -/
def sizeEvery (F : List (List Lit)) (c : Nat) : Nat := (1 + (unitLits F).length) * sizeBound F c

theorem sum_eq_few {α : Type} [DecidableEq α] (x : α) (k u : Nat) (as : List α) (h : (as.drop u).Nodup) :
    (as.map fun a => if a = x then k else 0).sum ≤ (1 + u) * k := by
  have h1 : ∀ bs : List α, (bs.map fun a => if a = x then k else 0).sum ≤ bs.length * k := by
    intro bs
    induction bs with
    | nil => simp
    | cons b bs ih =>
      rw [List.map_cons, List.sum_cons, List.length_cons, Nat.add_mul, Nat.one_mul]
      split <;> omega
  have h2 := h1 (as.take u)
  have h3 := sum_eq_once x k _ h
  have h4 : (as.take u).length * k ≤ u * k := Nat.mul_le_mul_right _ (by simp)
  conv_lhs => rw [← List.take_append_drop u as, List.map_append, List.sum_append]
  rw [Nat.add_mul, Nat.one_mul]
  omega

/-- The size of the implication graph when literals may be repeated among the first `u` on the trail. -/
theorem graphSize_every {n u : Nat} {S : List LC} {p : PropState} (h : PInv n S p)
    (hn : ((p.trail.steps.map Step.lit).drop u).Nodup) :
    graphSize p ≤ p.trail.steps.length + (1 + u) * litsS S := by
  let f : Step → LC → Nat := fun s e => if e.lits.head? = some s.lit then e.lits.length else 0
  have h1 : ∀ st ∈ p.trail.steps, reasonLen p st ≤ 1 + (S.map (f st)).sum := by
    intro st hst
    obtain ⟨i, hi⟩ := List.mem_iff_getElem?.1 hst
    have hr := h.reasons i st hi
    unfold ReasonOK at hr
    unfold reasonLen
    cases hx : st.reason with
    | decision => exact Nat.zero_le _
    | unit => exact Nat.zero_le _
    | binary o => exact Nat.le_add_right _ _
    | long c =>
      rw [hx] at hr
      obtain ⟨e, he, rfl, rest, h1, _⟩ := hr
      simp only [PropState.reasonLits, h.rep.lits_ok he, bind_ok, h1]
      have h2 : f st e ≤ (S.map (f st)).sum := List.single_le_sum (by simp) _ (List.mem_map.2 ⟨e, he, rfl⟩)
      have h3 : f st e = rest.length + 1 := by simp [f, h1]
      show rest.length ≤ _
      omega
  have h2 : graphSize p ≤ (p.trail.steps.map fun st => 1 + (S.map (f st)).sum).sum :=
    List.sum_le_sum h1
  rw [List.sum_map_add, sum_sum_comm] at h2
  have h3 : (S.map fun e => (p.trail.steps.map fun st => f st e).sum).sum ≤
      (S.map fun e => (1 + u) * e.lits.length).sum := by
    refine List.sum_le_sum fun e _ => ?_
    cases hl : e.lits with
    | nil => simp [f, hl]
    | cons x rest =>
      have := sum_eq_few x e.lits.length u _ hn
      rw [List.map_map] at this
      rw [← hl]
      refine Nat.le_trans (List.sum_le_sum fun st _ => ?_) this
      simp only [f, Function.comp, hl, List.head?_cons, Option.some.injEq]
      by_cases hx : x = st.lit
      · rw [if_pos hx, if_pos hx.symm]
      · rw [if_neg hx, if_neg (Ne.symm hx)]
  rw [List.sum_map_mul_left] at h3
  simp only [List.map_const', List.sum_replicate, smul_eq_mul, Nat.mul_one] at h2
  unfold litsS
  omega

section
variable {env : Env} {F : List (List Lit)} {s s' : Solver}

theorem sizeEvery_mono {c c' : Nat} (h : c ≤ c') : sizeEvery F c ≤ sizeEvery F c' :=
  Nat.mul_le_mul_left _ (sizeBound_mono h)

theorem Solver.Reachable.steps_every (h : Solver.Reachable env F s) :
    s.search.prop.trail.steps.length ≤ formulaVars F + (unitLits F).length := by
  obtain ⟨L, S, hi⟩ := h.inv
  exact hi.prop.trail.length_le (h.fixed.nodup _ (.inr (Nat.le_refl _)))

/-- What fits into the bound for the size. -/
theorem Solver.Reachable.size_every (h : Solver.Reachable env F s) :
    formulaVars F + (unitLits F).length + (1 + (unitLits F).length) * s.words + 1 ≤
      sizeEvery F s.ctx.search.conflicts ∧ s.words ≤ (1 + (unitLits F).length) * s.words := by
  have h1 := h.sizes.1
  have h2 : formulaVars F + s.words + 1 ≤ sizeBound F s.ctx.search.conflicts := by unfold sizeBound; omega
  have h3 := Nat.mul_le_mul_left (1 + (unitLits F).length) h2
  have h4 : formulaVars F ≤ (1 + (unitLits F).length) * formulaVars F := Nat.le_mul_of_pos_left _ (by omega)
  have h5 : s.words ≤ (1 + (unitLits F).length) * s.words := Nat.le_mul_of_pos_left _ (by omega)
  rw [Nat.mul_add, Nat.mul_add] at h3
  unfold sizeEvery
  omega

theorem Solver.maybeRestartT_every (h : Solver.Reachable env F s) {t : Nat}
    (e : s.maybeRestartT = .ok (t, s')) :
    t ≤ (formulaVars F + (unitLits F).length) * (1 + Nat.log 2 (formulaVars F)) := by
  have e' : s.maybeRestart = .ok s' := by rw [← maybeRestartT_erase, e]; rfl
  have hh := (h.restart e').heap_le
  have hs := h.steps_every
  unfold maybeRestartT at e
  split at e
  · simp only at e
    obtain ⟨⟨t1, ctx, search⟩, e1, e⟩ := bind_eq_ok.1 e
    cases e
    unfold restartT at e1
    simp only at e1
    split at e1
    · obtain ⟨⟨t2, p, cb⟩, e2, e1⟩ := bind_eq_ok.1 e1
      cases e1
      refine Nat.le_trans (backtrackToLevelT_le e2) (Nat.mul_le_mul hs (Nat.add_le_add_left (Nat.log_mono_right hh) 1))
    · cases e1; exact Nat.zero_le _
  · cases e; exact Nat.zero_le _

theorem Solver.maybeReduceT_every (h : Solver.Reachable env F s) {t : Nat}
    (e : s.maybeReduceT env = .ok (t, s')) :
    t ≤ 2 * (formulaVars F + (unitLits F).length) + 4 * s.words + 3 := by
  have hs := h.steps_every
  unfold maybeReduceT at e
  split at e
  · simp only at e
    obtain ⟨⟨w, ctx, search⟩, e1, e⟩ := bind_eq_ok.1 e
    cases e
    obtain ⟨h1, h2, h3, h4, _, h5⟩ := C80_linear h e1
    unfold ReduceWork.total Solver.words
    simp only
    omega
  · cases e; omega

theorem Solver.Propagating.nodup_every {p1 p : PropState} {ctx : Ctx} {r : Option ConflictClause}
    (h : Solver.Propagating env F s p1 ctx p r) : ((p.trail.steps.map Step.lit).drop (unitLits F).length).Nodup := by
  obtain ⟨_, _, _, _, hn⟩ := h.keys
  exact hn _ (h.reach.fixed.nodup _ (.inr (Nat.le_refl _)))

theorem Solver.Propagating.steps_every {p1 p : PropState} {ctx : Ctx} {r : Option ConflictClause}
    (h : Solver.Propagating env F s p1 ctx p r) :
    p.trail.steps.length ≤ formulaVars F + (unitLits F).length ∧ p.trail.propagated ≤ p.trail.steps.length := by
  obtain ⟨L, S, S2, hi, q⟩ := h.phase
  exact ⟨q.inv.trail.length_le h.nodup_every, q.inv.trail.prop_le⟩

/-- The sizes of the falsified clause and of the implication graph. -/
theorem Solver.Propagating.graph_every {p1 p : PropState} {ctx : Ctx} {c : ConflictClause} {conf : List Lit}
    (h : Solver.Propagating env F s p1 ctx p (some c)) (hconf : c.lits p = .ok conf) :
    conf.length ≤ s.words + 2 ∧ graphSize p ≤ formulaVars F + (unitLits F).length +
      (1 + (unitLits F).length) * s.words := by
  obtain ⟨L, S, S2, hi, q⟩ := h.phase
  obtain ⟨_, _, hi1, _⟩ := h.inv
  have hg := (grow_propagate hi1.enabled _ h.prop).1.trans (grow_collectGarbage hi.prop _ h.gc).1
  have hl := q.inv.rep.litsS_le
  have h1 := graphSize_every q.inv h.nodup_every
  have h2 := h.steps_every
  have h3 : (1 + (unitLits F).length) * litsS S2 ≤ (1 + (unitLits F).length) * s.words :=
    Nat.mul_le_mul_left _ (by simp only [Solver.words] at *; omega)
  simp only [Solver.words] at *
  refine ⟨?_, by omega⟩
  have hc := q.conflict c rfl
  cases c with
  | binary a b => cases hconf; simp
  | long c =>
    obtain ⟨x, hx, rfl, _⟩ := hc
    cases hconf.symm.trans (q.inv.rep.lits_ok hx)
    have := litsS_mem hx
    omega

/-- Garbage collection and propagation together. -/
theorem Solver.Propagating.work_every {p1 p : PropState} {ctx : Ctx} {r : Option ConflictClause} {t1 t2 : Nat}
    (h : Solver.Propagating env F s p1 ctx p r)
    (e1 : collectGarbageS s.search.prop = .ok (t1, p1)) (e2 : propagateT s.ctx p1 = .ok (t2, ctx, p, r)) :
    1 + t1 + t2 ≤ 90 * sizeEvery F s.ctx.search.conflicts := by
  obtain ⟨L, S, hi⟩ := h.reach.inv
  obtain ⟨g1, _⟩ := collectGarbageS_le e1
  obtain ⟨g2, g3⟩ := grow_collectGarbage hi.prop _ h.gc
  obtain ⟨⟨t, e3, g4⟩, g5⟩ := C69_every h
  cases e2.symm.trans e3
  have hb := (C35_formula_stats h.reach).2.1
  have hb' := (C64_bounds h.reach).2.2.2.2.1
  obtain ⟨w1, w2⟩ := h.reach.sizes
  have hs := h.reach.steps_every
  have hp := h.steps_every
  have hw : s.search.prop.watches.byLit.length = formulaVars F * 2 := hi.prop.sized.wat
  have hz := h.reach.size_every
  rw [h.binary, hb] at g4
  have hB : formulaVars F + s.words + 2 * (F.length + s.ctx.search.conflicts) + 1 ≤
      sizeBound F s.ctx.search.conflicts := by unfold sizeBound; simp only [Solver.words] at *; omega
  have hE : sizeBound F s.ctx.search.conflicts ≤ sizeEvery F s.ctx.search.conflicts :=
    Nat.le_mul_of_pos_left _ (by omega)
  generalize hY : 2 * s.ctx.formula.binary + 2 * (p1.watches.byLit.map List.length).sum = Y at g4
  have hY1 : Y ≤ 4 * sizeBound F s.ctx.search.conflicts := by
    simp only [watchSum, Solver.words] at *
    omega
  have hY2 : (1 + Trail.repeats p1.trail.steps p1.trail.propagated) * Y ≤
      4 * sizeEvery F s.ctx.search.conflicts := by
    refine Nat.le_trans (Nat.mul_le_mul (Nat.add_le_add_left g5 1) hY1) ?_
    unfold sizeEvery
    rw [Nat.mul_left_comm]
  simp only [watchSum, Solver.words] at *
  omega

theorem searchStepT_every (h : Solver.Reachable env F s) {t : Cost} {ctx : Ctx} {search : Search}
    {r : Option Bool} (e : searchStepT env s.ctx s.search = .ok (t, ctx, search, r)) :
    t.1 ≤ (140 + 3 * Nat.log 2 (formulaVars F)) * sizeEvery F s.ctx.search.conflicts ∧
    t.2 + 3 * sizeEvery F s.ctx.search.conflicts * s.ctx.search.conflicts ≤
      3 * sizeEvery F s.ctx.search.conflicts * ctx.search.conflicts := by
  have e0 : searchStep env s.ctx s.search = .ok (ctx, search, r) := by rw [← searchStepT_erase, e]; rfl
  have hst := (searchStep_cases h e0).stats.2
  have hm : 3 * sizeEvery F s.ctx.search.conflicts * s.ctx.search.conflicts ≤
      3 * sizeEvery F s.ctx.search.conflicts * ctx.search.conflicts := Nat.mul_le_mul_left _ hst
  have hBn := h.size_every
  have hB : 1 ≤ sizeEvery F s.ctx.search.conflicts := by omega
  have hn : formulaVars F * Nat.log 2 (formulaVars F) ≤
      sizeEvery F s.ctx.search.conflicts * Nat.log 2 (formulaVars F) := Nat.mul_le_mul_right _ (by omega)
  have hexp : (140 + 3 * Nat.log 2 (formulaVars F)) * sizeEvery F s.ctx.search.conflicts =
      140 * sizeEvery F s.ctx.search.conflicts +
        3 * (sizeEvery F s.ctx.search.conflicts * Nat.log 2 (formulaVars F)) := by ring
  rw [hexp]
  unfold searchStepT at e
  by_cases hun : s.search.prop.unsat = true
  · rw [if_pos hun] at e
    cases e
    simp only
    omega
  rw [if_neg hun] at e
  have hun : s.search.prop.unsat = false := by simpa using hun
  obtain ⟨⟨t1, p1⟩, e1, e⟩ := bind_eq_ok.1 e
  simp only at e
  obtain ⟨⟨t2, ctx1, p, rc⟩, e2, e⟩ := bind_eq_ok.1 e
  have hp : Solver.Propagating env F s p1 ctx1 p rc := ⟨h, hun, by rw [← collectGarbageS_erase, e1]; rfl,
    by rw [← propagateT_erase, e2]; rfl⟩
  have hw := hp.work_every e1 e2
  cases rc with
  | some c =>
    simp only at e
    by_cases h0 : p.trail.decisionLevel = 0
    · rw [if_pos h0] at e
      cases e
      simp only at hm ⊢
      omega
    · rw [if_neg h0] at e
      obtain ⟨⟨t3, ctx3, an, p3, cb⟩, e3, e⟩ := bind_eq_ok.1 e
      cases e
      obtain ⟨L, S, S2, hi, q⟩ := hp.phase
      obtain ⟨conf, hconf, _⟩ := q.inv.conflict q.inv.storedInv (q.conflict c rfl)
      obtain ⟨t4, ctx4, e4, b1⟩ := C71_linear hp h0 hconf e0
      cases (show Analysis.analyzeConflictT env ctx1.conflict s.search.analysis p c s.search.cb = _ from e3).symm.trans e4
      have b2 := Analysis.analyzeConflictT_rescale q.inv (q.conflict c rfl) hconf e3
      obtain ⟨b3, b4⟩ := hp.graph_every hconf
      have b5 := hp.steps_every.1
      have e5 : Analysis.analyzeConflict env ctx1.conflict s.search.analysis p c s.search.cb = .ok (ctx3, an, p3, cb) := by
        rw [← Analysis.analyzeConflictT_erase, e4]; rfl
      obtain ⟨_, _, _, _, _, _, A⟩ := hp.analyze h0 e5
      have hc : ctx3.search.conflicts = s.ctx.search.conflicts + 1 := by
        rw [A.search]; simp [Ctx.conflict, hp.search]
      have b6 : (13 + Nat.log 2 (formulaVars F)) * (conf.length + graphSize p + p.trail.steps.length) ≤
          (13 + Nat.log 2 (formulaVars F)) * (3 * sizeEvery F s.ctx.search.conflicts) :=
        Nat.mul_le_mul_left _ (by omega)
      have b7 : (13 + Nat.log 2 (formulaVars F)) * (3 * sizeEvery F s.ctx.search.conflicts) =
          39 * sizeEvery F s.ctx.search.conflicts +
            3 * (sizeEvery F s.ctx.search.conflicts * Nat.log 2 (formulaVars F)) := by ring
      rw [hc, Nat.mul_add]
      simp only at b1 ⊢
      omega
  | none =>
    simp only at e
    obtain ⟨⟨⟨k, t3⟩, v, vsids⟩, e3, e⟩ := bind_eq_ok.1 e
    obtain ⟨b1, b2⟩ := popDecisionVarT_le e3 h.heap_le
    have b3 := h.heap_le
    have b4 : k * (Nat.log 2 (formulaVars F) + 1) ≤ formulaVars F * (Nat.log 2 (formulaVars F) + 1) :=
      Nat.mul_le_mul_right _ (by omega)
    rw [Nat.mul_add (formulaVars F)] at b4
    cases v with
    | none =>
      cases e
      simp only at hm ⊢
      omega
    | some x =>
      simp only at e
      obtain ⟨l, _, e⟩ := bind_eq_ok.1 e
      obtain ⟨p4, _, e⟩ := bind_eq_ok.1 e
      cases e
      simp only at hm ⊢
      omega

theorem scheduleStepT_every (h : Solver.Reachable env F s) {t : Cost} {r : Option Bool}
    (e : s.scheduleStepT env = .ok (t, s', r)) :
    t.1 ≤ (146 + 4 * Nat.log 2 (formulaVars F)) * sizeEvery F s.ctx.search.conflicts ∧
    t.2 + 3 * sizeEvery F s.ctx.search.conflicts * s.ctx.search.conflicts ≤
      3 * sizeEvery F s.ctx.search.conflicts * s'.ctx.search.conflicts ∧
    s.ctx.search.conflicts ≤ s'.ctx.search.conflicts ∧ s.ctx.search.decisions ≤ s'.ctx.search.decisions := by
  unfold Solver.scheduleStepT at e
  obtain ⟨⟨t1, s1⟩, e1, e⟩ := bind_eq_ok.1 e
  simp only at e
  obtain ⟨⟨t2, s2⟩, e2, e⟩ := bind_eq_ok.1 e
  simp only at e
  obtain ⟨⟨t3, ctx, search, r⟩, e3, e⟩ := bind_eq_ok.1 e
  cases e
  have f1 : s.maybeRestart = .ok s1 := by rw [← Solver.maybeRestartT_erase, e1]; rfl
  have f2 : s1.maybeReduce env = .ok s2 := by rw [← Solver.maybeReduceT_erase, e2]; rfl
  have f3 : searchStep env s2.ctx s2.search = .ok (ctx, search, r) := by rw [← searchStepT_erase, e3]; rfl
  have r1 := h.restart f1
  have r2 := r1.reduce f2
  obtain ⟨c1, d1⟩ : s1.ctx.search.conflicts = s.ctx.search.conflicts ∧
      s1.ctx.search.decisions = s.ctx.search.decisions := by
    rcases C55_restart h f1 with ⟨_, rfl⟩ | ⟨_, _, _, h4, h5, _⟩
    · exact ⟨rfl, rfl⟩
    · exact ⟨h4, h5⟩
  obtain ⟨c2, d2⟩ : s2.ctx.search.conflicts = s1.ctx.search.conflicts ∧
      s2.ctx.search.decisions = s1.ctx.search.decisions := by
    rcases C55_reduce r1 f2 with ⟨_, rfl⟩ | ⟨_, _, _, _, _, h4, h5, _⟩
    · exact ⟨rfl, rfl⟩
    · exact ⟨h4, h5⟩
  have c3 := (searchStep_cases r2 f3).stats.2
  have d3 := (searchStep_cases r2 f3).decisions
  have a1 := Solver.maybeRestartT_every h e1
  have a2 := Solver.maybeReduceT_every r1 e2
  obtain ⟨a3, a4⟩ := searchStepT_every r2 e3
  rw [c2, c1] at a3 a4 c3
  rw [d2, d1] at d3
  refine ⟨?_, a4, c3, d3⟩
  have hBn := r1.size_every
  rw [c1] at hBn
  have b1 : (formulaVars F + (unitLits F).length) * (1 + Nat.log 2 (formulaVars F)) ≤
      sizeEvery F s.ctx.search.conflicts * (1 + Nat.log 2 (formulaVars F)) := Nat.mul_le_mul_right _ (by omega)
  have b2 : (146 + 4 * Nat.log 2 (formulaVars F)) * sizeEvery F s.ctx.search.conflicts =
      (140 + 3 * Nat.log 2 (formulaVars F)) * sizeEvery F s.ctx.search.conflicts +
      sizeEvery F s.ctx.search.conflicts * (1 + Nat.log 2 (formulaVars F)) +
      5 * sizeEvery F s.ctx.search.conflicts := by ring
  rw [b2]
  simp only
  omega

/-! ## All iterations -/

theorem solveT_every : ∀ (k : Nat) {s s' : Solver} {t : Cost} {r : Option Bool},
    Solver.Reachable env F s → s.solveT env k = .ok (t, s', r) →
    s.ctx.search.conflicts ≤ s'.ctx.search.conflicts ∧
    ∃ j, t.1 ≤ j * ((146 + 4 * Nat.log 2 (formulaVars F)) * sizeEvery F s'.ctx.search.conflicts) ∧
      j + s.ctx.search.conflicts + s.ctx.search.decisions ≤
        s'.ctx.search.conflicts + s'.ctx.search.decisions + 1 ∧
      t.2 + 3 * sizeEvery F s'.ctx.search.conflicts * s.ctx.search.conflicts ≤
        3 * sizeEvery F s'.ctx.search.conflicts * s'.ctx.search.conflicts
  | 0, s, s', t, r, h, e => by
    cases e
    exact ⟨Nat.le_refl _, 0, by simp, by omega, by simp⟩
  | k + 1, s, s', t, r, h, e => by
    simp only [Solver.solveT] at e
    obtain ⟨⟨t1, s1, r1⟩, e1, e⟩ := bind_eq_ok.1 e
    obtain ⟨a1, a2, a3, a4⟩ := scheduleStepT_every h e1
    have e1' : s.scheduleStep env = .ok (s1, r1) := by rw [← Solver.scheduleStepT_erase, e1]; rfl
    have lift : ∀ {c : Nat}, s1.ctx.search.conflicts ≤ c →
        t1.1 ≤ (146 + 4 * Nat.log 2 (formulaVars F)) * sizeEvery F c ∧
        t1.2 + 3 * sizeEvery F c * s.ctx.search.conflicts ≤ 3 * sizeEvery F c * s1.ctx.search.conflicts := by
      intro c hc
      have hb : sizeEvery F s.ctx.search.conflicts ≤ sizeEvery F c := sizeEvery_mono (by omega)
      refine ⟨Nat.le_trans a1 (Nat.mul_le_mul_left _ hb), ?_⟩
      obtain ⟨d, hd⟩ := Nat.le.dest a3
      rw [← hd, Nat.mul_add] at a2 ⊢
      have := Nat.mul_le_mul_right d (Nat.mul_le_mul_left 3 hb)
      omega
    cases r1 with
    | some b =>
      cases e
      obtain ⟨l1, l2⟩ := lift (Nat.le_refl _)
      exact ⟨a3, 1, by simp only; omega, by simp only; omega, l2⟩
    | none =>
      simp only at e
      obtain ⟨⟨t2, s2, r2⟩, e2, e⟩ := bind_eq_ok.1 e
      cases e
      obtain ⟨h1, h2⟩ := scheduleStep_effort h e1'
      obtain ⟨b1, j, b2, b3, b4⟩ := solveT_every k h1 e2
      obtain ⟨l1, l2⟩ := lift b1
      refine ⟨by omega, j + 1, ?_, by omega, ?_⟩
      · rw [Nat.add_mul, Prod.fst_add]; simp only; omega
      · rw [Prod.snd_add]; simp only; omega

/-- C83 for all formulas: as `C83_total`, with the size of the clause database taken once more for each unit clause. -/
theorem C83_every (h : Solver.Input env F s) {k : Nat} {t : Cost} {r : Option Bool}
    (e : s.solveT env k = .ok (t, s', r)) :
    t.1 ≤ (s'.ctx.search.conflicts +
        formulaVars F * (s'.ctx.search.conflicts + s'.ctx.search.conflicts / 512 + 2) + 1) *
      ((146 + 4 * Nat.log 2 (formulaVars F)) * sizeEvery F s'.ctx.search.conflicts) ∧
    t.2 ≤ 3 * sizeEvery F s'.ctx.search.conflicts * s'.ctx.search.conflicts := by
  have hr : Solver.Reachable env F s := .input h
  obtain ⟨_, j, h1, h2, h3⟩ := solveT_every k hr e
  have e' : s.solve env k = .ok (s', r) := by rw [← Solver.solveT_erase, e]; rfl
  have h4 := (C64_bounds (hr.solve e')).2.1
  have h5 : s.ctx.search = ⟨0, 0, 0, 0⟩ := h.start.search
  rw [h5] at h2 h3
  simp only at h2 h3
  exact ⟨Nat.le_trans h1 (Nat.mul_le_mul_right _ (by omega)), by omega⟩

/-- C83 for all formulas with clauses of at most two literals. -/
theorem C83_two_every (hF : TwoCnf F) (h : Solver.Input env F s) {k : Nat} {r : Option Bool}
    (e : s.solve env k = .ok (s', r)) :
    ∃ t, s.solveT env k = .ok (t, s', r) ∧
      t.1 ≤ ((formulaVars F + 1) + formulaVars F * ((formulaVars F + 1) + (formulaVars F + 1) / 512 + 2) + 1) *
        ((146 + 4 * Nat.log 2 (formulaVars F)) * sizeEvery F (formulaVars F + 1)) ∧
      t.2 ≤ 3 * sizeEvery F (formulaVars F + 1) * (formulaVars F + 1) := by
  obtain ⟨t, et⟩ := C83_counts e
  obtain ⟨h1, h2⟩ := C83_every h et
  have hc := (C82_conflicts hF ((Solver.Reachable.input h).solve e)).1
  have hd := Nat.div_le_div_right (c := 512) hc
  have hb := sizeEvery_mono (F := F) hc
  refine ⟨t, et, h1.trans (Nat.mul_le_mul ?_ (Nat.mul_le_mul_left _ hb)),
    h2.trans (Nat.mul_le_mul (Nat.mul_le_mul_left _ hb) hc)⟩
  have := Nat.mul_le_mul_left (formulaVars F) (Nat.add_le_add_right (Nat.add_le_add hc hd) 2)
  omega

/-- C83 for all Horn formulas. -/
theorem C83_horn_every (hF : HornFormula F) (h : Solver.Input env F s) {k : Nat} {r : Option Bool}
    (e : s.solve env k = .ok (s', r)) :
    ∃ t, s.solveT env k = .ok (t, s', r) ∧
      t.1 ≤ (3 * formulaVars F + 2) * ((146 + 4 * Nat.log 2 (formulaVars F)) * sizeEvery F 1) ∧
      t.2 ≤ 3 * sizeEvery F 1 := by
  obtain ⟨t, et⟩ := C83_counts e
  obtain ⟨h1, h2⟩ := C83_every h et
  have hc := (C81_horn hF h e).1
  have hb := sizeEvery_mono (F := F) hc
  refine ⟨t, et, h1.trans (Nat.mul_le_mul ?_ (Nat.mul_le_mul_left _ hb)),
    h2.trans (by simpa using Nat.mul_le_mul (Nat.mul_le_mul_left 3 hb) hc)⟩
  have := Nat.mul_le_mul_left (formulaVars F)
    (show s'.ctx.search.conflicts + s'.ctx.search.conflicts / 512 + 2 ≤ 3 by omega)
  omega

end

/-- A bound for the steps of `solve()` in terms of the formula, whether or not unit clauses are repeated. -/
def solveEvery (F : List (List Lit)) : Nat :=
  iterationBound (formulaVars F) *
      ((146 + 4 * Nat.log 2 (formulaVars F)) * sizeEvery F (conflictBound (formulaVars F))) +
    formulaVars F * (3 * sizeEvery F (conflictBound (formulaVars F)) * conflictBound (formulaVars F))

section
variable {env : Env} {F : List (List Lit)} {s s' : Solver}

/-- C106, time, for all formulas. -/
theorem C106_time_every (h : Solver.Input env F s) {k : Nat} {t : Cost} {r : Option Bool}
    (e : s.solveT env k = .ok (t, s', r)) : t.1 + formulaVars F * t.2 ≤ solveEvery F := by
  have e' : s.solve env k = .ok (s', r) := by rw [← Solver.solveT_erase, e]; rfl
  have hc : s'.ctx.search.conflicts ≤ conflictBound (formulaVars F) := C87_conflicts h e'
  obtain ⟨h1, h2⟩ := C83_every h e
  have hs := sizeEvery_mono (F := F) hc
  refine Nat.add_le_add (Nat.le_trans h1 (Nat.mul_le_mul ?_ (Nat.mul_le_mul_left _ hs)))
    (Nat.mul_le_mul_left _ (Nat.le_trans h2 (Nat.mul_le_mul (Nat.mul_le_mul_left _ hs) hc)))
  have h3 : s'.ctx.search.conflicts / 512 ≤ conflictBound (formulaVars F) / 512 := Nat.div_le_div_right hc
  have h4 := Nat.mul_le_mul_left (formulaVars F)
    (show s'.ctx.search.conflicts + s'.ctx.search.conflicts / 512 + 2 ≤
      conflictBound (formulaVars F) + conflictBound (formulaVars F) / 512 + 2 by omega)
  unfold iterationBound
  omega

/-- C106 for all formulas that fit. -/
theorem C106_every (env : Env) (hF : Fits F) :
    ∃ t0 s t s' b, (Solver.default env).addClausesT F = .ok (t0, s) ∧
      s.solveT env (iterationBound (formulaVars F)) = .ok (t, s', some b) ∧
      (b = true ↔ ∃ α, FormulaSat α F) ∧
      t0 + t.1 + formulaVars F * t.2 ≤ loadBound F + solveEvery F := by
  have h0 : (Solver.default env).words = 0 := rfl
  have hw := hF.words
  obtain ⟨s, e, _⟩ := C58_addClauses (env := env) F .new hF.valid (by simpa using hF.units) (by omega) hF.length
  have hin : Solver.Input env F s := by simpa using Solver.Input.new.addClauses F hF.valid e
  obtain ⟨s', b, e', hb, _⟩ := C95_answer hF hin (Nat.le_refl _)
  rw [← C104_counted] at e
  rw [← Solver.solveT_erase] at e'
  obtain ⟨⟨t0, s0⟩, f, hs⟩ := Except.map_eq_ok e
  obtain ⟨⟨t, s1, r⟩, f', hs'⟩ := Except.map_eq_ok e'
  cases hs
  cases hs'
  refine ⟨t0, _, t, _, b, f, f', hb, ?_⟩
  have h1 := C104_new F f
  have h2 := C106_time_every hin f'
  unfold loadBound
  omega

end

/-- A case with repeated unit clauses, which `C83_total` and `C106_time` do not speak of: three copies of a unit clause in
an unsatisfiable formula with a conflict above the top level. -/
theorem C83_every_example : ∃ s s' t, Solver.Input Example.env (Example.cnf
      [[4], [4], [4], [-4, 1, 2], [1, -2, 3], [1, -2, -3], [-1, 2, -4], [-1, -2]]) s ∧
    ¬ (unitLits (Example.cnf [[4], [4], [4], [-4, 1, 2], [1, -2, 3], [1, -2, -3], [-1, 2, -4], [-1, -2]])).Nodup ∧
    s.solveT Example.env 100 = .ok (t, s', some false) ∧ t = (80, 0) ∧ s'.ctx.search.conflicts = 2 := by
  have h : (do
      let s ← (Solver.default Example.env).addClauses (Example.cnf
        [[4], [4], [4], [-4, 1, 2], [1, -2, 3], [1, -2, -3], [-1, 2, -4], [-1, -2]])
      let (t, s', r) ← s.solveT Example.env 100
      pure (t, s'.ctx.search.conflicts, r) : M (Cost × Nat × Option Bool)) = .ok ((80, 0), 2, some false) := by
    decide +kernel
  obtain ⟨s, h1, h2⟩ := bind_eq_ok.1 h
  obtain ⟨⟨t, s', r⟩, h3, h2⟩ := bind_eq_ok.1 h2
  have h2 := Except.ok.inj h2
  simp only [Prod.mk.injEq] at h2
  obtain ⟨a1, a2, rfl⟩ := h2
  have hin := Solver.Input.addClauses _ (.new (env := Example.env))
    (Example.ok_valid (F := [[4], [4], [4], [-4, 1, 2], [1, -2, 3], [1, -2, -3], [-1, 2, -4], [-1, -2]])
      (by decide +kernel)) h1
  exact ⟨s, s', t, by simpa using hin, by decide +kernel, h3, a1, a2⟩

end Starlit
