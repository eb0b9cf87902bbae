import Verif.Solver.Score32
import Verif.Solver.ExampleRun
import Verif.Props.Analysis

/-!
# C41, C47, C48: activities

C41 is about the `f32` arithmetic on activities, C47 about which variables are bumped, C48 about the
scores that the activities stand for.
-/

namespace Starlit

/-! ## C41 -/

section
variable {order : List (Nat × Nat) → List (Nat × Nat)} {perm : ∀ l, (order l).Perm l}
  {F : List (List Lit)} {s : Solver}

/-- C41, comparison: comparing bit patterns of non-negative floats is comparing the numbers. -/
theorem C41_order (a b : Nat) : (a ≤ b ↔ F32.value a ≤ F32.value b) ∧
    (a < b ↔ F32.value a < F32.value b) :=
  ⟨F32.value_le.symm, F32.value_lt.symm⟩

/-- C41, operations: the three operations round the exact result to nearest even. -/
theorem C41_rounding {a i : Nat} (ha : a < F32.inf) (hi : i < F32.inf) :
    F32.Nearest (F32.value a + F32.value i) ((f32Env order perm).add a i) ∧
    F32.Nearest (F32.value a * F32.value RESCALE_FACTOR) ((f32Env order perm).rescale a) ∧
    F32.Nearest (F32.value i * F32.value INVERSE_DECAY) ((f32Env order perm).decay i) ∧
    ((f32Env order perm).aboveLimit a = true ↔ F32.value RESCALE_LIMIT < F32.value a) := by
  refine ⟨F32.add_nearest ha hi, F32.mul_nearest ha, F32.mul_nearest hi, ?_⟩
  rw [F32.value_lt]
  exact decide_eq_true_iff

/-- C41, constants: the limit is a 16th of the largest float, and the factors differ from `1 / limit` and
`1 / 0.95` by less than two units in `10 ^ 7`. -/
theorem C41_constants : F32.value RESCALE_LIMIT = F32.value (F32.inf - 1) / 16 ∧
    |F32.value RESCALE_FACTOR * F32.value RESCALE_LIMIT - 1| < 2 / 10 ^ 7 ∧
    |F32.value INVERSE_DECAY * (95 / 100) - 1| < 2 / 10 ^ 7 ∧ F32.value (f32Env order perm).one = 1 := by
  refine ⟨?_, ?_, ?_, one_value⟩
  · rw [limit_value, FpFormat.value_eq, F32_scale,
      show Fp.units F32.p (F32.inf - 1) = (2 ^ 24 - 1) * 2 ^ 128 * 2 ^ 125 by decide +kernel]
    norm_num
  · rw [limit_value, factor_value, abs_lt]
    norm_num
  · rw [decay_value, abs_lt]
    norm_num

/-- The scores of a run are bounded as the invariant says. -/
theorem Act.Run.between {n : Nat} {a : Act} (h : Act.Run (f32Env order perm) n a) :
    ∃ σ, Score32.Between n a σ := by
  induction h with
  | start => exact ⟨_, Score32.Between.start order perm⟩
  | conflict _ xs hn hx ih =>
    obtain ⟨σ, ih⟩ := ih
    exact ⟨_, ih.conflict hn (fun x hx' => by rw [← ih.len]; exact hx x hx')⟩

/-- C41, runs: in all states of all runs the activities and the increment are finite and at most the limit,
and the increment does not come close to 0. -/
theorem C41_range (h : Solver.Reachable (f32Env order perm) F s) :
    (∀ x < formulaVars F, ∃ v, s.search.cb.vsids.activity.values[x]? = some v ∧
      F32.value v ≤ F32.value RESCALE_LIMIT) ∧
    1 / 32 ≤ F32.value s.search.cb.vsids.increment ∧
    F32.value s.search.cb.vsids.increment ≤ F32.value RESCALE_LIMIT := by
  obtain ⟨σ, hb⟩ := h.act.between
  refine ⟨?_, hb.inc.1, F32.value_le.2 hb.inc.2⟩
  intro x hx
  have hx' : x < s.act.vals.length := by rw [hb.len]; exact hx
  have hv := List.getElem?_eq_getElem hx'
  exact ⟨_, hv, F32.value_le.2 (hb.le x _ hv)⟩

/-- C41, bumping: during a conflict each bump makes the activity of the bumped variable larger, and the sum
is below infinity. -/
theorem C41_strict (h : Solver.Reachable (f32Env order perm) F s) {ys zs : List Nat} {x : Nat}
    (hn : (ys ++ x :: zs).Nodup) (hx : ∀ y ∈ ys ++ x :: zs, y < formulaVars F) {v : Nat}
    (hv : (ys.foldl (Act.bumped (f32Env order perm)) s.act).vals[x]? = some v) :
    F32.value v < F32.value (F32.add v (ys.foldl (Act.bumped (f32Env order perm)) s.act).inc) ∧
    F32.add v (ys.foldl (Act.bumped (f32Env order perm)) s.act).inc < F32.inf := by
  obtain ⟨σ, hb⟩ := h.act.between
  obtain ⟨done, ph, m⟩ := hb.mid.bumps (order := order) (perm := perm) ys
    (List.nodup_append.1 hn).1 (fun y hy => ⟨hx y (by simp [hy]), by simp⟩)
  refine ⟨F32.value_lt.2 (m.lt_add hv), ?_⟩
  have h1 := (Score32.le_limit).1 (m.le x v hv)
  have h2 := (Score32.le_limit).1 m.inc.2
  have hl : RESCALE_LIMIT < F32.inf := by rw [RESCALE_LIMIT_eq, F32_inf]; norm_num
  refine F32_finite (F32.add_nearest ((m.le x v hv).trans_lt hl) (m.inc.2.trans_lt hl)) ?_
  norm_num at h1 h2 ⊢
  linarith

/-- C41, decisions (C13 with the `f32` operations): the decision variable has the largest activity of all
unassigned variables. -/
theorem C41_decision {p : PropState} {cb : Callbacks}
    (h : Solver.Visited (f32Env order perm) F p cb) {x : Nat} {v : Vsids}
    (e : cb.vsids.popDecisionVar p.values = .ok (some x, v)) {a b : Nat}
    (ha : cb.vsids.activity.values[x]? = some a) {l : Lit} (hl : l.index < formulaVars F)
    (hv : p.values.value l = .ok none) (hb : cb.vsids.activity.values[l.index]? = some b) :
    F32.value b ≤ F32.value a :=
  F32.value_le.2 (C13_max h (f32Env_mono order perm) e ha hl hv hb)

end

/-! ## C47 -/

section
variable {env : Env} {F : List (List Lit)} {s : Solver} {p1 p : PropState} {ctx1 ctx : Ctx}
  {c : ConflictClause} {search : Search} {r : Option Bool}

/-- The step with a conflict above the top level learns a clause. -/
theorem searchStep_conflict (h : Solver.Propagating env F s p1 ctx1 p (some c))
    (h0 : p.trail.decisionLevel ≠ 0) (e : searchStep env s.ctx s.search = .ok (ctx, search, r)) :
    ∃ ctx' an p' cb, Analysis.analyzeConflict env ctx1.conflict s.search.analysis p c s.search.cb =
      .ok (ctx', an, p', cb) ∧ search = ⟨p', an, cb⟩ := by
  cases searchStep_cases h.reach e with
  | already hu => rw [h.unsat] at hu; cases hu
  | fail hp hz =>
    have h1 := hp.gc.symm.trans h.gc
    cases h1
    have h2 := hp.prop.symm.trans h.prop
    cases h2
    exact absurd hz h0
  | learn hp _ e =>
    have h1 := hp.gc.symm.trans h.gc
    cases h1
    have h2 := hp.prop.symm.trans h.prop
    cases h2
    exact ⟨_, _, _, _, e, rfl⟩
  | decide hp =>
    have h1 := hp.gc.symm.trans h.gc
    cases h1
    have h2 := hp.prop.symm.trans h.prop
    cases h2
  | sat hp =>
    have h1 := hp.gc.symm.trans h.gc
    cases h1
    have h2 := hp.prop.symm.trans h.prop
    cases h2

/-- C47, conflicts: a conflict bumps exactly the variables involved in deriving the clause — those of the
falsified clause and of the reasons resolved with, except for the ones assigned at the top level — once
each, and then enlarges the increment.  The variables of the learned clause are among them. -/
theorem C47_conflict (h : Solver.Propagating env F s p1 ctx1 p (some c))
    (h0 : p.trail.decisionLevel ≠ 0) (e : searchStep env s.ctx s.search = .ok (ctx, search, r)) :
    ∃ conf xs, c.lits p = .ok conf ∧ xs.Nodup ∧ (∀ x ∈ xs, x < formulaVars F) ∧
      search.cb.vsids.act = s.act.conflict env xs ∧
      (∀ l ∈ search.analysis.derivedClause, l.index ∈ xs) ∧
      ∃ u st, p.trail.steps[u]? = some st ∧
        search.analysis.derivedClause.head? = some st.lit.neg ∧ Involved p conf (u + 1) xs := by
  obtain ⟨ctx', an, p', cb, ea, rfl⟩ := searchStep_conflict h h0 e
  obtain ⟨L, S, S2, hi, q⟩ := h.phase
  obtain ⟨conf, xs, h1, h2, h3, h4, h5, u, st, h6, h7, h8, _⟩ := analyzeConflict_act q.inv q.inv.storedInv
    hi.an hi.min hi.cb (q.conflict _ rfl) h0 ea
  exact ⟨conf, xs, h1, h2, fun x hx => (h3 x hx).trans_eq hi.cb.len, h4, h5, u, st, h6, h7, h8⟩

/-- C47, conflicts: `Involved` determines the set. -/
theorem C47_unique (h : Solver.Propagating env F s p1 ctx1 p (some c))
    {conf : List Lit} {k : Nat} {xs ys : List Nat}
    (hx : Involved p conf k xs) (hy : Involved p conf k ys) {x : Nat} : x ∈ xs ↔ x ∈ ys := by
  obtain ⟨L, S, S2, hi, q⟩ := h.phase
  have hp : PInv _ S2 p := q.inv
  suffices key : ∀ {xs ys : List Nat}, Involved p conf k xs → Involved p conf k ys →
      ∀ (d i : Nat) (st : Step), d + i = p.trail.steps.length → p.trail.steps[i]? = some st →
        st.lit.index ∈ xs → st.lit.index ∈ ys by
    have fin : ∀ {xs ys : List Nat}, Involved p conf k xs → Involved p conf k ys → x ∈ xs → x ∈ ys := by
      intro xs ys hx hy hm
      obtain ⟨st, hst, rfl, _⟩ := hx.lifted x hm
      obtain ⟨i, hi⟩ := List.mem_iff_getElem?.1 hst
      have := (List.getElem?_eq_some_iff.1 hi).1
      exact key hx hy (p.trail.steps.length - i) i st (by omega) hi hm
    exact ⟨fin hx hy, fin hy hx⟩
  intro xs ys hx hy d
  induction d using Nat.strong_induction_on with
  | _ d ih =>
    intro i st hd hst hm
    rcases hx.src _ hm with ⟨l, hl, e⟩ | ⟨j, sj, hkj, hj, hjx, hin⟩
    · rw [← e]
      exact hy.start l hl (e ▸ hx.lifted _ hm)
    · have hjlen := (List.getElem?_eq_some_iff.1 hj).1
      have hij : i < j := by
        obtain ⟨s', rs, a1, a2, o, ho, a3⟩ := hin
        rw [hj] at a1
        cases a1
        obtain ⟨rs', b1, b2, _⟩ := hp.reason hj
        rw [a2] at b1
        cases b1
        obtain ⟨m, sm, c1, c2, c3⟩ := b2 o ho
        have := hp.trail.lifted_unique (hx.lifted _ hm) hst rfl c2 (by rw [c3, Lit.index_neg, a3])
        omega
      have := ih (p.trail.steps.length - j) (by omega) j sj (by omega) hj hjx
      exact hy.closed j sj _ hkj hj this hin (hx.lifted _ hm)

/-- C47, everything else: restarts, reductions and steps without a conflict above the top level do not change
activities or the increment. -/
theorem C47_other (h : Solver.Reachable env F s) :
    (∀ s', s.maybeRestart = .ok s' → s'.act = s.act) ∧
    (∀ s', s.maybeReduce env = .ok s' → s'.act = s.act) ∧
    ∀ ctx search r, searchStep env s.ctx s.search = .ok (ctx, search, r) →
      (∀ p1 ctx1 p c, Solver.Propagating env F s p1 ctx1 p (some c) → p.trail.decisionLevel = 0) →
      search.cb.vsids.act = s.act := by
  refine ⟨fun s' e => maybeRestart_act e, fun s' e => maybeReduce_act e, ?_⟩
  intro ctx search r e hn
  cases searchStep_cases h e with
  | already => rfl
  | fail => rfl
  | learn hp h0 e => exact absurd (hn _ _ _ _ hp) h0
  | decide hp e1 => exact popDecisionVar_act e1
  | sat hp e1 => exact popDecisionVar_act e1

/-- C47, start: before solving, all activities are 0 and the increment is 1. -/
theorem C47_start (h : Solver.Input env F s) :
    s.act = ⟨List.replicate (formulaVars F) 0, env.one⟩ := h.act

end

/-! ## C48 -/

/-- A run with the sets of variables involved in its conflicts, the last conflict first. -/
inductive Solver.Conflicts (env : Env) (F : List (List Lit)) : Solver → List (List Nat) → Prop
  | input {s : Solver} : Solver.Input env F s → Conflicts env F s []
  | restart {s s' : Solver} {xss : List (List Nat)} : Conflicts env F s xss →
      s.maybeRestart = .ok s' → Conflicts env F s' xss
  | reduce {s s' : Solver} {xss : List (List Nat)} : Conflicts env F s xss →
      s.maybeReduce env = .ok s' → Conflicts env F s' xss
  | learn {s : Solver} {xss : List (List Nat)} {p1 p : PropState} {ctx1 ctx : Ctx}
      {c : ConflictClause} {search : Search} {r : Option Bool} {conf : List Lit} {u : Nat} {st : Step}
      {xs : List Nat} : Conflicts env F s xss →
      Solver.Propagating env F s p1 ctx1 p (some c) → p.trail.decisionLevel ≠ 0 →
      searchStep env s.ctx s.search = .ok (ctx, search, r) → c.lits p = .ok conf →
      p.trail.steps[u]? = some st → search.analysis.derivedClause.head? = some st.lit.neg →
      Involved p conf (u + 1) xs →
      Conflicts env F { s with ctx := ctx, search := search } (xs :: xss)
  | step {s : Solver} {xss : List (List Nat)} {ctx : Ctx} {search : Search} {r : Option Bool} :
      Conflicts env F s xss →
      (∀ p1 ctx1 p c, Solver.Propagating env F s p1 ctx1 p (some c) → p.trail.decisionLevel = 0) →
      searchStep env s.ctx s.search = .ok (ctx, search, r) →
      Conflicts env F { s with ctx := ctx, search := search } xss

/-- The score of a variable as documented: 1 is added for each conflict it is involved in, and after each
conflict all scores are multiplied by 0.95. -/
noncomputable def vsidsScore (xss : List (List Nat)) (x : Nat) : ℝ :=
  ∑ j ∈ Finset.range xss.length, if x ∈ xss.getD j [] then (95 / 100 : ℝ) ^ (j + 1) else 0

theorem vsidsScore_cons (xs : List Nat) (xss : List (List Nat)) (x : Nat) :
    vsidsScore (xs :: xss) x = 19 / 20 * Score32.bumpScores (vsidsScore xss) xs x := by
  unfold vsidsScore Score32.bumpScores
  rw [List.length_cons, Finset.sum_range_succ', mul_add, Finset.mul_sum]
  congr 1
  · refine Finset.sum_congr rfl fun j _ => ?_
    simp only [List.getD_cons_succ]
    split
    · rw [pow_succ _ (j + 1)]; norm_num; ring
    · simp
  · simp only [List.getD_cons_zero]
    split <;> norm_num

section
variable {env : Env} {F : List (List Lit)} {s : Solver} {xss : List (List Nat)}

theorem Solver.Conflicts.reachable (h : Solver.Conflicts env F s xss) : Solver.Reachable env F s := by
  induction h with
  | input h => exact .input h
  | restart _ e ih => exact ih.restart e
  | reduce _ e ih => exact ih.reduce e
  | learn _ _ _ e _ _ _ _ ih => exact ih.step e
  | step _ _ e ih => exact ih.step e

/-- Each reachable state has a list of conflicts. -/
theorem C48_conflicts (h : Solver.Reachable env F s) : ∃ xss, Solver.Conflicts env F s xss := by
  induction h with
  | input h => exact ⟨_, .input h⟩
  | restart _ e ih => obtain ⟨_, ih⟩ := ih; exact ⟨_, ih.restart e⟩
  | reduce _ e ih => obtain ⟨_, ih⟩ := ih; exact ⟨_, ih.reduce e⟩
  | @step s ctx search r _ e ih =>
    obtain ⟨xss, ih⟩ := ih
    by_cases hc : ∃ p1 ctx1 p c, Solver.Propagating env F s p1 ctx1 p (some c) ∧
        p.trail.decisionLevel ≠ 0
    · obtain ⟨p1, ctx1, p, c, h1, h2⟩ := hc
      obtain ⟨conf, xs, a1, _, _, _, _, u, st, a2, a3, a4⟩ := C47_conflict h1 h2 e
      exact ⟨_, ih.learn h1 h2 e a1 a2 a3 a4⟩
    · refine ⟨_, ih.step ?_ e⟩
      intro p1 ctx1 p c hp
      by_contra h0
      exact hc ⟨p1, ctx1, p, c, hp, h0⟩

end

section
variable {order : List (Nat × Nat) → List (Nat × Nat)} {perm : ∀ l, (order l).Perm l}
  {F : List (List Lit)} {s : Solver} {xss : List (List Nat)}

theorem Solver.Conflicts.between (h : Solver.Conflicts (f32Env order perm) F s xss) :
    Score32.Between (formulaVars F) s.act (vsidsScore xss) := by
  induction h with
  | @input s h =>
    rw [h.act]
    have : vsidsScore [] = fun _ => 0 := by funext x; simp [vsidsScore]
    rw [this]
    exact Score32.Between.start order perm
  | restart _ e ih => rw [maybeRestart_act e]; exact ih
  | reduce _ e ih => rw [maybeReduce_act e]; exact ih
  | @learn s xss p1 p ctx1 ctx c search r conf u st xs _ hp h0 e hc hu hd hi ih =>
    obtain ⟨conf', ys, b1, b2, b3, b4, _, u', st', b5, b6, b7⟩ := C47_conflict hp h0 e
    rw [hc] at b1
    obtain rfl := Except.ok.inj b1
    have hlit : st'.lit = st.lit := by
      rw [hd] at b6
      have := congrArg Lit.neg (Option.some.inj b6)
      simpa using this.symm
    have huu : u' = u := by
      obtain ⟨L, S, S2, hinv, q⟩ := hp.phase
      have hx : st'.lit.index ∈ ys := by
        have : st'.lit.neg ∈ search.analysis.derivedClause := List.mem_of_head? b6
        simpa using ‹∀ l ∈ search.analysis.derivedClause, l.index ∈ ys› _ this
      exact q.inv.trail.lifted_unique (b7.lifted _ hx) b5 rfl hu (by rw [hlit])
    subst huu
    have hset : ∀ x, x ∈ ys ↔ x ∈ xs := fun x => C47_unique hp b7 hi
    have hb := ih.conflict (order := order) (perm := perm) b2 b3
    have hs : vsidsScore (xs :: xss) = fun x => 19 / 20 * Score32.bumpScores (vsidsScore xss) ys x := by
      funext x
      rw [vsidsScore_cons]
      simp only [Score32.bumpScores, hset x]
    show Score32.Between _ search.cb.vsids.act _
    rw [b4, hs]
    exact hb
  | @step s xss ctx search r hc hn e ih =>
    show Score32.Between _ search.cb.vsids.act _
    rw [(C47_other hc.reachable).2.2 ctx search r e hn]
    exact ih

/-- C48: in all runs, however long, the activity of a variable divided by the increment differs from its
documented score by at most 0.001. -/
theorem C48_score (h : Solver.Conflicts (f32Env order perm) F s xss) {x v : Nat}
    (hv : s.search.cb.vsids.activity.values[x]? = some v) :
    |F32.value v / F32.value s.search.cb.vsids.increment - vsidsScore xss x| ≤ 1 / 1000 := by
  have hb := h.between
  have h1 : |F32.value v - vsidsScore xss x * F32.value s.search.cb.vsids.increment| ≤
    1 / 1000 * F32.value s.search.cb.vsids.increment := hb.near x v hv
  have h2 : 0 < F32.value s.search.cb.vsids.increment := lt_of_lt_of_le (by norm_num) hb.inc.1
  have h3 : F32.value v / F32.value s.search.cb.vsids.increment - vsidsScore xss x =
      (F32.value v - vsidsScore xss x * F32.value s.search.cb.vsids.increment) /
        F32.value s.search.cb.vsids.increment := by field_simp
  rw [h3, abs_div, abs_of_pos h2, div_le_iff₀ h2]
  exact h1

/-- C48, decisions: no unassigned variable has a score more than 0.002 above the score of the decision
variable. -/
theorem C48_decision (h : Solver.Conflicts (f32Env order perm) F s xss) {p1 p : PropState} {ctx : Ctx}
    {r : Option ConflictClause} (hp : Solver.Propagating (f32Env order perm) F s p1 ctx p r) {x : Nat}
    {v : Vsids} (e : s.search.cb.vsids.popDecisionVar p.values = .ok (some x, v)) {l : Lit}
    (hl : l.index < formulaVars F) (hv : p.values.value l = .ok none) :
    vsidsScore xss l.index ≤ vsidsScore xss x + 2 / 1000 := by
  have hb := h.between
  obtain ⟨_, r', v', e', _, hx⟩ := C13_decision (Solver.Visited.propagated hp)
  rw [e] at e'
  simp only [Except.ok.injEq, Prod.mk.injEq] at e'
  obtain ⟨rfl, rfl⟩ := e'
  have hxn : x < s.act.vals.length := by rw [hb.len]; exact (hx x rfl).1
  have hln : l.index < s.act.vals.length := by rw [hb.len]; exact hl
  have ha := List.getElem?_eq_getElem hxn
  have hb' := List.getElem?_eq_getElem hln
  have hm := C41_decision (Solver.Visited.propagated hp) e ha hl hv hb'
  have h1 := abs_le.1 (C48_score h ha)
  have h2 := abs_le.1 (C48_score h hb')
  have h3 : 0 < F32.value s.search.cb.vsids.increment := lt_of_lt_of_le (by norm_num) hb.inc.1
  have h4 := (div_le_div_iff_of_pos_right h3).2 hm
  linarith [h1.2, h2.1]

end

/-! ## An example -/

namespace Example

/-- The `f32` arithmetic, with the literal order of reductions. -/
def env32 : Env := f32Env id (fun _ => List.Perm.refl _)

/-- The state after `k` iterations of `solve()`. -/
def after32 (F : List (List Int)) (k : Nat) : M Solver := do
  let (s, _) ← (← (Solver.default env32).addClauses (cnf F)).solve env32 k
  pure s

/-- The state of the propagation in iteration `k + 1`. -/
def mid32 (F : List (List Int)) (k : Nat) :
    M (Solver × PropState × Ctx × PropState × Option ConflictClause) := do
  let s ← after32 F k
  if s.search.prop.unsat then throw .panic
  else
    let p1 ← collectGarbage s.search.prop
    let (ctx, p, r) ← propagate s.ctx p1
    pure (s, p1, ctx, p, r)

theorem after32_reachable {F : List (List Int)} {k : Nat} {s : Solver} (hF : ok F = true)
    (h : after32 F k = .ok s) : Solver.Reachable env32 (cnf F) s := by
  unfold after32 at h
  obtain ⟨s0, e0, h⟩ := bind_eq_ok.1 h
  obtain ⟨⟨s1, r⟩, e1, h⟩ := bind_eq_ok.1 h
  cases h
  have := Solver.Input.addClauses _ (.new (env := env32)) (ok_valid hF) e0
  exact (Solver.Reachable.input (by simpa using this)).solve e1

theorem mid32_propagating {F : List (List Int)} {k : Nat} {s : Solver} {p1 : PropState} {ctx : Ctx}
    {p : PropState} {r : Option ConflictClause} (hF : ok F = true)
    (h : mid32 F k = .ok (s, p1, ctx, p, r)) : Solver.Propagating env32 (cnf F) s p1 ctx p r := by
  unfold mid32 at h
  obtain ⟨s0, e0, h⟩ := bind_eq_ok.1 h
  by_cases hu : s0.search.prop.unsat = true
  · rw [if_pos hu] at h; simp [throw_eq] at h
  · rw [if_neg hu] at h
    obtain ⟨p1', e1, h⟩ := bind_eq_ok.1 h
    obtain ⟨⟨ctx', p', r'⟩, e2, h⟩ := bind_eq_ok.1 h
    cases h
    exact ⟨after32_reachable hF e0, by simpa using hu, e1, e2⟩

end Example

/-- For C47: a conflict at level 4 in which 7 of the 12 variables are bumped. -/
theorem C47_example : ∃ s p1 ctx1 p c ctx search r,
    Solver.Propagating Example.env32 (Example.cnf (Example.php 4 3)) s p1 ctx1 p (some c) ∧
    p.trail.decisionLevel = 4 ∧
    searchStep Example.env32 s.ctx s.search = .ok (ctx, search, r) ∧
    s.act = ⟨List.replicate 12 0, 1065353216⟩ ∧
    search.cb.vsids.act = ⟨[1065353216, 1065353216, 1065353216, 1065353216, 1065353216, 1065353216, 0,
      1065353216, 0, 0, 0, 0], 1065794722⟩ := by
  have h : (do
      let (s, _, _, p, r) ← Example.mid32 (Example.php 4 3) 4
      let (_, search, _) ← searchStep Example.env32 s.ctx s.search
      pure (p.trail.decisionLevel, r.isSome, s.act.vals, s.act.inc, search.cb.vsids.act.vals,
        search.cb.vsids.act.inc) : M (Nat × Bool × List Nat × Nat × List Nat × Nat)) =
      .ok (4, true, List.replicate 12 0, 1065353216, [1065353216, 1065353216, 1065353216, 1065353216,
        1065353216, 1065353216, 0, 1065353216, 0, 0, 0, 0], 1065794722) := by
    decide +kernel
  obtain ⟨⟨s, p1, ctx, p, r⟩, h1, h2⟩ := bind_eq_ok.1 h
  obtain ⟨⟨ctx', search, r'⟩, h3, h2⟩ := bind_eq_ok.1 h2
  have h2 := Except.ok.inj h2
  simp only [Prod.mk.injEq] at h2
  obtain ⟨h4, h5, h6, h7, h8, h9⟩ := h2
  obtain ⟨c, rfl⟩ := Option.isSome_iff_exists.1 h5
  refine ⟨s, p1, ctx, p, c, ctx', search, r', Example.mid32_propagating (by decide +kernel) h1, h4, h3,
    Act.ext h6 h7, Act.ext h8 h9⟩

/-- For C41 and C48: a decision after two conflicts, with the activities of `C47_example` after another
conflict; all variables but two are unassigned. -/
theorem C48_example : ∃ s xss p1 ctx1 p x v,
    Solver.Conflicts Example.env32 (Example.cnf (Example.php 4 3)) s xss ∧
    Solver.Propagating Example.env32 (Example.cnf (Example.php 4 3)) s p1 ctx1 p none ∧
    s.search.cb.vsids.activity.values = [1073962577, 1073962577, 1073962577, 1073962577, 1073962577,
      1073962577, 1065794722, 1073962577, 1065794722, 1065794722, 0, 0] ∧
    s.search.cb.vsids.increment = 1066259465 ∧
    s.search.cb.vsids.popDecisionVar p.values = .ok (some x, v) ∧ x = 1 ∧
    p.values.value (Example.lit 12) = .ok none := by
  have h : (do
      let (s, _, _, p, r) ← Example.mid32 (Example.php 4 3) 6
      let (x, _) ← s.search.cb.vsids.popDecisionVar p.values
      let b ← p.values.value (Example.lit 12)
      pure (r.isNone, s.act.vals, s.act.inc, x, b) : M (Bool × List Nat × Nat × Option Nat × Option Bool))
      = .ok (true, [1073962577, 1073962577, 1073962577, 1073962577, 1073962577,
      1073962577, 1065794722, 1073962577, 1065794722, 1065794722, 0, 0], 1066259465, some 1, none) := by
    decide +kernel
  obtain ⟨⟨s, p1, ctx, p, r⟩, h1, h2⟩ := bind_eq_ok.1 h
  obtain ⟨⟨x, v⟩, h3, h2⟩ := bind_eq_ok.1 h2
  obtain ⟨b, h4, h2⟩ := bind_eq_ok.1 h2
  have h2 := Except.ok.inj h2
  simp only [Prod.mk.injEq] at h2
  obtain ⟨h5, h6, h7, rfl, rfl⟩ := h2
  obtain rfl := Option.isNone_iff_eq_none.1 h5
  have hp := Example.mid32_propagating (by decide +kernel) h1
  obtain ⟨xss, hx⟩ := C48_conflicts hp.reach
  exact ⟨s, xss, p1, ctx, p, 1, v, hx, hp, h6, h7, h3, rfl, h4⟩

end Starlit
