import Verif.Props.Solver
import Verif.Props.Overflow

/-!
# C68: a known model is found again without conflicts
-/

namespace Starlit

/-- The state follows the assignment: all literals on the trail are true in it, and it is the saved phase of each
variable that is not on the trail. -/
structure Follows (F : List (List Lit)) (α : Nat → Bool) (s : Solver) : Prop where
  trail : ∀ st ∈ s.search.prop.trail.steps, LitSat α st.lit
  phase : ∀ x, x < formulaVars F → (∀ st ∈ s.search.prop.trail.steps, st.lit.index ≠ x) →
    s.search.cb.phases[x]? = some (α x)

section
variable {n : Nat} {S : List LC} {p : PropState} {F L : DB} {α : Nat → Bool}

theorem LitSat.not_neg {l : Lit} (h : LitSat α l) : ¬ LitSat α l.neg := by
  unfold LitSat at *
  rw [Lit.index_neg, Lit.isPositive_neg, h]
  cases l.isPositive <;> simp

/-- If the clauses and the decisions are true, everything on the trail is. -/
theorem PInv.trail_sat (h : PInv n S p) (d : DBInv F L S p.binary p.trail.steps p.unsat) (hs : DBSat α (F + L))
    (hd : ∀ st ∈ p.trail.steps, st.reason = .decision → LitSat α st.lit) :
    ∀ st ∈ p.trail.steps, LitSat α st.lit := by
  have key : ∀ (i : Nat) (st : Step), p.trail.steps[i]? = some st → LitSat α st.lit := by
    intro i
    induction i using Nat.strongRecOn with
    | ind i ih =>
      intro st hi
      by_cases hr : st.reason = .decision
      · exact hd st (List.mem_iff_getElem?.2 ⟨i, hi⟩) hr
      · obtain ⟨rs, e, hb, _⟩ := h.reason hi
        obtain ⟨l, hl, hsat⟩ := hs _ (h.reason_db d hi hr e)
        rcases Multiset.mem_cons.1 hl with rfl | hl
        · exact hsat
        · obtain ⟨j, t, h1, h2, h3⟩ := hb l (by simpa using hl)
          exact absurd (h3 ▸ ih j h1 t h2) hsat.not_neg
  intro st hst
  obtain ⟨i, hi⟩ := List.mem_iff_getElem?.1 hst
  exact key i st hi

end

section
variable {env : Env} {F : List (List Lit)} {s s' : Solver} {α : Nat → Bool}

theorem SInv.sat {n : Nat} {L : DB} {S : List LC} {ctx : Ctx} {search : Search}
    (h : SInv env n (toDB F) L S ctx search) (hα : FormulaSat α F) : DBSat α (toDB F + L) := by
  obtain ⟨log, h1, _, _⟩ := h.proof
  intro c hc
  rcases Multiset.mem_add.1 hc with hc | hc
  · exact dbSat_toDB.2 hα c hc
  · exact h1.sat (dbSat_toDB.2 hα) c hc

theorem maybeRestart_next (h : Solver.Reachable env F s) (e : s.maybeRestart = .ok s') :
    s'.ctx.search.conflicts = s.ctx.search.conflicts ∧ s'.ctx.search.conflicts < s'.schedule.nextRestart ∧
      (s.ctx.search.conflicts < s.schedule.nextRestart → s' = s) := by
  obtain ⟨L, S, hi⟩ := h.inv
  obtain ⟨s2, e2, _, hc⟩ := maybeRestart_spec hi
  cases e.symm.trans e2
  rcases hc with ⟨h1, rfl⟩ | ⟨h1, h2, h3⟩
  · exact ⟨rfl, h1, fun _ => rfl⟩
  · have hcf : s'.ctx.search.conflicts = s.ctx.search.conflicts := by
      obtain ⟨ctx4, s4, e4, _, e5, _⟩ := restart_spec hi
      rw [h2] at e4
      simp only [Except.ok.injEq, Prod.mk.injEq] at e4
      rw [e4.1, e5]
    refine ⟨hcf, ?_, fun h => by omega⟩
    rw [h3, hcf]
    simp only
    obtain ⟨a, ha⟩ := (Luby.inv_after s.ctx.search.restarts).pow
    have := Nat.two_pow_pos a
    rw [h.luby, Luby.advance_fst, ha]
    omega

theorem maybeReduce_next (h : Solver.Reachable env F s) (e : s.maybeReduce env = .ok s') :
    s'.ctx.search = { s.ctx.search with reductions := s'.ctx.search.reductions } ∧
      s'.schedule.nextRestart = s.schedule.nextRestart ∧ s'.search.prop.trail = s.search.prop.trail ∧
      s'.search.cb = s.search.cb := by
  obtain ⟨L, S, hi⟩ := h.inv
  obtain ⟨s2, e2, _, hc⟩ := maybeReduce_spec (env := env) hi
  cases e.symm.trans e2
  rcases hc with ⟨_, rfl⟩ | ⟨_, h2, h3⟩
  · exact ⟨rfl, rfl, rfl, rfl⟩
  · obtain ⟨ctx', s3, L', D, S', e3, _, q, hcb, _⟩ := reduce_inv (env := env) hi
    rw [h2] at e3
    simp only [Except.ok.injEq, Prod.mk.injEq] at e3
    obtain ⟨a, ha⟩ := q.eq
    exact ⟨by rw [e3.1, q.del.search], by rw [h3], by rw [e3.2, ha], by rw [e3.2, hcb]⟩

theorem Follows.restart (hf : Follows F α s) (h : Solver.Reachable env F s) (e : s.maybeRestart = .ok s') :
    Follows F α s' := by
  obtain ⟨L, S, hi⟩ := h.inv
  obtain ⟨s2, e2, _, hc⟩ := maybeRestart_spec hi
  cases e.symm.trans e2
  rcases hc with ⟨h1, rfl⟩ | ⟨h1, h2, h3⟩
  · exact hf
  · obtain ⟨ctx', s3, e3, _, hst, _, _, _, _, _, hp, hq⟩ := C34_restart h
    rw [h2] at e3
    simp only [Except.ok.injEq, Prod.mk.injEq] at e3
    obtain ⟨e3, e4⟩ := e3
    subst e4
    refine ⟨?_, ?_⟩
    · intro st hst'
      rw [hst, List.mem_filter] at hst'
      exact hf.trail st hst'.1
    · intro x hx hn
      by_cases hs : ∃ st ∈ s.search.prop.trail.steps, st.level ≠ 0 ∧ st.lit.index = x
      · obtain ⟨st, hs1, hs2, rfl⟩ := hs
        have hd := hp st hs1 hs2
        have hnle := hi.prop.sized.n_le
        have hα := hf.trail st hs1
        unfold decidePhase at hd
        obtain ⟨b, hb, hd⟩ := bind_eq_ok.1 hd
        have hd : litOf st.lit.index b = st.lit := Except.ok.inj hd
        rw [idx_eq_ok.1 hb]
        have hb' := litOf_isPositive (x := st.lit.index) (by omega) b
        rw [hd] at hb'
        unfold LitSat at hα
        rw [hα, hb']
      · have hs : ∀ st ∈ s.search.prop.trail.steps, st.level ≠ 0 → st.lit.index ≠ x :=
          fun st h1 h2 h3 => hs ⟨st, h1, h2, h3⟩
        rw [hq x hx hs]
        refine hf.phase x hx fun st h1 h2 => ?_
        by_cases h0 : st.level = 0
        · exact hn st (by rw [hst, List.mem_filter]; exact ⟨h1, by simpa using h0⟩) h2
        · exact hs st h1 h0 h2

theorem Follows.reduce (hf : Follows F α s) (h : Solver.Reachable env F s) (e : s.maybeReduce env = .ok s') :
    Follows F α s' := by
  obtain ⟨_, _, h1, h2⟩ := maybeReduce_next h e
  exact ⟨by rw [h1]; exact hf.trail, by rw [h1, h2]; exact hf.phase⟩

/-- What a search step does in a state that follows a model. -/
theorem Follows.step (hα : FormulaSat α F) (hf : Follows F α s) (h : Solver.Reachable env F s) {ctx : Ctx}
    {search : Search} {r : Option Bool} (e : searchStep env s.ctx s.search = .ok (ctx, search, r)) :
    Follows F α { s with ctx := ctx, search := search } ∧ ctx.search.conflicts = s.ctx.search.conflicts ∧
    r ≠ some false ∧ (r = none → search.prop.trail.decisionLevel = s.search.prop.trail.decisionLevel + 1 ∧
      ∃ x, x < formulaVars F ∧ ∀ st ∈ s.search.prop.trail.steps, st.lit.index ≠ x) ∧
    (r = some true → ctx.search = s.ctx.search ∧ ∀ l : Lit, l.index < formulaVars F →
      search.prop.values.value l = .ok (some (α l.index == l.isPositive))) := by
  have hnf : r ≠ some false := by
    rintro rfl
    obtain ⟨L, S, hi⟩ := h.inv
    obtain ⟨L', S', h', q⟩ := (searchStep_spec hi).ok_elim e
    obtain ⟨log, _, _, hr⟩ := h'.proof
    obtain ⟨log0, L0, _, a, c⟩ := hr q.unsat
    exact a.unsat c α hα
  -- after propagation
  have prop : ∀ {p1 p : PropState} {ctx1 : Ctx} {rc : Option ConflictClause},
      Solver.Propagating env F s p1 ctx1 p rc → rc = none ∧ ∀ st ∈ p.trail.steps, LitSat α st.lit := by
    intro p1 p ctx1 rc hp
    obtain ⟨L, S, S2, hi, q⟩ := hp.phase
    have d2 := q.db _ _ hi.db
    have hs := q.inv.trail_sat d2 (hi.sat hα) (by
      intro st hst hr
      obtain ⟨ρ, new, e1, h1⟩ := q.steps
      rw [e1] at hst
      rcases List.mem_append.1 hst with hst | hst
      · obtain ⟨st', hst', rfl⟩ := List.mem_map.1 hst
        exact hf.trail st' hst'
      · exact absurd hr (h1 st hst).2.2)
    refine ⟨?_, hs⟩
    cases rc with
    | none => rfl
    | some c =>
      obtain ⟨ls, _, h1, _, h2⟩ := q.inv.conflict d2 (q.conflict c rfl)
      obtain ⟨l, hl, hsat⟩ := hi.sat hα _ h2
      obtain ⟨st, h3, h4⟩ := h1 l (by simpa using hl)
      exact absurd (h4 ▸ hs st h3) hsat.not_neg
  have phase : ∀ {p1 p : PropState} {ctx1 : Ctx} {rc : Option ConflictClause},
      Solver.Propagating env F s p1 ctx1 p rc → ∀ x, x < formulaVars F →
      (∀ st ∈ p.trail.steps, st.lit.index ≠ x) → s.search.cb.phases[x]? = some (α x) := by
    intro p1 p ctx1 rc hp x hx hn
    obtain ⟨L, S, S2, hi, q⟩ := hp.phase
    obtain ⟨ρ, new, e1, h1⟩ := q.steps
    refine hf.phase x hx fun st hst => ?_
    exact hn (st.ren ρ) (by rw [e1]; exact List.mem_append_left _ (List.mem_map_of_mem hst))
  cases searchStep_cases h e with
  | already hu => exact absurd rfl hnf
  | fail hp h0 => exact absurd rfl hnf
  | learn hp h0 e1 => exact absurd (prop hp).1 (by simp)
  | @decide p1 p p' ctx1 x v l hp e1 e2 e3 =>
    obtain ⟨L, S, S2, hi, q⟩ := hp.phase
    obtain ⟨r, v', e', _, _, _, h2⟩ := popDecisionVar_spec hi.cb q.inv.trail.vwf q.inv.sized.values
      q.inv.sized.n_le (q.covers hi.prop hi.covers)
    rw [e1] at e'
    simp only [Except.ok.injEq, Prod.mk.injEq] at e'
    obtain ⟨rfl, rfl⟩ := e'
    obtain ⟨hx, hv, _⟩ := h2 x rfl
    obtain ⟨d1, d2, _⟩ := assignDecision_trail q.inv.trail e3
    have hmx : x ≤ MAX_INDEX := by have := q.inv.sized.n_le; omega
    have hnot : ∀ st ∈ p.trail.steps, st.lit.index ≠ x := by
      intro st hst hix
      have hval := (q.inv.trail.val_iff st.lit).2 ⟨st, hst, rfl⟩
      have := (val_index q.inv.trail.vwf (hix.trans (litOf_index hmx true).symm)).2 (hv true)
      rw [hval] at this
      cases this
    have hph := phase hp x hx hnot
    unfold decidePhase at e2
    rw [idx_ok hph, bind_ok] at e2
    have e2 : litOf x (α x) = l := Except.ok.inj e2
    have hl : LitSat α l := by
      rw [← e2]
      unfold LitSat
      rw [litOf_index hmx, litOf_isPositive hmx]
    refine ⟨⟨?_, ?_⟩, ?_, hnf, fun _ => ⟨by rw [d2, q.level], x, hx, ?_⟩, by simp⟩
    · intro st hst
      simp only at hst
      rw [d1] at hst
      rcases List.mem_append.1 hst with hst | hst
      · exact (prop hp).2 st hst
      · simp only [List.mem_singleton] at hst
        rw [hst]; exact hl
    · intro y hy hn
      refine phase hp y hy fun st hst => hn st ?_
      simp only
      rw [d1]; exact List.mem_append_left _ hst
    · show ctx1.search.conflicts = _
      rw [hp.search]
    · obtain ⟨ρ, new, e4, _⟩ := q.steps
      intro st hst
      exact hnot (st.ren ρ) (by rw [e4]; exact List.mem_append_left _ (List.mem_map_of_mem hst))
  | @sat p1 p ctx1 v hp e1 =>
    obtain ⟨L, S, S2, hi, q⟩ := hp.phase
    obtain ⟨r, v', e', _, _, hall, _⟩ := popDecisionVar_spec hi.cb q.inv.trail.vwf q.inv.sized.values
      q.inv.sized.n_le (q.covers hi.prop hi.covers)
    rw [e1] at e'
    simp only [Except.ok.injEq, Prod.mk.injEq] at e'
    obtain ⟨rfl, rfl⟩ := e'
    refine ⟨⟨(prop hp).2, phase hp⟩, by rw [hp.search], hnf, by simp, ?_⟩
    refine fun _ => ⟨hp.search, fun l hl => ?_⟩
    show p.values.value l = _
    rw [q.inv.value hl]
    cases hv : p.values.val l with
    | none => exact absurd hv (hall rfl l hl)
    | some b =>
      cases b with
      | true =>
        obtain ⟨st, h1, h2⟩ := (q.inv.trail.val_iff l).1 hv
        have := (prop hp).2 st h1
        rw [h2] at this
        unfold LitSat at this
        simp [this]
      | false =>
        obtain ⟨st, h1, h2⟩ := (q.inv.trail.val_false_iff l).1 hv
        have := (prop hp).2 st h1
        rw [h2] at this
        unfold LitSat at this
        rw [Lit.index_neg, Lit.isPositive_neg] at this
        rw [this]
        cases l.isPositive <;> simp

theorem Follows.schedule (hα : FormulaSat α F) (hf : Follows F α s) (h : Solver.Reachable env F s) {r : Option Bool}
    (e : s.scheduleStep env = .ok (s', r)) :
    Solver.Reachable env F s' ∧ Follows F α s' ∧ s'.ctx.search.conflicts = s.ctx.search.conflicts ∧
    s'.ctx.search.conflicts < s'.schedule.nextRestart ∧ r ≠ some false ∧
    (r = none → 0 < s'.search.prop.trail.decisionLevel ∧ (s.ctx.search.conflicts < s.schedule.nextRestart →
      s'.search.prop.trail.decisionLevel = s.search.prop.trail.decisionLevel + 1)) ∧
    (r = some true → ∀ l : Lit, l.index < formulaVars F → s'.search.prop.values.value l =
      .ok (some (α l.index == l.isPositive))) := by
  obtain ⟨s1, s2, ctx, search, e1, e2, e3, rfl⟩ := Solver.scheduleStep_eq e
  have r1 := h.restart e1
  have r2 := r1.reduce e2
  obtain ⟨c1, n1, q1⟩ := maybeRestart_next h e1
  obtain ⟨c2, n2, t2, _⟩ := maybeReduce_next r1 e2
  obtain ⟨f3, c3, b3, l3, v3⟩ := ((hf.restart h e1).reduce r1 e2).step hα r2 e3
  refine ⟨r2.step e3, f3, by rw [c3, c2, c1], ?_, b3, fun hr => ⟨?_, fun hq => ?_⟩, fun hr => (v3 hr).2⟩
  · simp only
    rw [c3, c2, n2]; exact n1
  · simp only
    rw [(l3 hr).1]; omega
  · simp only
    rw [(l3 hr).1, t2, q1 hq]

theorem Follows.solve (hα : FormulaSat α F) {k : Nat} : ∀ {s : Solver}, Follows F α s → Solver.Reachable env F s →
    ∀ {r : Option Bool}, s.solve env k = .ok (s', r) →
    Solver.Reachable env F s' ∧ Follows F α s' ∧ s'.ctx.search.conflicts = s.ctx.search.conflicts ∧ r ≠ some false ∧
    (r = none → (0 < k → k ≤ s'.search.prop.trail.decisionLevel) ∧ (s.ctx.search.conflicts < s.schedule.nextRestart →
      s'.search.prop.trail.decisionLevel = s.search.prop.trail.decisionLevel + k)) ∧
    (r = some true → ∀ l : Lit, l.index < formulaVars F → s'.search.prop.values.value l =
      .ok (some (α l.index == l.isPositive))) := by
  induction k with
  | zero =>
    intro s hf h r e
    cases e
    exact ⟨h, hf, rfl, by simp, fun _ => ⟨fun h => absurd h (by omega), fun _ => rfl⟩, by simp⟩
  | succ k ih =>
    intro s hf h r e
    unfold Solver.solve at e
    obtain ⟨⟨s1, r1⟩, e1, e2⟩ := bind_eq_ok.1 e
    obtain ⟨h1, f1, c1, n1, b1, l1, v1⟩ := hf.schedule hα h e1
    cases r1 with
    | some b =>
      cases e2
      exact ⟨h1, f1, c1, b1, by simp, v1⟩
    | none =>
      obtain ⟨h2, f2, c2, b2, l2, v2⟩ := ih f1 h1 e2
      refine ⟨h2, f2, c2.trans c1, b2, fun hr => ?_, v2⟩
      have a1 := l1 rfl
      have a2 := (l2 hr).2 n1
      refine ⟨fun _ => by omega, fun hq => ?_⟩
      have := a1.2 hq
      omega

theorem Solver.Reachable.value_eq (h : Solver.Reachable env F s) {l : Lit} (hl : l.index < formulaVars F) :
    s.value l = s.search.prop.values.value l := by
  unfold Solver.value
  rw [(C35_formula_stats h).1, if_pos hl]

/-- C68: in a state that follows a model of the formula, `solve()` runs into no conflict.  It never answers
unsatisfiable, it returns after at most one more iteration than there are variables, and it returns that model. -/
theorem C68_guided (h : Solver.Reachable env F s) (hα : FormulaSat α F) (hf : Follows F α s) {k : Nat}
    {r : Option Bool} (e : s.solve env k = .ok (s', r)) :
    Follows F α s' ∧ s'.ctx.search.conflicts = s.ctx.search.conflicts ∧ r ≠ some false ∧
    (r = none → k ≤ formulaVars F) ∧
    (r = some true → ∀ l : Lit, l.index < formulaVars F → s'.value l = .ok (some (α l.index == l.isPositive))) := by
  obtain ⟨h1, h2, h3, h4, h5, h6⟩ := hf.solve hα h e
  refine ⟨h2, h3, h4, fun hr => ?_, fun hr l hl => ?_⟩
  · obtain ⟨L, S, hi⟩ := h1.inv
    have := hi.prop.trail.level_le_vars
    by_cases hk : 0 < k
    · have := (h5 hr).1 hk
      omega
    · omega
  · rw [h1.value_eq hl]
    exact h6 hr l hl

/-- The next restart is still to come when `solve()` has found a model. -/
theorem Solver.solve_sat_restart {k : Nat} : ∀ {s : Solver}, Solver.Reachable env F s →
    s.solve env k = .ok (s', some true) → s'.ctx.search.conflicts < s'.schedule.nextRestart := by
  induction k with
  | zero => intro s _ e; cases e
  | succ k ih =>
    intro s h e
    unfold Solver.solve at e
    obtain ⟨⟨s1, r1⟩, e1, e2⟩ := bind_eq_ok.1 e
    obtain ⟨t1, t2, ctx, search, q1, q2, q3, rfl⟩ := Solver.scheduleStep_eq e1
    have h1 := h.restart q1
    have h2 := h1.reduce q2
    cases r1 with
    | none => exact ih (h2.step q3) e2
    | some b =>
      cases e2
      cases searchStep_cases h2 q3 with
      | sat hp _ =>
        show _ < t2.schedule.nextRestart
        obtain ⟨c2, n2, _⟩ := maybeReduce_next h1 q2
        rw [hp.search, n2, c2]; exact (maybeRestart_next h q1).2.1

/-- C68: `solve()` called again after it has found a model answers in a single iteration.  It makes no decision, runs
into no conflict, does not restart and returns the same model. -/
theorem C68_again (h : Solver.Reachable env F s) {s1 s2 : Solver} {k k2 : Nat} {r : Option Bool}
    (e : s.solve env k = .ok (s1, some true)) (e2 : s1.solve env (k2 + 1) = .ok (s2, r)) :
    r = some true ∧ s1.solve env 1 = .ok (s2, r) ∧
    s2.ctx.search.conflicts = s1.ctx.search.conflicts ∧ s2.ctx.search.decisions = s1.ctx.search.decisions ∧
    s2.ctx.search.restarts = s1.ctx.search.restarts ∧ ∀ l : Lit, s2.value l = s1.value l := by
  have hq := Solver.solve_sat_restart h e
  obtain ⟨α, hα, hv, _⟩ := C02_sat_correct h e
  have h1 : Solver.Reachable env F s1 := by
    obtain ⟨s0, ctx, search, h0, e0, rfl⟩ := Solver.solve_last h e
    exact h0.step e0
  obtain ⟨L, S, hi⟩ := h1.inv
  have hv' : ∀ l : Lit, l.index < formulaVars F → s1.value l = .ok (some (α l.index == l.isPositive)) := by
    intro l hl
    refine hv l ?_
    by_contra hc
    refine absurd (formulaVars_le (F := F) (n := l.index) fun c h1 m h2 => ?_) (by omega)
    exact Nat.lt_of_not_le fun h3 => hc ⟨c, h1, m, h2, h3⟩
  -- all variables are assigned
  have hall : ∀ x, x < formulaVars F → ¬ ∀ st ∈ s1.search.prop.trail.steps, st.lit.index ≠ x := by
    intro x hx hno
    have hmx : x ≤ MAX_INDEX := by have := hi.prop.sized.n_le; omega
    have hix := litOf_index hmx true
    have h2 := hv' (litOf x true) (by rw [hix]; exact hx)
    rw [h1.value_eq (by rw [hix]; exact hx), hi.prop.value (by rw [hix]; exact hx)] at h2
    simp only [Except.ok.injEq] at h2
    cases hb : (α (litOf x true).index == (litOf x true).isPositive) with
    | true =>
      rw [hb] at h2
      obtain ⟨st, a, b⟩ := (hi.prop.trail.val_iff _).1 h2
      exact absurd (by rw [b]; exact hix) (hno st a)
    | false =>
      rw [hb] at h2
      obtain ⟨st, a, b⟩ := (hi.prop.trail.val_false_iff _).1 h2
      exact absurd (by rw [b, Lit.index_neg]; exact hix) (hno st a)
  have hf : Follows F α s1 := by
    refine ⟨fun st hst => ?_, fun x hx hno => absurd hno (hall x hx)⟩
    have hlt := hi.prop.trail.idx_lt st hst
    have h2 := hv' st.lit hlt
    rw [h1.value_eq hlt, hi.prop.value hlt, (hi.prop.trail.val_iff st.lit).2 ⟨st, hst, rfl⟩] at h2
    simp only [Except.ok.injEq, Option.some.injEq] at h2
    unfold LitSat
    simpa using h2.symm
  unfold Solver.solve at e2
  obtain ⟨⟨t, r1⟩, e3, e4⟩ := bind_eq_ok.1 e2
  obtain ⟨t1, t2, ctx, search, q1, q2, q3, rfl⟩ := Solver.scheduleStep_eq e3
  obtain rfl := (maybeRestart_next h1 q1).2.2 hq
  obtain ⟨c2, n2, tr2, _⟩ := maybeReduce_next h1 q2
  have h2 := h1.reduce q2
  obtain ⟨_, _, b3, l3, v3⟩ := (hf.reduce h1 q2).step hα h2 q3
  cases r1 with
  | none =>
    obtain ⟨x, hx, hno⟩ := (l3 rfl).2
    rw [tr2] at hno
    exact absurd hno (hall x hx)
  | some b =>
    cases e4
    cases b with
    | false => exact absurd rfl b3
    | true =>
      obtain ⟨a1, a2⟩ := v3 rfl
      refine ⟨rfl, by unfold Solver.solve; rw [e3, bind_ok]; rfl, ?_, ?_, ?_, fun l => ?_⟩
      · simp only
        rw [a1, c2]
      · simp only
        rw [a1, c2]
      · simp only
        rw [a1, c2]
      · have h3 := h2.step q3
        by_cases hl : l.index < formulaVars F
        · rw [h3.value_eq hl, hv' l hl]
          exact a2 l hl
        · unfold Solver.value
          rw [(C35_formula_stats h3).1, (C35_formula_stats h1).1, if_neg hl, if_neg hl]

/-- C68 for a fresh solver: the phases are initially negative, so if setting all variables to false satisfies the
formula, that is the answer and there are no conflicts. -/
theorem C68_false (h : Solver.Input env F s) (hα : FormulaSat (fun _ => false) F) {k : Nat}
    {r : Option Bool} (e : s.solve env k = .ok (s', r)) :
    s'.ctx.search.conflicts = 0 ∧ r ≠ some false ∧ (r = none → k ≤ formulaVars F) ∧
    (r = some true → ∀ l : Lit, l.index < formulaVars F → s'.value l = .ok (some (!l.isPositive))) := by
  have hf : Follows F (fun _ => false) s := by
    refine ⟨fun st hst => ?_, fun x hx _ => by rw [h.start.phases]; simp [hx]⟩
    obtain ⟨c, hc, hl⟩ := List.mem_filterMap.1 (h.trail.steps.subset (List.mem_map_of_mem hst))
    obtain ⟨l, h1, h2⟩ := hα c hc
    split at hl
    · cases hl
      rw [List.mem_singleton.1 h1] at h2
      exact h2
    · cases hl
  obtain ⟨_, a2, a3, a4, a5⟩ := C68_guided (.input h) hα hf e
  refine ⟨by rw [a2, h.start.search], a3, a4, fun hr l hl => by rw [a5 hr l hl]; simp⟩

end

/-- For C68: a state after a conflict that follows a model in which variables 2, 5 and 6 are true, and a
search from there that makes four decisions. -/
theorem C68_example : ∃ s s', Solver.Reachable Example.env (Example.cnf [[1, 2], [6, 5], [6, -5], [3, -4]]) s ∧
    FormulaSat (fun x => x == 1 || x == 4 || x == 5) (Example.cnf [[1, 2], [6, 5], [6, -5], [3, -4]]) ∧
    Follows (Example.cnf [[1, 2], [6, 5], [6, -5], [3, -4]]) (fun x => x == 1 || x == 4 || x == 5) s ∧
    s.ctx.search.conflicts = 1 ∧ s.search.prop.trail.steps.map Step.lit = [Example.lit 6] ∧
    s.solve Example.env 9 = .ok (s', some true) ∧ s'.search.prop.trail.decisionLevel = 4 := by
  have h : (do
      let s ← Example.after [[1, 2], [6, 5], [6, -5], [3, -4]] 3
      let (s', r) ← s.solve Example.env 9
      pure ([s.ctx.search.conflicts, s'.search.prop.trail.decisionLevel], s.search.prop.trail.steps.map Step.lit,
        s.search.cb.phases, r) : M (List Nat × List Lit × List Bool × Option Bool)) =
      .ok ([1, 4], [Example.lit 6], [false, true, false, false, true, false], some true) := by decide +kernel
  obtain ⟨s, h1, h2⟩ := bind_eq_ok.1 h
  obtain ⟨⟨s', r⟩, h3, h2⟩ := bind_eq_ok.1 h2
  have h2 := Except.ok.inj h2
  simp only [Prod.mk.injEq, List.cons.injEq, and_true] at h2
  obtain ⟨⟨a1, a2⟩, a3, a4, rfl⟩ := h2
  refine ⟨s, s', Example.after_reachable (by decide +kernel) h1, ?_, ⟨?_, ?_⟩, a1, a3, h3, a2⟩
  · unfold FormulaSat LitSat
    decide +kernel
  · intro st hst
    have := List.mem_map_of_mem (f := Step.lit) hst
    rw [a3, List.mem_singleton] at this
    rw [this]
    unfold LitSat
    decide +kernel
  · intro x hx hno
    rw [a4]
    have hx : x < 6 := hx
    have hne : x ≠ 5 := by
      rintro rfl
      obtain ⟨st, b1, b2⟩ := List.mem_map.1 (show Example.lit 6 ∈ s.search.prop.trail.steps.map Step.lit by
        rw [a3]; simp)
      exact hno st b1 (by rw [b2]; decide +kernel)
    clear hno
    revert hne
    revert x
    decide +kernel

/-- For C68: a first call of `solve()` that meets two conflicts, and a second one. -/
theorem C68_again_example : ∃ s s1 s2, Solver.Reachable Example.env (Example.cnf Example.sat3) s ∧
    s.solve Example.env 9 = .ok (s1, some true) ∧ s1.ctx.search.conflicts = 2 ∧
    s1.solve Example.env 9 = .ok (s2, some true) := by
  have h : (do
      let s ← Example.after Example.sat3 0
      let (s1, r1) ← s.solve Example.env 9
      let (_, r2) ← s1.solve Example.env 9
      pure (s1.ctx.search.conflicts, r1, r2) : M (Nat × Option Bool × Option Bool)) =
      .ok (2, some true, some true) := by decide +kernel
  obtain ⟨s, h1, h2⟩ := bind_eq_ok.1 h
  obtain ⟨⟨s1, r1⟩, h3, h2⟩ := bind_eq_ok.1 h2
  obtain ⟨⟨s2, r2⟩, h4, h2⟩ := bind_eq_ok.1 h2
  have h2 := Except.ok.inj h2
  simp only [Prod.mk.injEq] at h2
  obtain ⟨a1, rfl, rfl⟩ := h2
  exact ⟨s, s1, s2, Example.after_reachable (by decide +kernel) h1, h3, a1, h4⟩

/-- For C68: a formula satisfied by setting all variables to false. -/
theorem C68_false_example : ∃ s s', Solver.Input Example.env (Example.cnf [[-6], [1, -2], [3, -4, 5, 6], [-1, -3]]) s ∧
    FormulaSat (fun _ => false) (Example.cnf [[-6], [1, -2], [3, -4, 5, 6], [-1, -3]]) ∧
    s.solve Example.env 9 = .ok (s', some true) ∧ s'.ctx.search.decisions = 4 := by
  have h : (do
      let s ← (Solver.default Example.env).addClauses (Example.cnf [[-6], [1, -2], [3, -4, 5, 6], [-1, -3]])
      let (s', r) ← s.solve Example.env 9
      pure (s'.ctx.search.decisions, r) : M (Nat × Option Bool)) = .ok (4, some true) := by decide +kernel
  obtain ⟨s, h1, h2⟩ := bind_eq_ok.1 h
  obtain ⟨⟨s', r⟩, h3, h2⟩ := bind_eq_ok.1 h2
  have h2 := Except.ok.inj h2
  simp only [Prod.mk.injEq] at h2
  obtain ⟨a1, rfl⟩ := h2
  have hin := Solver.Input.addClauses _ (.new (env := Example.env))
    (Example.ok_valid (F := [[-6], [1, -2], [3, -4, 5, 6], [-1, -3]]) (by decide +kernel)) h1
  refine ⟨s, s', by simpa using hin, ?_, h3, a1⟩
  unfold FormulaSat LitSat
  decide +kernel

end Starlit
