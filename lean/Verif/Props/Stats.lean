import Verif.Props.Runs
import Verif.Solver.Report

/-!
# C50: fixed variables and progress reports
-/

namespace Starlit

/-- The literals of the unit clauses. -/
def unitLits (F : List (List Lit)) : List Lit :=
  F.filterMap (fun c => match c with | [l] => some l | _ => none)

/-- The number of trail entries of the top level. -/
def topSteps (steps : List Step) : Nat := (steps.filter (fun st => decide (st.level = 0))).length

section
variable {env : Env} {F : List (List Lit)} {s s' : Solver} {p1 p : PropState} {ctx : Ctx}
  {r : Option ConflictClause}

theorem drop_append_nodup {α : Type} {a b : List α} {u : Nat} (h1 : (a.drop u).Nodup) (h2 : b.Nodup)
    (h3 : ∀ x ∈ a, ∀ y ∈ b, x ≠ y) : ((a ++ b).drop u).Nodup := by
  rw [List.drop_append, List.nodup_append]
  exact ⟨h1, h2.sublist (List.drop_sublist _ _),
    fun x hx y hy => h3 x (List.mem_of_mem_drop hx) y (List.mem_of_mem_drop hy)⟩

theorem drop_take_nodup {α : Type} {a : List α} {u t : Nat} (h : (a.drop u).Nodup) :
    ((a.take t).drop u).Nodup := by
  rw [List.drop_take]
  exact h.sublist (List.take_sublist _ _)

/-- What propagation does with the trail, apart from the reasons. -/
theorem Solver.Propagating.keys (h : Solver.Propagating env F s p1 ctx p r) :
    ∃ new : List Step,
      p.trail.steps.map (fun st => (st.lit, st.level)) =
        (s.search.prop.trail.steps ++ new).map (fun st => (st.lit, st.level)) ∧
      (∀ st ∈ new, st.level = s.search.prop.trail.decisionLevel) ∧
      p.trail.decisions = s.search.prop.trail.decisions ∧
      (∀ u, ((s.search.prop.trail.steps.map Step.lit).drop u).Nodup →
        ((p.trail.steps.map Step.lit).drop u).Nodup) := by
  obtain ⟨_, new, e, hn⟩ := C07_reasons h
  obtain ⟨L, S, hi⟩ := h.reach.inv
  obtain ⟨_, _, _, _, hx, _⟩ := h.inv
  have hgc : p1.trail.steps.map (fun st => (st.lit, st.level)) =
      s.search.prop.trail.steps.map (fun st => (st.lit, st.level)) ∧
      p1.trail.decisions = s.search.prop.trail.decisions := by
    rcases (collectGarbage_spec hi.prop).ok_elim h.gc with rfl | ⟨ρ, hg⟩
    · exact ⟨rfl, rfl⟩
    · obtain ⟨a, rfl⟩ := hg.eq
      refine ⟨?_, rfl⟩
      simp only [List.map_map]
      rfl
  have hlits : p1.trail.steps.map Step.lit = s.search.prop.trail.steps.map Step.lit := by
    have := congrArg (List.map Prod.fst) hgc.1
    simpa [List.map_map, Function.comp_def] using this
  refine ⟨new, ?_, ?_, hx.decisions.trans hgc.2, ?_⟩
  · rw [e, List.map_append, List.map_append, hgc.1]
  · intro st hst
    obtain ⟨i, hi⟩ := List.mem_iff_getElem?.1 hst
    rw [(hn i st hi).1]
    unfold Trail.decisionLevel
    rw [hgc.2]
  · intro u hnd
    rw [e, List.map_append, hlits]
    refine drop_append_nodup hnd ?_ ?_
    · rw [List.nodup_iff_pairwise_ne, List.pairwise_map, List.pairwise_iff_getElem]
      intro i j hi hj hij
      have h1 := (hn j _ (List.getElem?_eq_getElem hj)).2.2.1 new[i] (by
        simp only [List.mem_append]
        exact .inr (mem_take_iff.2 ⟨i, hij, List.getElem?_eq_getElem hi⟩))
      exact fun e => h1 (by rw [e])
    · intro a ha b hb
      obtain ⟨st, hst, rfl⟩ := List.mem_map.1 hb
      obtain ⟨i, hi⟩ := List.mem_iff_getElem?.1 hst
      rw [← hlits] at ha
      obtain ⟨t, ht, rfl⟩ := List.mem_map.1 ha
      have := (hn i st hi).2.2.1 t (by simp [ht])
      exact fun e => this (by rw [e])

/-- What propagation does with the number of fixed variables. -/
theorem Solver.Propagating.fixed (h : Solver.Propagating env F s p1 ctx p r) :
    (r ≠ none ∨ p.trail.decisionLevel ≠ 0 → ctx.prop.fixedVars = s.ctx.prop.fixedVars) ∧
    (r = none → p.trail.decisionLevel = 0 → ctx.prop.fixedVars = p.trail.steps.length) := by
  have e := h.prop
  unfold propagate at e
  obtain ⟨p2, _, e⟩ := bind_eq_ok.1 e
  obtain ⟨⟨p3, r3⟩, _, e⟩ := bind_eq_ok.1 e
  cases r3 with
  | some c => cases e; exact ⟨fun _ => rfl, by simp⟩
  | none =>
    obtain ⟨_, _, e⟩ := bind_eq_ok.1 e
    simp only [pure_eq, Except.ok.injEq, Prod.mk.injEq] at e
    obtain ⟨rfl, rfl, rfl⟩ := e
    refine ⟨?_, ?_⟩
    · intro h0
      rw [if_neg (by simpa using h0)]
    · intro _ h0
      rw [if_pos h0]
      simp only [Trail.fixedVarCount]
      unfold Trail.decisionLevel at h0
      rw [List.getElem?_eq_none (by omega)]

theorem topSteps_keys {a b : List Step}
    (h : a.map (fun st => (st.lit, st.level)) = b.map (fun st => (st.lit, st.level))) :
    topSteps a = topSteps b := by
  have key : ∀ l : List Step, topSteps l =
      ((l.map (fun st => (st.lit, st.level))).filter (fun x => decide (x.2 = 0))).length := by
    intro l
    unfold topSteps
    rw [List.filter_map, List.length_map]
    rfl
  rw [key, key, h]

theorem topSteps_append (a b : List Step) : topSteps (a ++ b) = topSteps a + topSteps b := by
  unfold topSteps
  rw [List.filter_append, List.length_append]

theorem topSteps_high {a : List Step} (h : ∀ st ∈ a, st.level ≠ 0) : topSteps a = 0 := by
  unfold topSteps
  rw [List.length_eq_zero_iff, List.filter_eq_nil_iff]
  intro st hst
  simpa using h st hst

theorem topSteps_low {a : List Step} (h : ∀ st ∈ a, st.level = 0) : topSteps a = a.length := by
  unfold topSteps
  rw [List.filter_eq_self.2]
  intro st hst
  simpa using h st hst

theorem TrailInv.all_top {n : Nat} {values : PartialAssignment} {t : Trail} (h : TrailInv n values t)
    (h0 : t.decisionLevel = 0) : topSteps t.steps = t.steps.length := by
  refine topSteps_low ?_
  intro st hst
  obtain ⟨i, hi⟩ := List.mem_iff_getElem?.1 hst
  have := h.level_le i st hi
  omega

/-- Cutting the trail keeps the entries of the top level. -/
theorem TrailInv.topSteps_cut {n : Nat} {values : PartialAssignment} {t : Trail}
    (h : TrailInv n values t) {level target : Nat} (hd : t.decisions[level + 1]? = some target) :
    topSteps (t.steps.take target) = topSteps t.steps := by
  conv_rhs => rw [← List.take_append_drop target t.steps, topSteps_append]
  rw [topSteps_high (a := t.steps.drop target), Nat.add_zero]
  intro st hst
  obtain ⟨i, hi⟩ := List.mem_iff_getElem?.1 hst
  rw [List.getElem?_drop] at hi
  have := (h.level (target + i) st hi (level + 1) target (by omega) hd).2 (by omega)
  omega

/-- The trail of a solver during a run. -/
structure FixedInv (F : List (List Lit)) (s : Solver) : Prop where
  le : s.ctx.prop.fixedVars ≤ topSteps s.search.prop.trail.steps
  eq : s.search.prop.trail.decisionLevel ≠ 0 →
    s.ctx.prop.fixedVars = topSteps s.search.prop.trail.steps
  nodup : ∀ u, ((unitLits F).Nodup ∨ (unitLits F).length ≤ u) →
    ((s.search.prop.trail.steps.map Step.lit).drop u).Nodup

/-- The trail before the first call of `solve()`. -/
structure InputTrail (F : List (List Lit)) (s : Solver) : Prop where
  fixed : s.ctx.prop.fixedVars = 0
  level : s.search.prop.trail.decisions.length = 1
  steps : (s.search.prop.trail.steps.map Step.lit).Sublist (unitLits F)

theorem addClauseVerbatim_trail {ctx ctx' : Ctx} {p p' : PropState} {h : LongHeader} {ls : List Lit}
    {r : AddedClause} (e : addClauseVerbatim ctx p h ls = .ok (ctx', p', r)) :
    ctx'.prop = ctx.prop ∧ p'.trail.decisions = p.trail.decisions ∧
      (p'.trail.steps = p.trail.steps ∨ ∃ a, ls = [a] ∧
        p'.trail.steps = p.trail.steps ++ [⟨a, 0, .unit⟩]) := by
  match ls with
  | [] => cases e; exact ⟨rfl, rfl, .inl rfl⟩
  | [a] =>
    simp only [addClauseVerbatim] at e
    obtain ⟨b, _, e⟩ := bind_eq_ok.1 e
    cases b with
    | true => cases e; exact ⟨rfl, rfl, .inl rfl⟩
    | false =>
      simp only [Bool.false_eq_true, if_false] at e
      obtain ⟨p1, e1, e⟩ := bind_eq_ok.1 e
      cases e
      unfold PropState.assignUnit at e1
      split at e1
      rotate_left
      · cases e1
      obtain ⟨_, _, e1⟩ := bind_eq_ok.1 e1
      obtain ⟨_, _, e1⟩ := bind_eq_ok.1 e1
      cases e1
      exact ⟨rfl, rfl, .inr ⟨a, rfl, rfl⟩⟩
  | [a, b] =>
    simp only [addClauseVerbatim] at e
    obtain ⟨_, _, e⟩ := bind_eq_ok.1 e
    cases e; exact ⟨rfl, rfl, .inl rfl⟩
  | a :: b :: c :: ls =>
    simp only [addClauseVerbatim] at e
    obtain ⟨x, _, e⟩ := bind_eq_ok.1 e
    match x with
    | none => cases e
    | some (long, r) =>
      simp only at e
      obtain ⟨_, _, e⟩ := bind_eq_ok.1 e
      cases e
      refine ⟨?_, rfl, .inl rfl⟩
      split <;> rfl

theorem Solver.Input.trail (h : Solver.Input env F s) : InputTrail F s := by
  induction h with
  | new => exact ⟨rfl, rfl, List.Sublist.refl _⟩
  | proof _ ih => exact ⟨ih.fixed, ih.level, ih.steps⟩
  | @add F s s' c h hc e ih =>
    unfold Solver.addClause at e
    obtain ⟨s1, e2, e⟩ := bind_eq_ok.1 e
    obtain ⟨⟨ctx, p, r⟩, e3, e⟩ := bind_eq_ok.1 e
    cases e
    have key : InputTrail F s1 := by
      unfold Solver.ensureVars at e2
      split at e2
      · unfold Solver.resize at e2
        obtain ⟨a, _, e2⟩ := bind_eq_ok.1 e2
        cases e2
        exact ⟨ih.fixed, ih.level, ih.steps⟩
      · cases e2
        exact ih
    obtain ⟨h1, h2, h3⟩ := addClauseVerbatim_trail e3
    refine ⟨by rw [h1]; exact key.fixed, by simp only [h2]; exact key.level, ?_⟩
    have hu : unitLits (F ++ [c]) = unitLits F ++ unitLits [c] := by
      unfold unitLits; rw [List.filterMap_append]
    simp only
    rw [hu]
    rcases h3 with h3 | ⟨a, rfl, h3⟩
    · rw [h3]
      exact key.steps.trans (List.sublist_append_left _ _)
    · rw [h3, List.map_append]
      exact key.steps.append (List.Sublist.refl _)

/-- The invariant of the search for fixed variables. -/
theorem Solver.Reachable.fixed (h : Solver.Reachable env F s) : FixedInv F s := by
  induction h with
  | input h =>
    have hl := h.trail
    refine ⟨by rw [hl.fixed]; exact Nat.zero_le _, ?_, ?_⟩
    rotate_left
    · rintro u (hn | hn)
      · exact (hn.sublist hl.steps).sublist (List.drop_sublist _ _)
      · rw [List.drop_eq_nil_of_le (Nat.le_trans hl.steps.length_le hn)]
        exact List.nodup_nil
    intro h0
    unfold Trail.decisionLevel at h0
    have := hl.level
    omega
  | @restart s s' h e ih =>
    obtain ⟨L, S, hi⟩ := h.inv
    obtain ⟨s2, e2, _, hc⟩ := maybeRestart_spec hi
    cases e.symm.trans e2
    rcases hc with ⟨_, rfl⟩ | ⟨_, h2, _⟩
    · exact ih
    · obtain ⟨ctx', s3, e3, _, h4, h5, _, h6⟩ := restart_spec hi
      rw [h2] at e3
      simp only [Except.ok.injEq, Prod.mk.injEq] at e3
      obtain ⟨e3, e4⟩ := e3
      subst e4
      have hctx : s'.ctx.prop.fixedVars = s.ctx.prop.fixedVars := by rw [e3, h4]
      rcases h6 with ⟨_, h6⟩ | ⟨target, ht, b⟩
      · exact ⟨by rw [hctx, h6]; exact ih.le, fun h => absurd h5 h,
          fun u hn => by rw [h6]; exact ih.nodup u hn⟩
      · have hs : s'.search.prop.trail.steps = s.search.prop.trail.steps.take target := by
          rw [b.trail]; rfl
        refine ⟨?_, fun h => absurd h5 h, ?_⟩
        · rw [hctx, hs, hi.prop.trail.topSteps_cut ht]; exact ih.le
        · intro u hn
          rw [hs, List.map_take]
          exact drop_take_nodup (ih.nodup u hn)
  | @reduce s s' h e ih =>
    obtain ⟨L, S, hi⟩ := h.inv
    obtain ⟨s2, e2, _, hc⟩ := maybeReduce_spec hi
    cases e.symm.trans e2
    rcases hc with ⟨_, rfl⟩ | ⟨_, h2, _⟩
    · exact ih
    · obtain ⟨ctx', s3, L', D, S', e3, _, q, _⟩ := reduce_inv hi
      rw [h2] at e3
      simp only [Except.ok.injEq, Prod.mk.injEq] at e3
      obtain ⟨a, ha⟩ := q.eq
      have h1 : s'.ctx.prop = s.ctx.prop := by rw [e3.1]; exact q.del.prop
      have h2 : s'.search.prop.trail = s.search.prop.trail := by rw [e3.2, ha]
      exact ⟨by rw [h1, h2]; exact ih.le, by rw [h1, h2]; exact ih.eq, by rw [h2]; exact ih.nodup⟩
  | @step s ctx search r h e ih =>
    obtain ⟨L', S', hi'⟩ := (Solver.Reachable.step h e).inv
    obtain ⟨L, S, hi⟩ := h.inv
    -- the states after propagation
    have prop : ∀ {p1 p : PropState} {ctx1 : Ctx} {r : Option ConflictClause},
        Solver.Propagating env F s p1 ctx1 p r →
        ctx1.prop.fixedVars ≤ topSteps p.trail.steps ∧
        (r = none ∨ p.trail.decisionLevel ≠ 0 → ctx1.prop.fixedVars = topSteps p.trail.steps) ∧
        (∀ u, ((unitLits F).Nodup ∨ (unitLits F).length ≤ u) →
          ((p.trail.steps.map Step.lit).drop u).Nodup) := by
      intro p1 p ctx1 r hp
      obtain ⟨new, k1, k2, k3, k4⟩ := hp.keys
      obtain ⟨f1, f2⟩ := hp.fixed
      obtain ⟨_, _, S2, _, q⟩ := hp.phase
      have hlev : p.trail.decisionLevel = s.search.prop.trail.decisionLevel := by
        unfold Trail.decisionLevel; rw [k3]
      have ht := topSteps_keys k1
      rw [topSteps_append] at ht
      by_cases h0 : p.trail.decisionLevel = 0
      · cases r with
        | none =>
          have := f2 rfl h0
          have := q.inv.trail.all_top h0
          exact ⟨by omega, fun _ => by omega, fun u hn => k4 u (ih.nodup u hn)⟩
        | some c =>
          have := f1 (.inl (by simp))
          have := ih.le
          exact ⟨by omega, fun h => absurd h0 (by simpa using h), fun u hn => k4 u (ih.nodup u hn)⟩
      · have h1 := f1 (.inr h0)
        have h2 := ih.eq (by omega)
        have h3 := topSteps_high (a := new) (fun st hst => by rw [k2 st hst]; omega)
        exact ⟨by omega, fun _ => by omega, fun u hn => k4 u (ih.nodup u hn)⟩
    cases searchStep_cases h e with
    | already => exact ih
    | @fail _ p _ _ hp h0 =>
      obtain ⟨q1, q2, q3⟩ := prop hp
      exact ⟨q1, fun h => absurd h0 h, q3⟩
    | sat hp =>
      obtain ⟨q1, q2, q3⟩ := prop hp
      exact ⟨q1, fun _ => q2 (.inl rfl), q3⟩
    | @learn p1 p p' ctx1 ctx' c an cb hp h0 e' =>
      obtain ⟨q1, q2, q3⟩ := prop hp
      obtain ⟨S2, S', C, lvl, target, hip, A⟩ := hp.analyze h0 e'
      obtain ⟨a, rest, reason, hC, _, ht, _⟩ := A.trail
      have hf : ctx.prop.fixedVars = ctx1.prop.fixedVars := by rw [A.prop]; rfl
      have hs : p'.trail.steps = p.trail.steps.take target ++ [⟨a, lvl, reason⟩] := by rw [ht]; rfl
      have htop := hip.trail.topSteps_cut A.cutpos
      have hlvl := A.level
      refine ⟨?_, ?_, ?_⟩
      · simp only [hs, topSteps_append]; omega
      · intro hl
        simp only at hl
        simp only [hs, topSteps_append]
        rw [topSteps_high (a := [⟨a, lvl, reason⟩]) (by simp; omega)]
        have := q2 (.inr h0)
        omega
      · intro u hn
        simp only [hs, List.map_append]
        refine drop_append_nodup (by rw [List.map_take]; exact drop_take_nodup (q3 u hn)) (by simp) ?_
        intro x hx y hy
        simp at hy
        subst hy
        rintro rfl
        obtain ⟨st, hst, e1⟩ := List.mem_map.1 hx
        obtain ⟨k, u, rest', hC', hu, _⟩ := A.asserting.head
        rw [hC] at hC'
        injection hC' with e2 _
        exact hip.trail.not_both (List.mem_of_mem_take hst) (List.mem_iff_getElem?.2 ⟨k, hu⟩)
          (e1.trans e2)
    | @decide p1 p p' ctx1 x v l hp _ _ e' =>
      obtain ⟨q1, q2, q3⟩ := prop hp
      have hs : p'.trail.steps = p.trail.steps ++ [⟨l, p.trail.decisions.length, .decision⟩] := by
        unfold PropState.assignDecision PropState.assign at e'
        simp only at e'
        obtain ⟨_, _, e'⟩ := bind_eq_ok.1 e'
        obtain ⟨_, _, e'⟩ := bind_eq_ok.1 e'
        unfold PropState.assignUnit at e'
        simp only at e'
        split at e'
        rotate_left
        · cases e'
        obtain ⟨_, _, e'⟩ := bind_eq_ok.1 e'
        obtain ⟨_, _, e'⟩ := bind_eq_ok.1 e'
        cases e'
        simp [Trail.decisionLevel]
      obtain ⟨_, _, S2, _, q⟩ := hp.phase
      have hd := q.inv.trail.decisions_pos
      have h1 : topSteps p'.trail.steps = topSteps p.trail.steps := by
        rw [hs, topSteps_append, topSteps_high (a := [⟨l, p.trail.decisions.length, .decision⟩])
          (by simp only [List.mem_singleton]; rintro _ rfl; simp only; omega), Nat.add_zero]
      refine ⟨by simp only [h1]; exact q1, fun _ => by simp only [h1]; exact q2 (.inl rfl), ?_⟩
      intro u hn
      simp only [hs, List.map_append]
      refine drop_append_nodup (q3 u hn) (by simp) ?_
      intro x hx y hy
      simp at hy
      intro hxy
      obtain ⟨st, hst, e1⟩ := List.mem_map.1 hx
      replace e1 := (e1.trans hxy).trans hy
      obtain ⟨i, hi1⟩ := List.mem_iff_getElem?.1 hst
      have hlt := (List.getElem?_eq_some_iff.1 hi1).1
      have hp' : PInv _ _ p' := hi'.prop
      have a1 : p'.trail.steps[p.trail.steps.length]? = some ⟨l, p.trail.decisions.length, .decision⟩ := by
        rw [hs]; simp
      have a2 : p'.trail.steps[i]? = some st := by
        rw [hs, List.getElem?_append_left hlt]; exact hi1
      have := (hp'.pos_unique a1 a2 e1 (by simp only; omega)).1
      omega

/-- At the end of a run that found the formula satisfiable, the number of fixed variables is current. -/
theorem Solver.Reachable.fixed_sat (h : Solver.Reachable env F s) {ctx : Ctx} {search : Search}
    (e : searchStep env s.ctx s.search = .ok (ctx, search, some true)) :
    ctx.prop.fixedVars = topSteps search.prop.trail.steps := by
  obtain ⟨L, S, hi⟩ := (Solver.Reachable.step h e).inv
  have hf := (Solver.Reachable.step h e).fixed
  cases searchStep_cases h e with
  | @sat p1 p _ v hp =>
    by_cases h0 : p.trail.decisionLevel = 0
    · simp only
      rw [hp.fixed.2 rfl h0, hi.prop.trail.all_top h0]
    · exact hf.eq h0

/-- The variables with a top-level assignment. -/
def IsFixed (s : Search) (x : Nat) : Prop := ∃ st ∈ s.prop.trail.steps, st.level = 0 ∧ st.lit.index = x

/-! ## C50 -/

/-- C50, for formulas in which no unit clause is repeated (`C50_underflow` for the others): the fixed
variables that a report counts are variables with a top-level assignment, all of them when a decision was
made since the last propagation at the top level or when the formula was found satisfiable, and the number
of other variables and its percentage are printed without overflow. -/
theorem C50_report_partial (hF : (unitLits F).Nodup) (h : Solver.Reachable env F s) :
    ∃ xs : List Nat, xs.Nodup ∧ (∀ x, x ∈ xs ↔ IsFixed s.search x) ∧ xs.length ≤ formulaVars F ∧
      s.ctx.prop.fixedVars ≤ xs.length ∧
      (s.search.prop.trail.decisionLevel ≠ 0 → s.ctx.prop.fixedVars = xs.length) ∧
      (∀ s0, Solver.Reachable env F s0 →
        searchStep env s0.ctx s0.search = .ok (s.ctx, s.search, some true) →
        s.ctx.prop.fixedVars = xs.length) ∧
      (report s.ctx).varsLeft.toNat = formulaVars F - s.ctx.prop.fixedVars ∧
      (report s.ctx).percent.toNat =
        (formulaVars F - s.ctx.prop.fixedVars) * 100 / max (formulaVars F) 1 ∧
      (report s.ctx).percent.toNat ≤ 100 := by
  obtain ⟨L, S, hi⟩ := h.inv
  have hf := h.fixed
  have hlits := hf.nodup 0 (.inl hF)
  rw [List.drop_zero] at hlits
  have hx : ((s.search.prop.trail.steps.filter (fun st => decide (st.level = 0))).map
      (fun st => st.lit.index)).Nodup := by
    rw [List.nodup_iff_pairwise_ne, List.pairwise_map]
    have h1 := List.pairwise_map.1 (List.nodup_iff_pairwise_ne.1 hlits)
    refine ((List.Pairwise.filter _ h1).imp_of_mem ?_)
    intro a b ha hb hab e
    rcases Lit.eq_or_eq_neg e with h2 | h2
    · exact hab h2
    · exact hi.prop.trail.not_both (List.mem_filter.1 ha).1 (List.mem_filter.1 hb).1 h2
  have hlen : ((s.search.prop.trail.steps.filter (fun st => decide (st.level = 0))).map
      (fun st => st.lit.index)).length = topSteps s.search.prop.trail.steps := by
    rw [List.length_map]; rfl
  have hmem : ∀ x, x ∈ (s.search.prop.trail.steps.filter (fun st => decide (st.level = 0))).map
      (fun st => st.lit.index) ↔ IsFixed s.search x := by
    intro x
    simp only [List.mem_map, List.mem_filter, decide_eq_true_eq, IsFixed]
    exact ⟨fun ⟨st, ⟨a, b⟩, c⟩ => ⟨st, a, b, c⟩, fun ⟨st, a, b, c⟩ => ⟨st, ⟨a, b⟩, c⟩⟩
  have hle : topSteps s.search.prop.trail.steps ≤ formulaVars F := by
    rw [← hlen]
    have hsub : (s.search.prop.trail.steps.filter (fun st => decide (st.level = 0))).map
        (fun st => st.lit.index) ⊆ List.range (formulaVars F) := by
      intro x hx
      obtain ⟨st, h1, _, rfl⟩ := (hmem x).1 hx
      exact List.mem_range.2 (hi.prop.trail.idx_lt st h1)
    have := (List.subperm_of_subset hx hsub).length_le
    simpa using this
  have hn := hi.prop.sized.n_le
  rw [MAX_INDEX_eq] at hn
  have hl := hf.le
  have h1 : (report s.ctx).varsLeft.toNat = formulaVars F - s.ctx.prop.fixedVars := by
    unfold report
    simp only [hi.stats.vars, BitVec.toNat_sub, BitVec.toNat_ofNat]
    omega
  have h2 : (report s.ctx).percent.toNat =
      (formulaVars F - s.ctx.prop.fixedVars) * 100 / max (formulaVars F) 1 := by
    have : (report s.ctx).percent = (report s.ctx).varsLeft * 100 /
        BitVec.ofNat 64 (max (formulaVars F) 1) := by
      unfold report; simp only [hi.stats.vars]
    rw [this, BitVec.toNat_udiv, BitVec.toNat_mul, h1, BitVec.toNat_ofNat,
      Nat.mod_eq_of_lt (a := max (formulaVars F) 1) (by omega)]
    congr 1
    show _ * 100 % 2 ^ 64 = _
    omega
  refine ⟨_, hx, hmem, by omega, by omega, fun h0 => by rw [hf.eq h0]; omega, ?_, h1, h2, ?_⟩
  · intro s0 hr e
    rw [hr.fixed_sat e, hlen]
  · rw [h2]
    refine Nat.div_le_of_le_mul ?_
    have : formulaVars F - s.ctx.prop.fixedVars ≤ max (formulaVars F) 1 := by omega
    exact Nat.mul_le_mul_right _ this

/-- C50, propagations: a call of `propagate()` that ends without a conflict counts every assignment that
was on the trail and not yet propagated or was made by the call; a call that ends in a conflict counts
nothing. -/
theorem C50_propagations (h : Solver.Propagating env F s p1 ctx p r) :
    (r = none → ctx.prop.propagations + s.search.prop.trail.propagated =
      s.ctx.prop.propagations + p.trail.steps.length) ∧
    (r ≠ none → ctx.prop.propagations = s.ctx.prop.propagations) := by
  obtain ⟨L, S, hi⟩ := h.reach.inv
  obtain ⟨_, S1, hp1, _, hx, S2, _, hinv, hnone, _⟩ := h.inv
  have hpr : p1.trail.propagated = s.search.prop.trail.propagated := by
    rcases (collectGarbage_spec hi.prop).ok_elim h.gc with rfl | ⟨ρ, hg⟩
    · rfl
    · obtain ⟨a, rfl⟩ := hg.eq; rfl
  have e := h.prop
  unfold propagate at e
  have he : enableWatchLists p1 true = .ok p1 := by
    unfold enableWatchLists
    rw [if_pos hp1.enabled]; rfl
  rw [he, bind_ok] at e
  obtain ⟨⟨p3, r3⟩, _, e⟩ := bind_eq_ok.1 e
  cases r3 with
  | some c => cases e; exact ⟨by simp, fun _ => rfl⟩
  | none =>
    obtain ⟨_, _, e⟩ := bind_eq_ok.1 e
    simp only [pure_eq, Except.ok.injEq, Prod.mk.injEq] at e
    obtain ⟨rfl, rfl, rfl⟩ := e
    refine ⟨fun _ => ?_, by simp⟩
    have h1 := hnone rfl
    have h2 := hx.prop
    split <;> (simp only; omega)

/-- C50 fails when a unit clause is repeated: both copies are counted as fixed variables, and the number
of other variables is printed as 2 ^ 64 - 1 (a debug build panics). -/
theorem C50_underflow : ∃ s, Solver.Reachable Example.env (Example.cnf [[1], [1]]) s ∧
    s.ctx.prop.fixedVars = 2 ∧ formulaVars (Example.cnf [[1], [1]]) = 1 ∧
    (report s.ctx).varsLeft.toNat = 2 ^ 64 - 1 := by
  have h : (do
      let s ← Example.after [[1], [1]] 1
      pure (s.ctx.prop.fixedVars, (report s.ctx).varsLeft.toNat) : M (Nat × Nat)) =
      .ok (2, 2 ^ 64 - 1) := by
    decide +kernel
  obtain ⟨s, h1, h2⟩ := bind_eq_ok.1 h
  have h2 := Except.ok.inj h2
  simp only [Prod.mk.injEq] at h2
  exact ⟨s, Example.after_reachable (by decide +kernel) h1, h2.1, by decide +kernel, h2.2⟩

/-- The two cases of `C50_propagations`: a call that counts the four assignments it propagates, and a call
that makes five assignments and counts none. -/
theorem C50_propagations_example :
    (∃ s p1 ctx p, Solver.Propagating Example.env (Example.cnf (Example.php 4 3)) s p1 ctx p none ∧
      s.search.prop.trail.propagated = 2 ∧ p.trail.steps.length = 6 ∧
      s.ctx.prop.propagations = 2 ∧ ctx.prop.propagations = 6) ∧
    (∃ s p1 ctx p c, Solver.Propagating Example.env (Example.cnf (Example.php 4 3)) s p1 ctx p (some c) ∧
      s.search.prop.trail.steps.length = 7 ∧ p.trail.steps.length = 12 ∧
      s.ctx.prop.propagations = 6 ∧ ctx.prop.propagations = 6) := by
  constructor
  · have h : (do
        let (s, _, ctx, p, r) ← Example.mid (Example.php 4 3) 3
        pure (r.isNone, s.search.prop.trail.propagated, p.trail.steps.length, s.ctx.prop.propagations,
          ctx.prop.propagations) : M (Bool × Nat × Nat × Nat × Nat)) = .ok (true, 2, 6, 2, 6) := by
      decide +kernel
    obtain ⟨⟨s, p1, ctx, p, r⟩, h1, h2⟩ := bind_eq_ok.1 h
    have h2 := Except.ok.inj h2
    simp only [Prod.mk.injEq] at h2
    obtain rfl := Option.isNone_iff_eq_none.1 h2.1
    exact ⟨s, p1, ctx, p, Example.mid_propagating (by decide +kernel) h1, h2.2⟩
  · have h : (do
        let (s, _, ctx, p, r) ← Example.mid (Example.php 4 3) 4
        pure (r.isSome, s.search.prop.trail.steps.length, p.trail.steps.length, s.ctx.prop.propagations,
          ctx.prop.propagations) : M (Bool × Nat × Nat × Nat × Nat)) = .ok (true, 7, 12, 6, 6) := by
      decide +kernel
    obtain ⟨⟨s, p1, ctx, p, r⟩, h1, h2⟩ := bind_eq_ok.1 h
    have h2 := Except.ok.inj h2
    simp only [Prod.mk.injEq] at h2
    obtain ⟨c, rfl⟩ := Option.isSome_iff_exists.1 h2.1
    exact ⟨s, p1, ctx, p, c, Example.mid_propagating (by decide +kernel) h1, h2.2⟩

/-- A report for C50: five of twelve variables are fixed, and a decision has been made. -/
theorem C50_example : ∃ s, Solver.Reachable Example.env (Example.cnf (Example.php 4 3)) s ∧
    (unitLits (Example.cnf (Example.php 4 3))).Nodup ∧ s.search.prop.trail.decisionLevel = 1 ∧
    s.ctx.prop.fixedVars = 5 ∧ (report s.ctx).varsLeft = 7 ∧ (report s.ctx).percent = 58 := by
  have h : (do
      let s ← Example.after (Example.php 4 3) 10
      pure (s.search.prop.trail.decisionLevel, s.ctx.prop.fixedVars, (report s.ctx).varsLeft,
        (report s.ctx).percent) : M (Nat × Nat × BitVec 64 × BitVec 64)) = .ok (1, 5, 7, 58) := by
    decide +kernel
  obtain ⟨s, h1, h2⟩ := bind_eq_ok.1 h
  have h2 := Except.ok.inj h2
  simp only [Prod.mk.injEq] at h2
  exact ⟨s, Example.after_reachable (by decide +kernel) h1, by decide +kernel, h2⟩

end

end Starlit
