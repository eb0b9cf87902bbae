import Verif.Props.Stats
import Verif.Props.Termination

/-!
# C56: positions and levels fit into 32 bits
-/

namespace Starlit

section
variable {env : Env} {F : List (List Lit)} {s : Solver} {p1 p : PropState} {ctx : Ctx}
  {r : Option ConflictClause}

theorem Solver.Input.vars_le (h : Solver.Input env F s) : formulaVars F ≤ 2 ^ 30 := by
  induction h with
  | new => simp [formulaVars]
  | proof _ ih => exact ih
  | @add F s s' c h hc e ih =>
    have e1 : formulaVars (F ++ [c]) = max (formulaVars F) (Solver.varCount c) := by
      simp [formulaVars]
    have := varCount_le hc
    rw [MAX_INDEX_eq] at this
    omega

theorem Solver.Reachable.vars_le (h : Solver.Reachable env F s) : formulaVars F ≤ 2 ^ 30 := by
  induction h with
  | input h => exact h.vars_le
  | restart _ _ ih => exact ih
  | reduce _ _ ih => exact ih
  | step _ _ ih => exact ih

/-- A trail without repetitions, apart from the first entries. -/
theorem TrailInv.length_le {n u : Nat} {values : PartialAssignment} {t : Trail} (h : TrailInv n values t)
    (hn : ((t.steps.map Step.lit).drop u).Nodup) : t.steps.length ≤ n + u := by
  have h1 : (((t.steps.drop u).map Step.lit).map Lit.index).Nodup := by
    rw [← List.map_drop] at hn
    refine List.Nodup.map_on ?_ hn
    intro x hx y hy e
    obtain ⟨a, ha, rfl⟩ := List.mem_map.1 hx
    obtain ⟨b, hb, rfl⟩ := List.mem_map.1 hy
    exact (Lit.eq_or_eq_neg e).resolve_right
      (h.not_both (List.mem_of_mem_drop ha) (List.mem_of_mem_drop hb))
  have h2 : (((t.steps.drop u).map Step.lit).map Lit.index) ⊆ List.range n := by
    intro x hx
    obtain ⟨l, hl, rfl⟩ := List.mem_map.1 hx
    obtain ⟨a, ha, rfl⟩ := List.mem_map.1 hl
    exact List.mem_range.2 (h.idx_lt a (List.mem_of_mem_drop ha))
  have := (h1.subperm h2).length_le
  simp at this
  omega

/-- The bounds. -/
structure TrailRange (F : List (List Lit)) (t : Trail) : Prop where
  level : t.decisions.length ≤ formulaVars F + 1
  steps : t.steps.length ≤ formulaVars F + (unitLits F).length
  nonempty : 0 < t.decisions.length
  decisions : ∀ d ∈ t.decisions, d ≤ t.steps.length
  index : ∀ st ∈ t.steps, ∃ i, t.trailIndex[st.lit.index]? = some i ∧ i < t.steps.length
  propagated : t.propagated ≤ t.steps.length

theorem TrailInv.range {values : PartialAssignment} {t : Trail} (h : TrailInv (formulaVars F) values t)
    (hn : ((t.steps.map Step.lit).drop (unitLits F).length).Nodup) : TrailRange F t := by
  refine ⟨?_, h.length_le hn, h.decisions_pos, ?_, ?_, h.prop_le⟩
  · have := h.level_le_vars
    unfold Trail.decisionLevel at this
    omega
  · intro d hd
    obtain ⟨k, hk⟩ := List.mem_iff_getElem?.1 hd
    rcases Nat.eq_zero_or_pos k with rfl | h0
    · rw [h.dec0] at hk; cases hk; exact Nat.zero_le _
    · obtain ⟨st, hs, _⟩ := h.decs k d h0 hk
      exact Nat.le_of_lt (List.getElem?_eq_some_iff.1 hs).1
  · intro st hst
    obtain ⟨i, hi⟩ := List.mem_iff_getElem?.1 hst
    obtain ⟨j, st', h1, h2, _⟩ := h.tix i st hi
    exact ⟨j, h1, (List.getElem?_eq_some_iff.1 h2).1⟩

/-- C56: between the parts of a run and after propagation, the decision level is at most the number of
variables and the length of the trail at most the number of variables plus the number of unit clauses;
there is always a level to subtract 1 from. -/
theorem C56_range (h : Solver.Reachable env F s) : TrailRange F s.search.prop.trail ∧
    ∀ {p1 p : PropState} {ctx : Ctx} {r : Option ConflictClause},
      Solver.Propagating env F s p1 ctx p r → TrailRange F p.trail := by
  obtain ⟨L, S, hi⟩ := h.inv
  have hn := h.fixed.nodup (unitLits F).length (.inr (Nat.le_refl _))
  refine ⟨hi.prop.trail.range hn, ?_⟩
  intro p1 p ctx r hp
  obtain ⟨_, _, _, _, _, S2, _, hinv, _⟩ := hp.inv
  obtain ⟨_, _, _, _, k⟩ := hp.keys
  exact hinv.trail.range (k _ hn)

/-- C56, in numbers: with fewer than `2^31` unit clauses every trail position, every decision level and the
length of the trail are below `UNASSIGNED`, which marks a missing index and is a 32-bit number itself, so that the
casts to `u32` (`/repo/starlit/src/prop/trail.rs:167, 233, 246`) are exact. -/
theorem C56_u32 (hF : (unitLits F).length < 2 ^ 31) (h : Solver.Propagating env F s p1 ctx p r) :
    UNASSIGNED < 2 ^ 32 ∧ p.trail.steps.length < UNASSIGNED ∧ p.trail.decisions.length < UNASSIGNED ∧
    (∀ d ∈ p.trail.decisions, d < UNASSIGNED) ∧
    (∀ st ∈ p.trail.steps, st.level < UNASSIGNED ∧ ∃ i, p.trail.trailIndex[st.lit.index]? = some i ∧
      i < UNASSIGNED) := by
  rw [show UNASSIGNED = 2 ^ 32 - 1 from rfl]
  have hr := (C56_range h.reach).2 h
  have hv := h.reach.vars_le
  have h1 := hr.steps
  have h2 := hr.level
  obtain ⟨_, _, _, _, _, S2, _, hinv, _⟩ := h.inv
  refine ⟨by omega, by omega, by omega, fun d hd => ?_, fun st hst => ⟨?_, ?_⟩⟩
  · have := hr.decisions d hd; omega
  · obtain ⟨i, hi⟩ := List.mem_iff_getElem?.1 hst
    have := hinv.trail.level_le i st hi
    unfold Trail.decisionLevel at this
    omega
  · obtain ⟨i, h3, h4⟩ := hr.index st hst
    exact ⟨i, h3, by omega⟩

/-- A state for C56 after propagation, with a repeated unit clause: the trail is longer than the number of
variables, and its length 6 is within the bound 4 + 3. -/
theorem C56_example : ∃ s p1 ctx p r,
    Solver.Propagating Example.env (Example.cnf [[1], [1], [1], [-1, 2], [-2, 3, 4]]) s p1 ctx p r ∧
    (unitLits (Example.cnf [[1], [1], [1], [-1, 2], [-2, 3, 4]])).length = 3 ∧
    formulaVars (Example.cnf [[1], [1], [1], [-1, 2], [-2, 3, 4]]) = 4 ∧
    p.trail.steps.length = 6 ∧ p.trail.decisions = [0, 4] := by
  have h : (do
      let (_, _, _, p, _) ← Example.mid [[1], [1], [1], [-1, 2], [-2, 3, 4]] 1
      pure (p.trail.steps.length, p.trail.decisions) : M (Nat × List Nat)) = .ok (6, [0, 4]) := by
    decide +kernel
  obtain ⟨⟨s, p1, ctx, p, r⟩, h1, h2⟩ := bind_eq_ok.1 h
  have h2 := Except.ok.inj h2
  simp only [Prod.mk.injEq] at h2
  exact ⟨s, p1, ctx, p, r, Example.mid_propagating (by decide +kernel) h1, by decide +kernel,
    by decide +kernel, h2⟩

end

end Starlit
