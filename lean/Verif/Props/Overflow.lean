import Verif.Props.Effort
import Verif.Props.Schedule

/-!
# C64: no 64-bit counter overflows

The counters of the model are natural numbers, those of the code are `u64` (`stats.rs`, `prop.rs:42-66`,
`search.rs:132-141`, `state.rs:45-51`, `state/luby.rs:6-9`); `vars` and `fixed_vars` are `usize`.  A counter that is
below `2^64` in every state was never wrapped around, and its additions do not panic in a build with overflow
checks.
-/

namespace Starlit

section
variable {env : Env} {F : List (List Lit)} {s s' : Solver}

/-- There are at most as many learned clauses as conflicts. -/
theorem Solver.Reachable.learnedCard (h : Solver.Reachable env F s) : ∃ L S,
    SInv env (formulaVars F) (toDB F) L S s.ctx s.search ∧ Multiset.card L ≤ s.ctx.search.conflicts := by
  induction h with
  | input h =>
    obtain ⟨S, hi⟩ := h.inv
    exact ⟨0, S, hi.sinv, Nat.zero_le _⟩
  | @restart s s' hr e ih =>
    obtain ⟨L, S, hi, ih⟩ := ih
    refine ⟨L, S, ?_⟩
    obtain ⟨s1, e1, hi', _⟩ := maybeRestart_spec hi
    cases e.symm.trans e1
    refine ⟨hi', ?_⟩
    rcases C55_restart hr e with ⟨_, rfl⟩ | ⟨_, _, _, h1, _⟩
    · exact ih
    · rw [h1]; exact ih
  | @reduce s s' hr e ih =>
    obtain ⟨L, S, hi, ih⟩ := ih
    obtain ⟨s1, e1, _, hcase⟩ := maybeReduce_spec hi
    cases e.symm.trans e1
    rcases hcase with ⟨_, rfl⟩ | ⟨_, h2, _⟩
    · exact ⟨L, S, hi, ih⟩
    obtain ⟨ctx', t, L', D, S', e2, hi', q, _⟩ := reduce_inv hi
    rw [h2] at e2
    simp only [Except.ok.injEq, Prod.mk.injEq] at e2
    obtain ⟨K, hK, _⟩ := q.del.split
    refine ⟨L', S', by rw [e2.1, e2.2]; exact hi', ?_⟩
    have hs : s'.ctx.search.conflicts = s.ctx.search.conflicts := by rw [e2.1, q.del.search]
    rw [hs]
    rw [hK, Multiset.card_add] at ih
    omega
  | @step s ctx search r hr e ih =>
    obtain ⟨L, S, hi, ih⟩ := ih
    obtain ⟨L', S', hi', post⟩ := (searchStep_spec hi).ok_elim e
    refine ⟨L', S', hi', ?_⟩
    simp only
    cases post with
    | already => exact ih
    | fail hu q h0 h1 h2 => rw [h1]; simp only; omega
    | decide hu q hx hun hph pp h1 h2 => rw [h1]; exact ih
    | sat hu q hall pp h1 h2 => rw [h1]; exact ih
    | learn hu q h0 h1 h2 A =>
      rw [A.search, h1, Multiset.card_cons]; simp only; omega

/-- What is known of the schedule. -/
structure ScheduleInv (env : Env) (s : Solver) : Prop where
  luby : s.schedule.luby = Luby.after s.ctx.search.restarts
  restart : s.schedule.nextRestart ≤ s.ctx.search.conflicts + 512 * s.ctx.search.restarts
  reductions : s.schedule.reductions = s.ctx.search.reductions
  reduce : s.schedule.nextReduce = reduceThreshold env s.ctx.search.reductions
  last : s.ctx.search.reductions ≠ 0 → reduceThreshold env (s.ctx.search.reductions - 1) ≤ s.ctx.search.conflicts

theorem Luby.after_v_le (k : Nat) : (Luby.after k).v ≤ k + 1 := by
  have h1 := (Luby.inv_after k).le
  have h2 := Luby.lowBit_le _ (Luby.inv_after k).u_pos
  have h3 := Luby.u_le k
  omega

theorem Solver.Reachable.scheduleInv (h : Solver.Reachable env F s) : ScheduleInv env s := by
  induction h with
  | @input s h =>
    have hst := h.start
    refine ⟨?_, ?_, ?_, ?_, ?_⟩ <;> rw [hst.search] <;> try rw [hst.schedule]
    · rfl
    · exact Nat.le_refl _
    · rfl
    · intro h; exact absurd rfl h
  | @restart s s' hr e ih =>
    obtain ⟨L, S, hi⟩ := hr.inv
    obtain ⟨s1, e1, _, hc⟩ := maybeRestart_spec hi
    cases e.symm.trans e1
    rcases hc with ⟨_, rfl⟩ | ⟨_, _, h3⟩
    · exact ih
    rcases C55_restart hr e with ⟨h4, _⟩ | ⟨_, _, h5, h6, _, h7, _⟩
    · omega
    have hv : s.schedule.luby.advance.1 = s.schedule.luby.v := by
      unfold Luby.advance; split <;> rfl
    refine ⟨?_, ?_, ?_, ?_, ?_⟩ <;> simp only [h3, h5, h6, h7]
    · rw [Luby.after_succ, ih.luby]
    · have := Luby.after_v_le s.ctx.search.restarts
      rw [hv, ih.luby]
      omega
    · exact ih.reductions
    · exact ih.reduce
    · exact ih.last
  | @reduce s s' hr e ih =>
    obtain ⟨L, S, hi⟩ := hr.inv
    obtain ⟨s1, e1, _, hc⟩ := maybeReduce_spec hi
    cases e.symm.trans e1
    rcases hc with ⟨_, rfl⟩ | ⟨h2, _, h3⟩
    · exact ih
    rcases C55_reduce hr e with ⟨h4, _⟩ | ⟨_, _, _, h5, _, h6, _, h7, _⟩
    · omega
    refine ⟨?_, ?_, ?_, ?_, ?_⟩ <;> simp only [h3, h5, h6, h7]
    · exact ih.luby
    · exact ih.restart
    · rw [ih.reductions]
    · unfold reduceThreshold
      rw [Finset.sum_range_succ, ih.reduce, ih.reductions]; rfl
    · intro _
      rw [Nat.add_sub_cancel, ← ih.reduce]
      exact h2
  | @step s ctx search r hr e ih =>
    have key : ctx.search.restarts = s.ctx.search.restarts ∧ ctx.search.reductions = s.ctx.search.reductions ∧
        s.ctx.search.conflicts ≤ ctx.search.conflicts := by
      cases searchStep_cases hr e with
      | already => exact ⟨rfl, rfl, Nat.le_refl _⟩
      | fail hp => simp [Ctx.conflict, hp.search]
      | learn hp h0 e9 =>
        obtain ⟨_, _, _, _, _, _, A⟩ := hp.analyze h0 e9
        rw [A.search]
        simp [Ctx.conflict, hp.search]
      | decide hp => simp [Ctx.decision, hp.search]
      | sat hp => rw [hp.search]; exact ⟨rfl, rfl, Nat.le_refl _⟩
    obtain ⟨k1, k2, k3⟩ := key
    have i2 := ih.restart
    have i5 := ih.last
    refine ⟨?_, ?_, ?_, ?_, ?_⟩ <;> simp only [k1, k2]
    · exact ih.luby
    · omega
    · exact ih.reductions
    · exact ih.reduce
    · intro h; have := i5 h; omega

theorem unitLits_length (F : List (List Lit)) : (unitLits F).length ≤ F.length := List.length_filterMap_le _ _

/-- C64, bounds: in every state of every run, all counters but those of the reductions are bounded by the number of
conflicts, the number of variables and the number of clauses of the formula.  The number of reductions `r` is such
that the first `r - 1` intervals fit into the number of conflicts. -/
theorem C64_bounds (h : Solver.Reachable env F s) :
    s.ctx.search.restarts ≤ s.ctx.search.conflicts / 512 + 1 ∧
    s.ctx.search.decisions ≤ formulaVars F * (s.ctx.search.conflicts + s.ctx.search.conflicts / 512 + 2) ∧
    s.ctx.prop.propagations ≤
      formulaVars F * (s.ctx.search.conflicts + s.ctx.search.conflicts / 512 + 2) + F.length ∧
    s.ctx.prop.fixedVars ≤ formulaVars F + F.length ∧
    s.ctx.formula.binary ≤ F.length + s.ctx.search.conflicts ∧
    s.ctx.formula.irredundant ≤ F.length ∧
    s.ctx.formula.redundant ≤ s.ctx.search.conflicts ∧
    s.ctx.formula.vars ≤ 2 ^ 30 ∧
    s.schedule.nextRestart ≤ 2 * s.ctx.search.conflicts + 512 ∧
    s.schedule.luby.u ≤ s.ctx.search.conflicts / 512 + 2 ∧
    s.schedule.luby.v ≤ s.ctx.search.conflicts / 512 + 2 ∧
    s.schedule.reductions = s.ctx.search.reductions ∧
    s.schedule.nextReduce = reduceThreshold env s.ctx.search.reductions ∧
    (s.ctx.search.reductions ≠ 0 →
      reduceThreshold env (s.ctx.search.reductions - 1) ≤ s.ctx.search.conflicts) := by
  obtain ⟨L, S, hi, hL⟩ := h.learnedCard
  obtain ⟨h1, h2, h3⟩ := C60_effort h
  have hs := h.scheduleInv
  have hu := unitLits_length F
  have hmul : formulaVars F * (s.ctx.search.conflicts + s.ctx.search.restarts + 1) ≤
      formulaVars F * (s.ctx.search.conflicts + s.ctx.search.conflicts / 512 + 2) :=
    Nat.mul_le_mul_left _ (by omega)
  have hF : Multiset.card (toDB F) = F.length := by simp [toDB]
  refine ⟨h1, h2.trans hmul, by omega, ?_, ?_, ?_, ?_, ?_, ?_, ?_, ?_, hs.reductions, hs.reduce, hs.last⟩
  · have a := h.fixed.le
    have b := hi.prop.trail.length_le (h.fixed.nodup (unitLits F).length (.inr (Nat.le_refl _)))
    have c : topSteps s.search.prop.trail.steps ≤ s.search.prop.trail.steps.length := List.length_filter_le _ _
    omega
  · rw [hi.stats.binary]
    have := Multiset.card_le_card (Multiset.filter_le (fun c : Multiset Lit => c.card = 2) (toDB F + L))
    rw [Multiset.card_add] at this
    omega
  · rw [hi.stats.irredundant]
    have := Multiset.card_le_card (Multiset.filter_le (fun c : Multiset Lit => 3 ≤ c.card) (toDB F))
    omega
  · rw [hi.stats.redundant]
    have := Multiset.card_le_card (Multiset.filter_le (fun c : Multiset Lit => 3 ≤ c.card) L)
    omega
  · rw [hi.stats.vars]
    have := hi.prop.sized.n_le
    rw [MAX_INDEX_eq] at this
    omega
  · have := hs.restart
    omega
  · have := Luby.u_le s.ctx.search.restarts
    rw [hs.luby]
    omega
  · have := Luby.after_v_le s.ctx.search.restarts
    rw [hs.luby]
    omega

/-- The counters of a solver that are 64 bits wide in the code. -/
def counters (s : Solver) : List Nat :=
  [s.ctx.search.decisions, s.ctx.search.conflicts, s.ctx.search.restarts, s.ctx.search.reductions,
    s.ctx.prop.propagations, s.ctx.prop.fixedVars,
    s.ctx.formula.binary, s.ctx.formula.irredundant, s.ctx.formula.redundant, s.ctx.formula.vars,
    s.schedule.nextRestart, s.schedule.luby.u, s.schedule.luby.v, s.schedule.nextReduce, s.schedule.reductions]

theorem reduceThreshold_add {m a k : Nat} (h : ∀ j < k, m ≤ env.reduceInterval (a + j + 1)) :
    reduceThreshold env a + k * m ≤ reduceThreshold env (a + k) := by
  induction k with
  | zero => simp
  | succ k ih =>
    have h1 := ih fun j hj => h j (by omega)
    have h2 := h k (by omega)
    have h3 : reduceThreshold env (a + (k + 1)) = reduceThreshold env (a + k) + env.reduceInterval (a + k + 1) := by
      unfold reduceThreshold
      rw [← Nat.add_assoc, Finset.sum_range_succ]
    rw [h3, Nat.succ_mul]
    omega

end

section
variable {order : List (Nat × Nat) → List (Nat × Nat)} {perm : ∀ l, (order l).Perm l}
  {F : List (List Lit)} {s : Solver}

theorem f32_interval_ge {i : Nat} (h0 : 2 ^ 24 ≤ i) (hi : i < 2 ^ 26) :
    2 ^ 22 ≤ (f32Env order perm).reduceInterval i := by
  show _ ≤ F64.toU64 _
  rw [f64_interval (by omega) hi, Nat.le_sqrt]
  omega

theorem f32_interval_le {i : Nat} (h0 : 0 < i) (hi : i < 2 ^ 26) :
    (f32Env order perm).reduceInterval i ≤ 2 ^ 24 := by
  show F64.toU64 _ ≤ _
  rw [f64_interval h0 hi, ← Nat.lt_succ_iff, Nat.sqrt_lt]
  omega

/-- C64, with the arithmetic of the solver: while there are less than `2^46` conflicts, and the number of conflicts
times the number of variables is small enough, no counter reaches `2^64`. -/
theorem C64_u64 (h : Solver.Reachable (f32Env order perm) F s) (hc : s.ctx.search.conflicts < 2 ^ 46)
    (hF : F.length < 2 ^ 62)
    (hn : formulaVars F * (s.ctx.search.conflicts + s.ctx.search.conflicts / 512 + 2) + F.length < 2 ^ 64) :
    ∀ x ∈ counters s, x < 2 ^ 64 := by
  obtain ⟨h1, h2, h3, h4, h5, h6, h7, h8, h9, h10, h11, h12, h13, h14⟩ := C64_bounds h
  have hr : s.ctx.search.reductions < 2 ^ 26 - 1 := by
    by_contra hr
    have h15 := h14 (by omega)
    have h16 := reduceThreshold_add (env := f32Env order perm) (m := 2 ^ 22) (a := 2 ^ 24) (k := 2 ^ 24)
      (fun j hj => f32_interval_ge (by omega) (by omega))
    have h17 := reduceThreshold_add (env := f32Env order perm) (m := 0) (a := 2 ^ 24 + 2 ^ 24)
      (k := s.ctx.search.reductions - 1 - (2 ^ 24 + 2 ^ 24)) (fun _ _ => Nat.zero_le _)
    rw [show 2 ^ 24 + 2 ^ 24 + (s.ctx.search.reductions - 1 - (2 ^ 24 + 2 ^ 24)) = s.ctx.search.reductions - 1 by
      omega] at h17
    omega
  have hnext : s.schedule.nextReduce ≤ s.ctx.search.conflicts + 2 ^ 24 := by
    rw [h13]
    cases hk : s.ctx.search.reductions with
    | zero => simp [reduceThreshold]
    | succ k =>
      rw [hk] at h14 hr
      have h15 := h14 (by omega)
      have h16 := f32_interval_le (order := order) (perm := perm) (i := k + 1) (by omega) (by omega)
      unfold reduceThreshold at h15 ⊢
      rw [Finset.sum_range_succ]
      simp only [Nat.add_sub_cancel] at h15
      omega
  have hvars : formulaVars F ≤ 2 ^ 30 := by
    obtain ⟨L, S, hi⟩ := h.inv
    have := hi.prop.sized.n_le
    rw [MAX_INDEX_eq] at this
    omega
  intro x hx
  simp only [counters, List.mem_cons, List.not_mem_nil, or_false] at hx
  rcases hx with rfl | rfl | rfl | rfl | rfl | rfl | rfl | rfl | rfl | rfl | rfl | rfl | rfl | rfl | rfl <;> omega

/-- C64, for formulas of any size: up to `2^33` conflicts no counter overflows. -/
theorem C64_any (h : Solver.Reachable (f32Env order perm) F s) (hc : s.ctx.search.conflicts ≤ 2 ^ 33)
    (hF : F.length < 2 ^ 62) : ∀ x ∈ counters s, x < 2 ^ 64 := by
  refine C64_u64 h (by omega) hF ?_
  have hvars : formulaVars F ≤ 2 ^ 30 := by
    obtain ⟨L, S, hi⟩ := h.inv
    have := hi.prop.sized.n_le
    rw [MAX_INDEX_eq] at this
    omega
  have := Nat.mul_le_mul hvars (show s.ctx.search.conflicts + s.ctx.search.conflicts / 512 + 2 ≤
    2 ^ 33 + 2 ^ 24 + 2 by omega)
  omega

end

/-- The hypotheses of C64 are met by a run with 3 conflicts and one reduction. -/
theorem C64_example : ∃ s, Solver.Reachable Example.env32 (Example.cnf (Example.php 4 3)) s ∧
    counters s = [5, 3, 1, 1, 7, 0, 20, 4, 1, 12, 512, 2, 1, 2000, 1] := by
  have h : (do
      let s0 ← (Solver.default Example.env32).addClauses (Example.cnf (Example.php 4 3))
      let (s, _) ← s0.solve Example.env32 8
      pure (counters s) : M (List Nat)) = .ok [5, 3, 1, 1, 7, 0, 20, 4, 1, 12, 512, 2, 1, 2000, 1] := by
    decide +kernel
  obtain ⟨s0, h1, h2⟩ := bind_eq_ok.1 h
  obtain ⟨⟨s, r⟩, h3, h2⟩ := bind_eq_ok.1 h2
  have hin := Solver.Input.addClauses _ (.new (env := Example.env32))
    (Example.ok_valid (F := Example.php 4 3) (by decide +kernel)) h1
  exact ⟨s, (Solver.Reachable.input (by simpa using hin)).solve h3, Except.ok.inj h2⟩

end Starlit
