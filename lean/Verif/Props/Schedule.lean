import Verif.Float64
import Verif.Props.Activity

/-!
# C46: the reduction schedule
-/

namespace Starlit

/-- The states between the iterations of `solve()`, with the numbers of conflicts at which the clause
database was reduced, the last one first. -/
inductive Solver.Reductions (env : Env) (F : List (List Lit)) : Solver → List Nat → Prop
  | input {s : Solver} : Solver.Input env F s → Reductions env F s []
  | same {s s' : Solver} {r : Option Bool} {rs : List Nat} : Reductions env F s rs →
      s.scheduleStep env = .ok (s', r) → s'.ctx.search.reductions = s.ctx.search.reductions →
      Reductions env F s' rs
  | reduce {s s' : Solver} {r : Option Bool} {rs : List Nat} : Reductions env F s rs →
      s.scheduleStep env = .ok (s', r) → s'.ctx.search.reductions ≠ s.ctx.search.reductions →
      Reductions env F s' (s.ctx.search.conflicts :: rs)

/-- The sum of the first `k` intervals. -/
def reduceThreshold (env : Env) (k : Nat) : Nat := ∑ j ∈ Finset.range k, env.reduceInterval (j + 1)

section
variable {env : Env} {F : List (List Lit)} {s s' : Solver}

theorem Solver.Reductions.reachable {rs : List Nat} (h : Solver.Reductions env F s rs) :
    Solver.Reachable env F s := by
  have step : ∀ {s s' : Solver} {r : Option Bool}, Solver.Reachable env F s →
      s.scheduleStep env = .ok (s', r) → Solver.Reachable env F s' := by
    intro s s' r h e
    unfold Solver.scheduleStep at e
    obtain ⟨s1, e1, e⟩ := bind_eq_ok.1 e
    obtain ⟨s2, e2, e⟩ := bind_eq_ok.1 e
    obtain ⟨⟨ctx, search, r'⟩, e3, e⟩ := bind_eq_ok.1 e
    cases e
    exact ((h.restart e1).reduce e2).step e3
  induction h with
  | input h => exact .input h
  | same _ e _ ih => exact step ih e
  | reduce _ e _ ih => exact step ih e

/-- All states between iterations are covered. -/
theorem C46_covers {rs : List Nat} (h : Solver.Reductions env F s rs) {k : Nat} {r : Option Bool}
    (e : s.solve env k = .ok (s', r)) : ∃ rs', Solver.Reductions env F s' rs' := by
  induction k generalizing s rs with
  | zero => cases e; exact ⟨_, h⟩
  | succ k ih =>
    unfold Solver.solve at e
    obtain ⟨⟨s1, r1⟩, e1, e⟩ := bind_eq_ok.1 e
    have h1 : ∃ rs1, Solver.Reductions env F s1 rs1 := by
      by_cases hr : s1.ctx.search.reductions = s.ctx.search.reductions
      · exact ⟨_, h.same e1 hr⟩
      · exact ⟨_, h.reduce e1 hr⟩
    obtain ⟨rs1, h1⟩ := h1
    cases r1 with
    | some b => cases e; exact ⟨_, h1⟩
    | none => exact ih h1 e

/-- What an iteration does to the counters. -/
theorem scheduleStep_counters (h : Solver.Reachable env F s) {r : Option Bool}
    (e : s.scheduleStep env = .ok (s', r)) :
    s.ctx.search.conflicts ≤ s'.ctx.search.conflicts ∧
    s'.ctx.search.conflicts ≤ s.ctx.search.conflicts + 1 ∧
    ((s.ctx.search.conflicts < s.schedule.nextReduce ∧
      s'.ctx.search.reductions = s.ctx.search.reductions ∧
      s'.schedule.reductions = s.schedule.reductions ∧
      s'.schedule.nextReduce = s.schedule.nextReduce) ∨
     (s.schedule.nextReduce ≤ s.ctx.search.conflicts ∧
      s'.ctx.search.reductions = s.ctx.search.reductions + 1 ∧
      s'.schedule.reductions = s.schedule.reductions + 1 ∧
      s'.schedule.nextReduce = s.schedule.nextReduce + env.reduceInterval (s.schedule.reductions + 1))) := by
  unfold Solver.scheduleStep at e
  obtain ⟨s1, e1, e⟩ := bind_eq_ok.1 e
  obtain ⟨s2, e2, e⟩ := bind_eq_ok.1 e
  obtain ⟨⟨ctx, search, r'⟩, e3, e⟩ := bind_eq_ok.1 e
  cases e
  have q1 : s1.ctx.search.conflicts = s.ctx.search.conflicts ∧
      s1.ctx.search.reductions = s.ctx.search.reductions ∧
      s1.schedule.reductions = s.schedule.reductions ∧
      s1.schedule.nextReduce = s.schedule.nextReduce := by
    obtain ⟨L, S, hi⟩ := h.inv
    obtain ⟨s2, e2, _, hc⟩ := maybeRestart_spec hi
    cases e1.symm.trans e2
    rcases hc with ⟨_, rfl⟩ | ⟨_, h2, h3⟩
    · exact ⟨rfl, rfl, rfl, rfl⟩
    · obtain ⟨ctx', s3, e3, _, h4, _⟩ := restart_spec hi
      rw [h2] at e3
      simp only [Except.ok.injEq, Prod.mk.injEq] at e3
      rw [e3.1, h4, h3]
      exact ⟨rfl, rfl, rfl, rfl⟩
  have h1 := h.restart e1
  have h2 := h1.reduce e2
  have q3 : ctx.search.reductions = s2.ctx.search.reductions ∧
      s2.ctx.search.conflicts ≤ ctx.search.conflicts ∧
      ctx.search.conflicts ≤ s2.ctx.search.conflicts + 1 := by
    cases searchStep_cases h2 e3 with
    | already => exact ⟨rfl, Nat.le_refl _, Nat.le_succ _⟩
    | fail hp => simp [Ctx.conflict, hp.search]
    | learn hp h0 e9 =>
      obtain ⟨_, _, _, _, _, _, A⟩ := hp.analyze h0 e9
      rw [A.search]
      simp [Ctx.conflict, hp.search]
    | decide hp => simp [Ctx.decision, hp.search]
    | sat hp => rw [hp.search]; exact ⟨rfl, Nat.le_refl _, Nat.le_succ _⟩
  obtain ⟨L, S, hi⟩ := h1.inv
  obtain ⟨s3, e4, _, hc⟩ := maybeReduce_spec hi
  cases e2.symm.trans e4
  simp only
  rcases hc with ⟨hlt, rfl⟩ | ⟨hge, h3, h4⟩
  · omega
  · obtain ⟨ctx', s4, L', D, S', e5, _, q, _⟩ := reduce_inv hi
    rw [h3] at e5
    simp only [Except.ok.injEq, Prod.mk.injEq] at e5
    have hs : s2.ctx.search = { s1.ctx.search with reductions := s1.ctx.search.reductions + 1 } := by
      rw [e5.1, q.del.search]
    have hs1 : s2.ctx.search.conflicts = s1.ctx.search.conflicts := by rw [hs]
    have hs2 : s2.ctx.search.reductions = s1.ctx.search.reductions + 1 := by rw [hs]
    have hs3 : s2.schedule.reductions = s1.schedule.reductions + 1 := by rw [h4]
    have hs4 : s2.schedule.nextReduce =
      s1.schedule.nextReduce + env.reduceInterval (s1.schedule.reductions + 1) := by rw [h4]
    rw [q1.2.2.1] at hs3 hs4
    omega

/-- C46, schedule: as long as the intervals are positive, the `k`-th reduction (counted from 0) happens
at the moment when the number of conflicts is the sum of the first `k` intervals. -/
theorem C46_schedule {rs : List Nat} (h : Solver.Reductions env F s rs)
    (hpos : ∀ j < rs.length, 0 < env.reduceInterval (j + 1)) :
    rs = (List.range rs.length).reverse.map (reduceThreshold env) ∧
    s.ctx.search.reductions = rs.length ∧
    s.ctx.search.conflicts ≤ reduceThreshold env rs.length := by
  suffices key : rs = (List.range rs.length).reverse.map (reduceThreshold env) ∧
      s.ctx.search.reductions = rs.length ∧ s.schedule.reductions = rs.length ∧
      s.schedule.nextReduce = reduceThreshold env rs.length ∧
      s.ctx.search.conflicts ≤ s.schedule.nextReduce from
    ⟨key.1, key.2.1, key.2.2.2.1 ▸ key.2.2.2.2⟩
  induction h with
  | input h =>
    have := h.start
    rw [this.search, this.schedule]
    exact ⟨rfl, rfl, rfl, rfl, Nat.le_refl _⟩
  | same hh e hr ih =>
    obtain ⟨i1, i2, i3, i4, i5⟩ := ih hpos
    have := scheduleStep_counters hh.reachable e
    exact ⟨i1, by omega, by omega, by omega, by omega⟩
  | @reduce s s' r rs hh e hr ih =>
    obtain ⟨i1, i2, i3, i4, i5⟩ := ih (fun j hj => hpos j (by simp; omega))
    obtain ⟨c1, c2, c3⟩ := scheduleStep_counters hh.reachable e
    rcases c3 with ⟨_, c, _⟩ | ⟨c3, c4, c5, c6⟩
    · exact absurd c hr
    · have hp := hpos rs.length (by simp)
      have ht : reduceThreshold env (rs.length + 1) =
          reduceThreshold env rs.length + env.reduceInterval (rs.length + 1) :=
        Finset.sum_range_succ _ _
      simp only [List.length_cons]
      rw [i3] at c6
      refine ⟨?_, by omega, by omega, by omega, by omega⟩
      rw [List.range_succ, List.reverse_append, List.reverse_singleton, List.singleton_append,
        List.map_cons, ← i1]
      congr 1
      omega

end

/-- C46, intervals: for the first `2^26` reductions the interval computed with `f64` arithmetic is
`2000 * sqrt(i)` rounded down. -/
theorem C46_interval (order : List (Nat × Nat) → List (Nat × Nat)) (perm : ∀ l, (order l).Perm l)
    {i : Nat} (h0 : 0 < i) (hi : i < 2 ^ 26) :
    (f32Env order perm).reduceInterval i = ⌊2000 * Real.sqrt i⌋₊ := by
  show F64.toU64 _ = _
  rw [f64_interval h0 hi]
  symm
  have hs : 2000 * Real.sqrt i = Real.sqrt ((4000000 * i : ℕ) : ℝ) := by
    push_cast
    rw [show (4000000 : ℝ) = 2000 * 2000 by norm_num, mul_assoc,
      Real.sqrt_mul (by norm_num), show (2000 * i : ℝ) = 2000 * i from rfl]
    rw [Real.sqrt_mul (by norm_num) (i : ℝ), ← mul_assoc, Real.mul_self_sqrt (by norm_num)]
  rw [hs]
  exact Real.nat_floor_real_sqrt_eq_nat_sqrt

/-- C46 for the arithmetic of the solver. -/
theorem C46_reductions {order : List (Nat × Nat) → List (Nat × Nat)} {perm : ∀ l, (order l).Perm l}
    {F : List (List Lit)} {s : Solver} {rs : List Nat}
    (h : Solver.Reductions (f32Env order perm) F s rs) (hb : rs.length < 2 ^ 26) :
    rs = (List.range rs.length).reverse.map
      (fun k => ∑ j ∈ Finset.range k, ⌊2000 * Real.sqrt ((j + 1 : ℕ) : ℝ)⌋₊) ∧
    s.ctx.search.conflicts ≤ ∑ j ∈ Finset.range rs.length, ⌊2000 * Real.sqrt ((j + 1 : ℕ) : ℝ)⌋₊ := by
  have hint : ∀ j < rs.length, (f32Env order perm).reduceInterval (j + 1) =
      ⌊2000 * Real.sqrt ((j + 1 : ℕ) : ℝ)⌋₊ := fun j hj => C46_interval order perm (by omega) (by omega)
  have hthr : ∀ k ≤ rs.length, reduceThreshold (f32Env order perm) k =
      ∑ j ∈ Finset.range k, ⌊2000 * Real.sqrt ((j + 1 : ℕ) : ℝ)⌋₊ := fun k hk =>
    Finset.sum_congr rfl fun j hj => hint j (by have := Finset.mem_range.1 hj; omega)
  obtain ⟨h1, _, h3⟩ := C46_schedule h (by
    intro j hj
    rw [hint j hj, Nat.floor_pos]
    have : (1 : ℝ) ≤ Real.sqrt ((j + 1 : ℕ) : ℝ) := 
      Real.one_le_sqrt.2 (by push_cast; linarith [Nat.cast_nonneg (α := ℝ) j])
    linarith)
  refine ⟨?_, h3.trans_eq (hthr _ le_rfl)⟩
  conv_lhs => rw [h1]
  refine List.map_congr_left fun k hk => hthr k ?_
  simp at hk
  omega

/-- For C46: a run in which the first reduction happened, at conflict 0; the next one will happen at
conflict 2000. -/
theorem C46_example : ∃ s rs, Solver.Reductions Example.env32 (Example.cnf (Example.php 4 3)) s rs ∧
    s.ctx.search.conflicts = 3 ∧ s.ctx.search.reductions = 1 ∧ s.schedule.nextReduce = 2000 := by
  have h : (do
      let s0 ← (Solver.default Example.env32).addClauses (Example.cnf (Example.php 4 3))
      let (s, _) ← s0.solve Example.env32 8
      pure (s.ctx.search.conflicts, s.ctx.search.reductions, s.schedule.nextReduce) :
        M (Nat × Nat × Nat)) = .ok (3, 1, 2000) := by decide +kernel
  obtain ⟨s0, h1, h2⟩ := bind_eq_ok.1 h
  obtain ⟨⟨s, r⟩, h3, h2⟩ := bind_eq_ok.1 h2
  have h2 := Except.ok.inj h2
  simp only [Prod.mk.injEq] at h2
  have hin := Solver.Input.addClauses _ (.new (env := Example.env32))
    (Example.ok_valid (F := Example.php 4 3) (by decide +kernel)) h1
  obtain ⟨rs, hr⟩ := C46_covers (.input (by simpa using hin)) h3
  exact ⟨s, rs, hr, h2⟩

end Starlit
