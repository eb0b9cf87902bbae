import Verif.Props.Overflow
import Verif.Props.Database
import Verif.Props.LubySum
import Verif.Solver.ExampleRun

/-!
# C98: learned clauses do not pile up

Each reduction (starlit/src/search/reduce.rs:19-82) deletes about half of the learned clauses it does not keep in any case.  So the number of
learned clauses that are stored is at most the number of those that reductions had to keep and twice the interval between reductions.
-/

namespace Starlit

/-- There are at most `k` of them. -/
def AtMost (k : Nat) (P : Nat → Prop) : Prop := ∀ rs : List Nat, rs.Nodup → (∀ r ∈ rs, P r) → rs.length ≤ k

/-- There is a learned clause of more than two literals at `r`. -/
def LearnedAt (p : PropState) (r : Nat) : Prop := ∃ hd ls, StoredAt p r hd ls ∧ hd.redundant = true

/-- The learned clauses that a reduction keeps in any case: the reasons of assignments, those of glue at most two, and those of glue at
most five that have been used (starlit/src/search/reduce.rs:31-55). -/
def Kept (p : PropState) (r : Nat) : Prop := ∃ hd ls, StoredAt p r hd ls ∧ hd.redundant = true ∧
  ((∃ st ∈ p.trail.steps, st.reason = .long r) ∨ hd.glue ≤ 2 ∨ (hd.glue ≤ 5 ∧ 0 < hd.used))

section
variable {env : Env} {F : List (List Lit)} {s s' : Solver}

/-- The counter is the number of learned clauses. -/
theorem Solver.Reachable.learnedList (h : Solver.Reachable env F s) : ∃ red : List Nat, red.Nodup ∧
    red.length = s.ctx.formula.redundant ∧ ∀ r, r ∈ red ↔ LearnedAt s.search.prop r := by
  obtain ⟨L, S, hi⟩ := h.inv
  refine ⟨(S.filter (fun e => e.live && e.hdr.redundant)).map LC.ref, ?_, ?_, ?_⟩
  · exact hi.prop.rep.nodup.sublist (List.filter_sublist.map _)
  · rw [List.length_map, ← card_liveRed, hi.db.red, hi.stats.redundant]
  · intro r
    rw [List.mem_map]
    constructor
    · rintro ⟨e, he, rfl⟩
      obtain ⟨he, h1⟩ := List.mem_filter.1 he
      simp only [Bool.and_eq_true] at h1
      exact ⟨e.hdr, e.lits, hi.prop.rep.storedAt_iff.2 ⟨e, he, h1.1, rfl, rfl, rfl⟩, h1.2⟩
    · rintro ⟨hd, ls, h1, h2⟩
      obtain ⟨e, he, hl, rfl, rfl, rfl⟩ := hi.prop.rep.storedAt_iff.1 h1
      exact ⟨e, List.mem_filter.2 ⟨he, by simp [hl, h2]⟩, rfl⟩

/-- A reduction halves what it does not have to keep. -/
theorem maybeReduce_half (h : Solver.Reachable env F s) (e : s.maybeReduce env = .ok s') {k : Nat}
    (hk : AtMost k (Kept s.search.prop)) (hd : s.schedule.nextReduce ≤ s.ctx.search.conflicts) :
    2 * s'.ctx.formula.redundant ≤ s.ctx.formula.redundant + k + 2 := by
  obtain ⟨red, n1, l1, m1⟩ := h.learnedList
  obtain ⟨red', n2, l2, m2⟩ := (h.reduce e).learnedList
  obtain ⟨ctx', t, e2, cands, del, c1, c2, c3, c4, c5, _, c7, c8, _⟩ := C28_reduce h
  have hs : s'.search = t := by
    obtain ⟨L, S, hi⟩ := h.inv
    obtain ⟨s1, e1, _, hc⟩ := maybeReduce_spec (env := env) hi
    cases e.symm.trans e1
    rcases hc with ⟨h1, _⟩ | ⟨_, h2, _⟩
    · omega
    · rw [e2] at h2
      simp only [Except.ok.injEq, Prod.mk.injEq] at h2
      exact h2.2.symm
  rw [hs] at m2
  have sub : ∀ r ∈ red', r ∉ del ∧ r ∈ red := by
    intro r hr
    obtain ⟨hd', ls, q1, q2⟩ := (m2 r).1 hr
    obtain ⟨q3, _, hd, q4⟩ := c8 r hd' ls q1
    refine ⟨q3, (m1 r).2 ⟨hd, ls, q4, ?_⟩⟩
    have := c7 r hd ls q4 q3
    have hh : hd' = _ := Except.ok.inj (q1.header.symm.trans this.header)
    rw [hh] at q2
    split at q2
    · next hc => exact hc.1
    · exact q2
  have dsub : ∀ r ∈ del, r ∈ red := by
    intro r hr
    obtain ⟨hd, ls, q⟩ := (c3 r).1 (c4 r hr)
    exact (m1 r).2 ⟨hd, ls, q.stored, q.learned⟩
  have h1 : (red' ++ del).length ≤ red.length := by
    apply List.Subperm.length_le
    apply List.subperm_of_subset
    · rw [List.nodup_append]
      refine ⟨n2, c2, ?_⟩
      rintro a ha _ hb rfl
      exact (sub a ha).1 hb
    · intro r hr
      rcases List.mem_append.1 hr with hr | hr
      · exact (sub r hr).2
      · exact dsub r hr
  have h2 : (red.filter (fun r => decide (r ∉ cands))).length ≤ k := by
    apply hk _ (n1.filter _)
    intro r hr
    obtain ⟨hr, hn⟩ := List.mem_filter.1 hr
    have hn : r ∉ cands := by simpa using hn
    obtain ⟨hd, ls, q1, q2⟩ := (m1 r).1 hr
    refine ⟨hd, ls, q1, q2, ?_⟩
    by_contra hc
    push Not at hc
    exact hn ((c3 r).2 ⟨hd, ls, q1, q2, hc.1, hc.2.1, fun h5 => Nat.eq_zero_of_not_pos fun h0 => by
      have := hc.2.2 h5; omega⟩)
  have h3 : (red.filter (fun r => decide (r ∈ cands))).length ≤ cands.length := by
    apply List.Subperm.length_le
    apply List.subperm_of_subset (n1.filter _)
    intro r hr
    simpa using (List.mem_filter.1 hr).2
  have h4 := List.length_eq_length_filter_add (l := red) (fun r => decide (r ∈ cands))
  have h5 : (red.filter (fun r => !decide (r ∈ cands))) = red.filter (fun r => decide (r ∉ cands)) := by
    congr 1; funext r; simp
  rw [h5] at h4
  rw [List.length_append] at h1
  omega

/-- A search step adds at most one learned clause, and only with a conflict. -/
theorem searchStep_learned (h : Solver.Reachable env F s) {ctx : Ctx} {search : Search} {r : Option Bool}
    (e : searchStep env s.ctx s.search = .ok (ctx, search, r)) :
    ctx.formula.redundant + s.ctx.search.conflicts ≤ s.ctx.formula.redundant + ctx.search.conflicts := by
  obtain ⟨L, S, hi⟩ := h.inv
  obtain ⟨L', S', hi', post⟩ := (searchStep_spec hi).ok_elim e
  rw [hi'.stats.redundant, hi.stats.redundant]
  cases post with
  | already => exact Nat.le_refl _
  | fail hu q h0 h1 h2 => rw [h1]; simp only; omega
  | decide hu q hx hun hph pp h1 h2 => rw [h1]
  | sat hu q hall pp h1 h2 => rw [h1]
  | learn hu q h0 h1 h2 A =>
    rw [A.search, h1]
    simp only
    rw [Multiset.filter_cons]
    split
    · simp; omega
    · simp

theorem solve_reductions_le {k : Nat} {r : Option Bool} (h : Solver.Reachable env F s) (e : s.solve env k = .ok (s', r)) :
    s.schedule.reductions ≤ s'.schedule.reductions := by
  induction k generalizing s with
  | zero => cases e; exact Nat.le_refl _
  | succ k ih =>
    unfold Solver.solve at e
    obtain ⟨⟨s1, r1⟩, e1, e2⟩ := bind_eq_ok.1 e
    obtain ⟨_, _, hc⟩ := scheduleStep_counters h e1
    have h1 : s.schedule.reductions ≤ s1.schedule.reductions := by omega
    cases r1 with
    | some b => cases e2; exact h1
    | none => exact h1.trans (ih (h.schedule e1) e2)

theorem few_run {m k K : Nat} {r : Option Bool} (h : Solver.Reachable env F s) (e : s.solve env K = .ok (s', r))
    (hm : ∀ i < s'.schedule.reductions, 0 < env.reduceInterval (i + 1) ∧ env.reduceInterval (i + 1) ≤ m)
    (hk : ∀ j sj s1, j < K → s.solve env j = .ok (sj, none) → sj.maybeRestart = .ok s1 →
      s1.schedule.nextReduce ≤ s1.ctx.search.conflicts → AtMost k (Kept s1.search.prop))
    (h0 : s.ctx.formula.redundant + s.schedule.nextReduce ≤ s.ctx.search.conflicts + 2 * m + k + 2)
    (hn : s.ctx.search.conflicts ≤ s.schedule.nextReduce) :
    s'.ctx.formula.redundant + s'.schedule.nextReduce ≤ s'.ctx.search.conflicts + 2 * m + k + 2 ∧
      s'.ctx.search.conflicts ≤ s'.schedule.nextReduce := by
  induction K generalizing s with
  | zero => cases e; exact ⟨h0, hn⟩
  | succ K ih =>
    have ee := e
    unfold Solver.solve at e
    obtain ⟨⟨t, r1⟩, e1, e2⟩ := bind_eq_ok.1 e
    have hred : t.schedule.reductions ≤ s'.schedule.reductions := by
      cases r1 with
      | some b => cases e2; exact Nat.le_refl _
      | none => exact solve_reductions_le (h.schedule e1) e2
    have key : t.ctx.formula.redundant + t.schedule.nextReduce ≤ t.ctx.search.conflicts + 2 * m + k + 2 ∧
        t.ctx.search.conflicts ≤ t.schedule.nextReduce := by
      clear ih ee e
      obtain ⟨t1, t2, ctx, search, f1, f2, f3, ht⟩ := Solver.scheduleStep_eq e1
      have q1 := h.restart f1
      have q2 := q1.reduce f2
      have n1 : t1.ctx.formula = s.ctx.formula ∧ t1.ctx.search.conflicts = s.ctx.search.conflicts ∧
          t1.schedule.nextReduce = s.schedule.nextReduce ∧ t1.schedule.reductions = s.schedule.reductions := by
        obtain ⟨L, S, hi⟩ := h.inv
        obtain ⟨t, g1, _, hc⟩ := maybeRestart_spec hi
        cases f1.symm.trans g1
        rcases hc with ⟨_, rfl⟩ | ⟨_, k2, k3⟩
        · exact ⟨rfl, rfl, rfl, rfl⟩
        · obtain ⟨ctx', t', g2, _, g3, _⟩ := restart_spec hi
          rw [k2] at g2
          simp only [Except.ok.injEq, Prod.mk.injEq] at g2
          rw [g2.1, g3, k3]
          exact ⟨rfl, rfl, rfl, rfl⟩
      have l3 := searchStep_learned q2 f3
      obtain ⟨k1, k2, _⟩ := searchStep_conflicts q2 f3
      have n2 : t2.ctx.formula.redundant + t2.schedule.nextReduce ≤ t2.ctx.search.conflicts + 2 * m + k + 2 ∧
          t2.ctx.search.conflicts < t2.schedule.nextReduce := by
        obtain ⟨L, S, hi⟩ := q1.inv
        obtain ⟨t3, g1, _, hc⟩ := maybeReduce_spec (env := env) hi
        cases f2.symm.trans g1
        rcases hc with ⟨c1, rfl⟩ | ⟨c1, _, c3⟩
        · rw [n1.1]; omega
        · have hh := maybeReduce_half q1 f2 (hk 0 s t1 (by omega) rfl f1 c1) c1
          have hc2 : t2.ctx.search.conflicts = t1.ctx.search.conflicts := by
            rcases C55_reduce q1 f2 with ⟨h4, _⟩ | ⟨_, _, _, h5, _, h6, _, h7, _⟩
            · omega
            · assumption
          have hi : t1.schedule.reductions < s'.schedule.reductions := by
            have : t.schedule.reductions = t1.schedule.reductions + 1 := by rw [ht]; simp only [c3]
            omega
          obtain ⟨p1, p2⟩ := hm _ hi
          rw [n1.1] at hh
          have hnx : t2.schedule.nextReduce = t1.schedule.nextReduce + env.reduceInterval (t1.schedule.reductions + 1) := by rw [c3]
          omega
      rw [ht]
      simp only
      omega
    cases r1 with
    | some b => cases e2; exact key
    | none =>
      refine ih (h.schedule e1) e2 (fun j sj s1 hj ej => hk (j + 1) sj s1 (by omega) ?_) key.1 key.2
      unfold Solver.solve
      rw [e1, bind_ok]
      exact ej

/-- C98: if every reduction of a run so far found at most `k` learned clauses that it had to keep, and the intervals between reductions
are at most `m`, there are at most `k + 2 * m + 2` learned clauses of more than two literals, however long the run is.  The counter that is
reported says how many there are. -/
theorem C98_few {m k K : Nat} {r : Option Bool} (h : Solver.Input env F s) (e : s.solve env K = .ok (s', r))
    (hm : ∀ i < s'.schedule.reductions, 0 < env.reduceInterval (i + 1) ∧ env.reduceInterval (i + 1) ≤ m)
    (hk : ∀ j sj s1, j < K → s.solve env j = .ok (sj, none) → sj.maybeRestart = .ok s1 →
      s1.schedule.nextReduce ≤ s1.ctx.search.conflicts → AtMost k (Kept s1.search.prop)) :
    AtMost (k + 2 * m + 2) (LearnedAt s'.search.prop) ∧ s'.ctx.formula.redundant ≤ k + 2 * m + 2 := by
  have hr : s'.ctx.formula.redundant ≤ k + 2 * m + 2 := by
    have hst := h.start
    have h1 : s.ctx.formula.redundant = 0 := by
      obtain ⟨S, hi⟩ := h.inv
      rw [hi.sinv.stats.redundant]; rfl
    obtain ⟨q1, q2⟩ := few_run (.input h) e hm hk (by rw [h1, hst.search, hst.schedule]; simp) (by rw [hst.search]; exact Nat.zero_le _)
    omega
  refine ⟨?_, hr⟩
  obtain ⟨red, n1, l1, m1⟩ := ((Solver.Reachable.input h).solve e).learnedList
  intro rs hn hl
  have : rs.length ≤ red.length := by
    apply List.Subperm.length_le
    exact List.subperm_of_subset hn fun r hr => (m1 r).2 (hl r hr)
  omega

/-- C98 for the arithmetic of the solver: after `i` reductions, fewer than `2^26`, there are at most `4000 * sqrt(i)` and two more learned
clauses than the reductions had to keep. -/
theorem C98_solver {order : List (Nat × Nat) → List (Nat × Nat)} {perm : ∀ l, (order l).Perm l} {k K : Nat} {r : Option Bool}
    (h : Solver.Input (f32Env order perm) F s) (e : s.solve (f32Env order perm) K = .ok (s', r))
    (hb : s'.schedule.reductions < 2 ^ 26)
    (hk : ∀ j sj s1, j < K → s.solve (f32Env order perm) j = .ok (sj, none) → sj.maybeRestart = .ok s1 →
      s1.schedule.nextReduce ≤ s1.ctx.search.conflicts → AtMost k (Kept s1.search.prop)) :
    (s'.ctx.formula.redundant : ℝ) ≤ k + 4000 * Real.sqrt s'.schedule.reductions + 2 := by
  have hm : ∀ i < s'.schedule.reductions, 0 < (f32Env order perm).reduceInterval (i + 1) ∧
      (f32Env order perm).reduceInterval (i + 1) ≤ ⌊2000 * Real.sqrt s'.schedule.reductions⌋₊ := by
    intro i hi
    rw [C46_interval order perm (by omega) (by omega)]
    constructor
    · rw [Nat.floor_pos]
      have : (1 : ℝ) ≤ Real.sqrt ((i + 1 : ℕ) : ℝ) :=
        Real.one_le_sqrt.2 (by push_cast; linarith [Nat.cast_nonneg (α := ℝ) i])
      linarith
    · apply Nat.floor_le_floor
      have : Real.sqrt ((i + 1 : ℕ) : ℝ) ≤ Real.sqrt s'.schedule.reductions :=
        Real.sqrt_le_sqrt (by exact_mod_cast hi)
      linarith
  have h1 := (C98_few h e hm hk).2
  have h2 : (⌊2000 * Real.sqrt s'.schedule.reductions⌋₊ : ℝ) ≤ 2000 * Real.sqrt s'.schedule.reductions :=
    Nat.floor_le (by positivity)
  have h3 : (s'.ctx.formula.redundant : ℝ) ≤ k + 2 * ⌊2000 * Real.sqrt s'.schedule.reductions⌋₊ + 2 := by exact_mod_cast h1
  linarith

end

theorem Solver.Reachable.atMost {env : Env} {F : List (List Lit)} {s : Solver} (h : Solver.Reachable env F s) {k : Nat}
    (hk : s.ctx.formula.redundant ≤ k) : AtMost k (Kept s.search.prop) := by
  obtain ⟨red, n1, l1, m1⟩ := h.learnedList
  intro rs hn hl
  have : rs.length ≤ red.length := by
    apply List.Subperm.length_le
    refine List.subperm_of_subset hn fun r hr => (m1 r).2 ?_
    obtain ⟨hd, ls, q1, q2, _⟩ := hl r hr
    exact ⟨hd, ls, q1, q2⟩
  omega

/-- The number of learned clauses when iteration `j + 1` comes to the reduction. -/
def Example.learnedBefore (F : List (List Int)) (j : Nat) : M Nat := do
  let (s, _) ← (← Example.load F).solve Example.envReduce j
  pure (← s.maybeRestart).ctx.formula.redundant

/-- The hypotheses of C98 are met with `k = 1` and `m = 1` by a run with six reductions and six conflicts. -/
theorem C98_example : ∃ s s' r, Solver.Input Example.envReduce (Example.cnf (Example.php 4 3)) s ∧
    s.solve Example.envReduce 14 = .ok (s', r) ∧ s'.ctx.search.conflicts = 6 ∧ s'.schedule.reductions = 6 ∧
    (∀ i < s'.schedule.reductions, 0 < Example.envReduce.reduceInterval (i + 1) ∧ Example.envReduce.reduceInterval (i + 1) ≤ 1) ∧
    ∀ j sj s1, j < 14 → s.solve Example.envReduce j = .ok (sj, none) → sj.maybeRestart = .ok s1 →
      s1.schedule.nextReduce ≤ s1.ctx.search.conflicts → AtMost 1 (Kept s1.search.prop) := by
  have hv : Example.ok (Example.php 4 3) = true := by decide +kernel
  have e : (Example.load (Example.php 4 3) >>= fun s => s.solve Example.envReduce 14 >>= fun x =>
      pure (x.1.ctx.search.conflicts, x.1.schedule.reductions)) = .ok (6, 6) := by decide +kernel
  have hall : ∀ j < 14, (Example.learnedBefore (Example.php 4 3) j).toOption.all (fun n => decide (n ≤ 1)) = true := by decide +kernel
  obtain ⟨s, e1, e⟩ := bind_eq_ok.1 e
  obtain ⟨⟨s', r⟩, e2, e⟩ := bind_eq_ok.1 e
  simp only [pure_eq, Except.ok.injEq, Prod.mk.injEq] at e
  have hin : Solver.Input Example.envReduce (Example.cnf (Example.php 4 3)) s := by
    unfold Example.load at e1
    have := Solver.Input.addClauses _ (.proof (.new (env := Example.envReduce))) (Example.ok_valid hv) e1
    simpa using this
  refine ⟨s, s', r, hin, e2, e.1, e.2, fun i _ => ⟨Nat.one_pos, Nat.le_refl _⟩, ?_⟩
  intro j sj s1 hj ej er _
  refine (((Solver.Reachable.input hin).solve ej).restart er).atMost ?_
  have := hall j hj
  unfold Example.learnedBefore at this
  rw [e1, bind_ok, ej, bind_ok] at this
  simp only [er, bind_ok] at this
  simpa [pure_eq, Except.toOption] using this

end Starlit
