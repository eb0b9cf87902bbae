import Mathlib.Algebra.BigOperators.Group.Finset.Basic
import Mathlib.Algebra.Order.BigOperators.Group.Finset
import Mathlib.Order.Interval.Finset.Nat
import Verif.Props.Runs

/-!
# C03: `solve()` terminates

A variable assigned at level `l` weighs `(n + 1) ^ (n - l)`.  Decisions, propagations and learned
clauses increase the weight of the trail, so between two restarts there are boundedly many steps.  The
Luby sequence is unbounded, so some restart interval is longer than that.
-/

namespace Starlit

/-- The level of a variable. -/
def Trail.levelOf (t : Trail) (x : Nat) : Option Nat :=
  (t.steps.find? (fun st => st.lit.index == x)).map (·.level)

/-- The weight of a level. -/
def levelWeight (n : Nat) : Option Nat → Nat
  | some l => (n + 1) ^ (n - l)
  | none => 0

/-- The weight of a trail. -/
def Trail.weight (n : Nat) (t : Trail) : Nat := ∑ x ∈ Finset.range n, levelWeight n (t.levelOf x)

/-- A bound on the weight of all trails. -/
def weightBound (n : Nat) : Nat := n * (n + 1) ^ n

section
variable {env : Env} {n : Nat} {F L : DB} {S : List LC} {p p' : PropState} {values : PartialAssignment}
  {t t' : Trail} {ctx ctx' : Ctx} {s s' : Search}

theorem TrailInv.level_congr (h : TrailInv n values t) {st st' : Step} (hs : st ∈ t.steps)
    (hs' : st' ∈ t.steps) (e : st.lit.index = st'.lit.index) : st.level = st'.level := by
  have e' : st.lit = st'.lit := by
    rcases Lit.eq_or_eq_neg e with e | e
    · exact e
    · exact absurd e (h.not_both hs hs')
  obtain ⟨i, hi⟩ := List.mem_iff_getElem?.1 hs
  obtain ⟨i', hi'⟩ := List.mem_iff_getElem?.1 hs'
  obtain ⟨j, x, h1, h2, h3, h4, h5⟩ := h.tix i st hi
  obtain ⟨j', x', h1', h2', h3', h4', h5'⟩ := h.tix i' st' hi'
  rw [e'] at h1
  cases h1.symm.trans h1'
  cases h2.symm.trans h2'
  have a : st.level = x.level := by
    rcases h5 with rfl | ⟨a, b⟩
    · cases hi.symm.trans h2; rfl
    · omega
  have b : st'.level = x.level := by
    rcases h5' with rfl | ⟨a, b⟩
    · cases hi'.symm.trans h2; rfl
    · omega
  omega

theorem TrailInv.levelOf_eq (h : TrailInv n values t) {st : Step} (hs : st ∈ t.steps) :
    t.levelOf st.lit.index = some st.level := by
  unfold Trail.levelOf
  cases hf : t.steps.find? (fun x => x.lit.index == st.lit.index) with
  | none =>
    have := List.find?_eq_none.1 hf st hs
    simp at this
  | some x =>
    have h1 : x.lit.index = st.lit.index := by simpa using List.find?_some hf
    rw [Option.map_some, h.level_congr (List.mem_of_find?_eq_some hf) hs h1]

theorem Trail.levelOf_some {x l : Nat} (h : t.levelOf x = some l) :
    ∃ st ∈ t.steps, st.lit.index = x ∧ st.level = l := by
  unfold Trail.levelOf at h
  obtain ⟨st, h1, h2⟩ := Option.map_eq_some_iff.1 h
  exact ⟨st, List.mem_of_find?_eq_some h1, by simpa using List.find?_some h1, h2⟩

theorem TrailInv.levelOf_iff (h : TrailInv n values t) {x l : Nat} :
    t.levelOf x = some l ↔ ∃ st ∈ t.steps, st.lit.index = x ∧ st.level = l := by
  constructor
  · exact Trail.levelOf_some
  · rintro ⟨st, h1, rfl, rfl⟩
    exact h.levelOf_eq h1

/-- There are at most as many levels as variables. -/
theorem TrailInv.level_le_vars (h : TrailInv n values t) : t.decisionLevel ≤ n := by
  have hsub : Finset.Icc 1 t.decisionLevel ⊆
      (Finset.range n).image (fun x => (t.levelOf x).getD 0) := by
    intro k hk
    obtain ⟨h1, h2⟩ := Finset.mem_Icc.1 hk
    have hlt : k < t.decisions.length := by unfold Trail.decisionLevel at h2; omega
    obtain ⟨st, hs, _, hl⟩ := h.decs k _ h1 (List.getElem?_eq_getElem hlt)
    have hm : st ∈ t.steps := List.mem_of_getElem? hs
    refine Finset.mem_image.2 ⟨st.lit.index, Finset.mem_range.2 (h.idx_lt st hm), ?_⟩
    rw [h.levelOf_eq hm, hl]; rfl
  have := Finset.card_le_card hsub
  rw [Nat.card_Icc] at this
  have h2 := Finset.card_image_le (s := Finset.range n) (f := fun x => (t.levelOf x).getD 0)
  rw [Finset.card_range] at h2
  omega

theorem Trail.weight_le : t.weight n ≤ weightBound n := by
  unfold Trail.weight weightBound
  have : ∀ x ∈ Finset.range n, levelWeight n (t.levelOf x) ≤ (n + 1) ^ n := by
    intro x _
    cases t.levelOf x with
    | none => exact Nat.zero_le _
    | some l => exact Nat.pow_le_pow_right (by omega) (Nat.sub_le _ _)
  have := Finset.sum_le_card_nsmul _ _ _ this
  simpa using this

/-- More assigned variables weigh more. -/
theorem Trail.weight_mono (h : ∀ x l, t.levelOf x = some l → t'.levelOf x = some l) :
    t.weight n ≤ t'.weight n := by
  refine Finset.sum_le_sum fun x _ => ?_
  cases e : t.levelOf x with
  | none => exact Nat.zero_le _
  | some l => rw [h x l e]

/-- Garbage collection and propagation do not decrease the weight. -/
theorem Phase.weight {S2 : List LC} {r : Option ConflictClause} (hp : PInv n S p)
    (h : Phase n S p S2 p' r) : p.trail.weight n ≤ p'.trail.weight n := by
  refine Trail.weight_mono ?_
  intro x l e
  obtain ⟨st, hs, h1, h2⟩ := Trail.levelOf_some e
  obtain ⟨ρ, new, h3, _⟩ := h.steps
  refine h.inv.trail.levelOf_iff.2 ⟨st.ren ρ, ?_, h1, h2⟩
  rw [h3, List.mem_append]
  exact .inl (List.mem_map.2 ⟨st, hs, rfl⟩)

/-- A decision increases the weight. -/
theorem weight_decide (h : TrailInv n values t) {l : Lit} (hl : l.index < n)
    (hun : ∀ st ∈ t.steps, st.lit.index ≠ l.index) {values' : PartialAssignment}
    (h' : TrailInv n values' (t.decide l)) : t.weight n < (t.decide l).weight n := by
  refine Finset.sum_lt_sum ?_ ⟨l.index, Finset.mem_range.2 hl, ?_⟩
  · intro x _
    cases e : t.levelOf x with
    | none => exact Nat.zero_le _
    | some v =>
      obtain ⟨st, hs, h1, h2⟩ := Trail.levelOf_some e
      have : (t.decide l).levelOf x = some v :=
        h'.levelOf_iff.2 ⟨st, by simp [Trail.decide, Trail.push, hs], h1, h2⟩
      rw [this]
  · have h1 : t.levelOf l.index = none := by
      cases e : t.levelOf l.index with
      | none => rfl
      | some v =>
        obtain ⟨st, hs, h1, h2⟩ := Trail.levelOf_some e
        exact absurd h1 (hun st hs)
    have h2 : (t.decide l).levelOf l.index = some t.decisions.length :=
      h'.levelOf_iff.2 ⟨⟨l, t.decisions.length, .decision⟩, by simp [Trail.decide, Trail.push], rfl, rfl⟩
    rw [h1, h2]
    exact Nat.pow_pos (by omega)

/-- A learned clause increases the weight. -/
theorem weight_learn (h : TrailInv n values t) {lvl target : Nat} (hlt : lvl < t.decisionLevel)
    (hc : t.decisions[lvl + 1]? = some target) {u : Step} (hu : u ∈ t.steps)
    (hul : u.level = t.decisionLevel) {a : Lit} (ha : a.index = u.lit.index) {r : Reason}
    {values' : PartialAssignment} (h' : TrailInv n values' ((t.cut lvl target).push ⟨a, lvl, r⟩)) :
    t.weight n < ((t.cut lvl target).push ⟨a, lvl, r⟩).weight n := by
  have hn := h.level_le_vars
  have hua : u.lit.index < n := h.idx_lt u hu
  have hcut := (h.take_eq_filter hc).1
  -- compare each variable
  have key : ∀ x, x ≠ a.index → levelWeight n (t.levelOf x) ≤
      levelWeight n (((t.cut lvl target).push ⟨a, lvl, r⟩).levelOf x) + (n + 1) ^ (n - lvl - 1) := by
    intro x hx
    cases e : t.levelOf x with
    | none => exact Nat.zero_le _
    | some v =>
      obtain ⟨st, hs, h1, h2⟩ := Trail.levelOf_some e
      by_cases hv : v ≤ lvl
      · have : ((t.cut lvl target).push ⟨a, lvl, r⟩).levelOf x = some v := by
          refine h'.levelOf_iff.2 ⟨st, ?_, h1, h2⟩
          simp only [Trail.push, Trail.cut, hcut]
          refine List.mem_append.2 (.inl (List.mem_filter.2 ⟨hs, ?_⟩))
          simp; omega
        rw [this]
        exact Nat.le_add_right _ _
      · refine Nat.le_trans ?_ (Nat.le_add_left _ _)
        exact Nat.pow_le_pow_right (by omega) (by omega)
  have ha' : ((t.cut lvl target).push ⟨a, lvl, r⟩).levelOf a.index = some lvl :=
    h'.levelOf_iff.2 ⟨⟨a, lvl, r⟩, by simp [Trail.push], rfl, rfl⟩
  have hau : t.levelOf a.index = some t.decisionLevel := by
    rw [ha, h.levelOf_eq hu, hul]
  unfold Trail.weight
  have hmem : a.index ∈ Finset.range n := Finset.mem_range.2 (by omega)
  rw [← Finset.add_sum_erase _ _ hmem, ← Finset.add_sum_erase _ _ hmem, ha', hau]
  have hsum : ∑ x ∈ (Finset.range n).erase a.index, levelWeight n (t.levelOf x) ≤
      ∑ x ∈ (Finset.range n).erase a.index,
        levelWeight n (((t.cut lvl target).push ⟨a, lvl, r⟩).levelOf x) +
      (n - 1) * (n + 1) ^ (n - lvl - 1) := by
    have h1 := Finset.sum_le_sum (s := (Finset.range n).erase a.index)
      (fun x hx => key x (Finset.mem_erase.1 hx).1)
    rw [Finset.sum_add_distrib, Finset.sum_const, Finset.card_erase_of_mem hmem,
      Finset.card_range, nsmul_eq_mul, Nat.cast_id] at h1
    exact h1
  have hw1 : levelWeight n (some t.decisionLevel) ≤ (n + 1) ^ (n - lvl - 1) :=
    Nat.pow_le_pow_right (by omega) (by omega)
  have hw2 : levelWeight n (some lvl) = n * (n + 1) ^ (n - lvl - 1) + (n + 1) ^ (n - lvl - 1) := by
    show (n + 1) ^ (n - lvl) = _
    have : n - lvl = (n - lvl - 1) + 1 := by omega
    rw [this, Nat.pow_succ, Nat.mul_comm, Nat.add_mul, Nat.one_mul, Nat.add_sub_cancel]
  have hpos : 0 < (n + 1) ^ (n - lvl - 1) := Nat.pow_pos (by omega)
  have hn1 : n * (n + 1) ^ (n - lvl - 1) = (n - 1) * (n + 1) ^ (n - lvl - 1) + (n + 1) ^ (n - lvl - 1) := by
    have : n = (n - 1) + 1 := by omega
    conv => lhs; lhs; rw [this]
    rw [Nat.add_mul, Nat.one_mul]
  omega

/-- A search step without an answer increases the weight. -/
theorem StepPost.weight {L' : DB} {S' : List LC} (h : SInv env n F L S ctx s)
    (h' : SInv env n F L' S' ctx' s') (q : StepPost env n F L S ctx s L' S' ctx' s' none) :
    s.prop.trail.weight n < s'.prop.trail.weight n ∧
    ctx'.search.conflicts ≤ ctx.search.conflicts + 1 ∧ ctx'.search.restarts = ctx.search.restarts := by
  generalize hr : (none : Option Bool) = r at q
  cases q with
  | already => simp at hr
  | fail => simp at hr
  | sat => simp at hr
  | learn hu q h0 e1 e2 A =>
    refine ⟨?_, by rw [A.search, e1], by rw [A.search, e1]⟩
    have h1 := q.weight h.prop
    obtain ⟨a, rest, r, ec, _, et, _⟩ := A.trail
    obtain ⟨k, u, rest', ec', hk, hul, _⟩ := A.asserting.head
    rw [ec] at ec'
    have ha : a = u.lit.neg := (List.cons.inj ec').1
    have h2 := A.inv.trail
    rw [et] at h2 ⊢
    refine Nat.lt_of_le_of_lt h1 (weight_learn q.inv.trail A.asserting.lt A.cutpos
      (List.mem_of_getElem? hk) hul ?_ h2)
    rw [ha, Lit.index_neg]
  | @decide S2 p2 ctx' v x b hu q hx hun hph pp e1 e2 =>
    refine ⟨?_, by rw [e1]; exact Nat.le_succ _, by rw [e1]⟩
    have h1 := q.weight h.prop
    have hxm : x ≤ MAX_INDEX := by have := q.inv.sized.n_le; omega
    have hli : (litOf x b).index = x := litOf_index hxm b
    refine Nat.lt_of_le_of_lt h1 (weight_decide q.inv.trail (by rw [hli]; exact hx) ?_ h'.prop.trail)
    intro st hs e
    rcases Lit.eq_or_eq_neg e with e | e
    · have := (q.inv.trail.val_iff (litOf x b)).2 ⟨st, hs, e⟩
      rw [hun] at this; simp at this
    · have := (q.inv.trail.val_false_iff (litOf x b)).2 ⟨st, hs, e⟩
      rw [hun] at this; simp at this

end

section
variable {env : Env} {n : Nat} {F : DB}

/-- What holds until the restart with number `J`, whose interval is longer than the weight of any
trail. -/
structure Progress (env : Env) (n : Nat) (F : DB) (J : Nat) (s : Solver) : Prop where
  inv : SolverInv env n F s
  luby : s.schedule.luby = Luby.after s.ctx.search.restarts
  le : s.ctx.search.restarts ≤ J
  last : s.ctx.search.restarts = J → ∃ c, c + weightBound n < s.schedule.nextRestart ∧
    s.ctx.search.conflicts ≤ c + s.search.prop.trail.weight n

/-- An upper bound on the number of remaining steps. -/
def remaining (n J : Nat) (s : Solver) : Nat :=
  (J - s.ctx.search.restarts) * (weightBound n + 1) + (weightBound n - s.search.prop.trail.weight n)

theorem scheduleStep_progress {J : Nat} (hJ : ∀ j, j + 1 = J → weightBound n < (Luby.after j).advance.1 * 512)
    {s : Solver} (h : Progress env n F J s) :
    Wp (s.scheduleStep env) (fun (s', r) => r = none →
      Progress env n F J s' ∧ remaining n J s' < remaining n J s) := by
  obtain ⟨⟨L, S, hi⟩, hlu, hle, hlast⟩ := h
  unfold Solver.scheduleStep
  obtain ⟨s1, e1, h1, hc1⟩ := maybeRestart_spec hi
  obtain ⟨s2, e2, ⟨L2, S2, h2⟩, hc2⟩ := maybeReduce_spec h1
  -- a reduction only changes clauses
  have red : s2.search.prop.trail = s1.search.prop.trail ∧
      s2.ctx.search.conflicts = s1.ctx.search.conflicts ∧
      s2.ctx.search.restarts = s1.ctx.search.restarts ∧ s2.schedule.luby = s1.schedule.luby ∧
      s2.schedule.nextRestart = s1.schedule.nextRestart := by
    rcases hc2 with ⟨_, rfl⟩ | ⟨_, g1, g2⟩
    · exact ⟨rfl, rfl, rfl, rfl, rfl⟩
    · obtain ⟨ctx', s3, L', D, S', e3, _, q, _⟩ := reduce_inv h1
      rw [g1] at e3
      simp only [Except.ok.injEq, Prod.mk.injEq] at e3
      obtain ⟨a, ha⟩ := q.eq
      rw [e3.1, e3.2, q.del.search, g2, ha]
      exact ⟨rfl, rfl, rfl, rfl, rfl⟩
  obtain ⟨r1, r2, r3, r4, r5⟩ := red
  rw [e1, bind_ok, e2, bind_ok, wp_bind]
  refine (searchStep_spec h2).mono ?_
  rintro ⟨ctx', s', r⟩ ⟨L', S', h', q⟩
  simp only [wp_pure]
  rintro rfl
  obtain ⟨w1, w2, w3⟩ := q.weight h2 h'
  rw [r1] at w1
  rw [r2] at w2
  rw [r3] at w3
  have hb := Trail.weight_le (n := n) (t := s'.prop.trail)
  rcases hc1 with ⟨g0, rfl⟩ | ⟨g0, g1, g2⟩
  · refine ⟨⟨⟨L', S', h'⟩, ?_, ?_, ?_⟩, ?_⟩
    · simp only [w3, r4, hlu]
    · simp only [w3, hle]
    · intro hj
      simp only [w3] at hj
      obtain ⟨c, c1, c2⟩ := hlast hj
      refine ⟨c, by simp only [r5]; exact c1, ?_⟩
      simp only
      omega
    · unfold remaining
      simp only [w3]
      omega
  · obtain ⟨ctx1, s3, e3, _, g3, g4, _⟩ := restart_spec hi
    rw [g1] at e3
    simp only [Except.ok.injEq, Prod.mk.injEq] at e3
    have x1 : s1.ctx.search.restarts = s.ctx.search.restarts + 1 := by rw [e3.1, g3]
    have x2 : s1.ctx.search.conflicts = s.ctx.search.conflicts := by rw [e3.1, g3]
    have hlt : s.ctx.search.restarts < J := by
      rcases Nat.lt_or_ge s.ctx.search.restarts J with hx | hx
      · exact hx
      · obtain ⟨c, c1, c2⟩ := hlast (by omega)
        have := Trail.weight_le (n := n) (t := s.search.prop.trail)
        omega
    refine ⟨⟨⟨L', S', h'⟩, ?_, ?_, ?_⟩, ?_⟩
    · simp only [w3, r4, x1, g2, hlu]; rfl
    · simp only [w3, x1]; omega
    · intro hj
      simp only [w3, x1] at hj
      refine ⟨s.ctx.search.conflicts, ?_, ?_⟩
      · simp only [r5, g2]
        rw [hlu]
        have := hJ _ hj
        omega
      · simp only
        omega
    · unfold remaining
      simp only [w3, x1]
      have : J - s.ctx.search.restarts = (J - (s.ctx.search.restarts + 1)) + 1 := by omega
      rw [this, Nat.add_mul, Nat.one_mul]
      omega

theorem solve_progress {J : Nat} (hJ : ∀ j, j + 1 = J → weightBound n < (Luby.after j).advance.1 * 512) :
    ∀ (k : Nat) {s : Solver}, Progress env n F J s → remaining n J s < k →
      Wp (s.solve env k) (fun (_, r) => r ≠ none)
  | 0, s, _, hk => by omega
  | k + 1, s, h, hk => by
    simp only [Solver.solve, wp_bind]
    refine (scheduleStep_progress hJ h).mono ?_
    rintro ⟨s', r⟩ h'
    cases r with
    | some b => simp
    | none =>
      obtain ⟨h1, h2⟩ := h' rfl
      exact solve_progress hJ k h1 (show remaining n J s' < k by have : remaining n J s' < remaining n J s := h2; omega)

theorem Luby.advance_fst (l : Luby) : l.advance.1 = l.v := by
  unfold Luby.advance; split <;> rfl

/-- The number of the restart after which no other restart can happen. -/
def lastRestart (n r : Nat) : Nat := 2 ^ (max (weightBound n) r + 1) - 1

theorem lastRestart_spec (n r : Nat) : r < lastRestart n r ∧
    ∀ j, j + 1 = lastRestart n r → weightBound n < (Luby.after j).advance.1 * 512 := by
  unfold lastRestart
  have h1 : max (weightBound n) r < 2 ^ max (weightBound n) r := Nat.lt_two_pow_self
  have h2 : 2 ^ (max (weightBound n) r + 1) = 2 * 2 ^ max (weightBound n) r := Nat.pow_succ'
  refine ⟨by omega, ?_⟩
  intro j hj
  have : j = 2 ^ (max (weightBound n) r + 1) - 2 := by omega
  rw [this, Luby.after_pow, Luby.advance_fst]
  simp only
  omega

theorem Solver.Reachable.luby {F : List (List Lit)} {s : Solver} (h : Solver.Reachable env F s) :
    s.schedule.luby = Luby.after s.ctx.search.restarts := by
  induction h with
  | input h => rw [h.start.search, h.start.schedule]; rfl
  | restart hh e ih =>
    obtain ⟨L, S, hi⟩ := hh.inv
    obtain ⟨s2, e2, _, hc⟩ := maybeRestart_spec hi
    cases e.symm.trans e2
    rcases hc with ⟨_, rfl⟩ | ⟨_, h2, h3⟩
    · exact ih
    · obtain ⟨ctx', s3, e3, _, h4, _⟩ := restart_spec hi
      rw [h2] at e3
      simp only [Except.ok.injEq, Prod.mk.injEq] at e3
      rw [h3, e3.1, h4, ih]; rfl
  | reduce hh e ih =>
    obtain ⟨L, S, hi⟩ := hh.inv
    obtain ⟨s2, e2, _, hc⟩ := maybeReduce_spec hi
    cases e.symm.trans e2
    rcases hc with ⟨_, rfl⟩ | ⟨_, h2, h3⟩
    · exact ih
    · obtain ⟨ctx', s3, L', D, S', e3, _, q, _⟩ := reduce_inv hi
      rw [h2] at e3
      simp only [Except.ok.injEq, Prod.mk.injEq] at e3
      rw [h3, e3.1, q.del.search]; exact ih
  | step hh e ih =>
    simp only [(searchStep_cases hh e).stats.1]; exact ih

end

/-- C03 for all states of a run: from there `solve()` returns an answer after boundedly many
iterations, unless the clause arena is full or exceeds the sizes covered by the model. -/
theorem C03_resume {env : Env} {F : List (List Lit)} {s : Solver} (h : Solver.Reachable env F s) :
    ∃ K, (∃ s' b, s.solve env K = .ok (s', some b)) ∨ s.solve env K = .error .arenaFull ∨
      s.solve env K = .error .tooBig := by
  obtain ⟨h1, h2⟩ := lastRestart_spec (formulaVars F) s.ctx.search.restarts
  refine ⟨remaining (formulaVars F) (lastRestart (formulaVars F) s.ctx.search.restarts) s + 1, ?_⟩
  have := solve_progress h2 _ (s := s) (env := env) (F := toDB F)
    ⟨h.inv, h.luby, by omega, by omega⟩ (Nat.lt_succ_self _)
  generalize s.solve env _ = m at this
  match m, this with
  | .ok (s', some b), _ => exact .inl ⟨s', b, rfl⟩
  | .ok (s', none), h => exact absurd rfl h
  | .error .arenaFull, _ => exact .inr (.inl rfl)
  | .error .tooBig, _ => exact .inr (.inr rfl)
  | .error .panic, h => exact h.elim
  | .error .ub, h => exact h.elim
  | .error .fuel, h => exact h.elim

/-- C03: there is a number of iterations, depending on the number of variables only, after which
`solve()` has returned an answer for every formula with that many variables, unless the clause arena
is full or exceeds the sizes covered by the model. -/
theorem C03_terminates (n : Nat) : ∃ K, ∀ (env : Env) (F : List (List Lit)) (s : Solver),
    Solver.Input env F s → formulaVars F = n →
    (∃ s' b, s.solve env K = .ok (s', some b)) ∨ s.solve env K = .error .arenaFull ∨
      s.solve env K = .error .tooBig := by
  obtain ⟨h1, h2⟩ := lastRestart_spec n 0
  refine ⟨lastRestart n 0 * (weightBound n + 1) + weightBound n + 1, ?_⟩
  rintro env F s hin rfl
  have h := Solver.Reachable.input hin
  have hr : s.ctx.search.restarts = 0 := by rw [hin.start.search]
  have := solve_progress h2 (lastRestart (formulaVars F) 0 * (weightBound (formulaVars F) + 1) +
    weightBound (formulaVars F) + 1) (s := s) (env := env) (F := toDB F)
    ⟨h.inv, h.luby, by omega, by omega⟩ (by unfold remaining; rw [hr, Nat.sub_zero]; omega)
  generalize s.solve env _ = m at this
  match m, this with
  | .ok (s', some b), _ => exact .inl ⟨s', b, rfl⟩
  | .ok (s', none), h => exact absurd rfl h
  | .error .arenaFull, _ => exact .inr (.inl rfl)
  | .error .tooBig, _ => exact .inr (.inr rfl)
  | .error .panic, h => exact h.elim
  | .error .ub, h => exact h.elim
  | .error .fuel, h => exact h.elim

/-- A case for C03: four pigeons and three holes. The run is still going after 11 iterations of the
main loop and has answered after 100. -/
theorem C03_example : ∃ s, Solver.Input Example.env (Example.cnf (Example.php 4 3)) s ∧
    (s.solve Example.env 11).map (·.2) = .ok none ∧
    (s.solve Example.env 100).map (·.2) = .ok (some false) := by
  have h : (do
      let s ← Example.load (Example.php 4 3)
      let r1 ← (s.solve Example.env 11).map (·.2)
      let r2 ← (s.solve Example.env 100).map (·.2)
      pure (r1, r2) : M (Option Bool × Option Bool)) = .ok (none, some false) := by
    decide +kernel
  obtain ⟨s, h1, h2⟩ := bind_eq_ok.1 h
  obtain ⟨r1, h3, h4⟩ := bind_eq_ok.1 h2
  obtain ⟨r2, h5, h6⟩ := bind_eq_ok.1 h4
  have h6 := Except.ok.inj h6
  simp only [Prod.mk.injEq] at h6
  refine ⟨s, ?_, ?_, ?_⟩
  · unfold Example.load at h1
    have := Solver.Input.addClauses _ (.proof (.new (env := Example.env)))
      (Example.ok_valid (F := Example.php 4 3) (by decide +kernel)) h1
    simpa using this
  · rw [h3, h6.1]
  · rw [h5, h6.2]

end Starlit
