import Verif.Props.Effort
import Verif.Props.Solver

/-!
# C87: how many conflicts there can be

Read the trail as a binary number: each variable on it is a digit, which is one if the variable was implied and zero
if it was decided.  A conflict turns a decision into an implied literal, so it increases the number; decisions and
propagation do not decrease it.  So there are fewer than `2 ^ n` conflicts between two restarts.  The sum of the
Luby sequence up to the first interval of this length bounds the number of all conflicts.
-/

namespace Starlit

/-- The trail as a binary number. `V` are the variables that are free. -/
def trailCode : Finset Nat → List Step → Nat
  | _, [] => 0
  | V, s :: r =>
    if s.lit.index ∈ V then
      (if s.reason = .decision then 0 else 2 ^ (V.card - 1)) + trailCode (V.erase s.lit.index) r
    else trailCode V r

/-- The free variables that are left after the steps. -/
def freeAfter : Finset Nat → List Step → Finset Nat
  | V, [] => V
  | V, s :: r => freeAfter (V.erase s.lit.index) r

theorem mem_freeAfter {x : Nat} : ∀ {V : Finset Nat} {l : List Step},
    x ∈ freeAfter V l ↔ x ∈ V ∧ ∀ s ∈ l, s.lit.index ≠ x
  | V, [] => by simp [freeAfter]
  | V, s :: r => by
    rw [freeAfter, mem_freeAfter, Finset.mem_erase]
    constructor
    · rintro ⟨⟨h1, h2⟩, h3⟩
      refine ⟨h2, ?_⟩
      intro t ht
      rcases List.mem_cons.1 ht with rfl | ht
      · exact fun e => h1 e.symm
      · exact h3 t ht
    · rintro ⟨h1, h2⟩
      exact ⟨⟨fun e => h2 s (List.mem_cons_self) e.symm, h1⟩, fun t ht => h2 t (List.mem_cons_of_mem _ ht)⟩

theorem trailCode_lt : ∀ (V : Finset Nat) (l : List Step), trailCode V l < 2 ^ V.card
  | V, [] => Nat.two_pow_pos _
  | V, s :: r => by
    unfold trailCode
    split
    · next h =>
      have h1 := trailCode_lt (V.erase s.lit.index) r
      rw [Finset.card_erase_of_mem h] at h1
      have h2 : 0 < V.card := Finset.card_pos.2 ⟨_, h⟩
      have h3 : 2 ^ V.card = 2 ^ (V.card - 1) + 2 ^ (V.card - 1) := by
        rw [← Nat.two_mul, ← Nat.pow_succ', Nat.succ_eq_add_one, Nat.sub_add_cancel h2]
      split <;> omega
    · exact trailCode_lt V r

theorem trailCode_append : ∀ (V : Finset Nat) (a b : List Step),
    trailCode V (a ++ b) = trailCode V a + trailCode (freeAfter V a) b
  | V, [], b => by simp [trailCode, freeAfter]
  | V, s :: r, b => by
    rw [List.cons_append, trailCode, trailCode, freeAfter]
    split
    · rw [trailCode_append, Nat.add_assoc]
    · next h => rw [trailCode_append, Finset.erase_eq_of_notMem h]

theorem trailCode_ren (ρ : Nat → Option Nat) : ∀ (V : Finset Nat) (l : List Step),
    trailCode V (l.map (Step.ren ρ)) = trailCode V l
  | V, [] => rfl
  | V, s :: r => by
    rw [List.map_cons, trailCode, trailCode, trailCode_ren, trailCode_ren]
    have : (s.ren ρ).reason = .decision ↔ s.reason = .decision := by
      obtain ⟨l, v, x⟩ := s
      cases x <;> simp [Step.ren, Reason.ren]
    simp only [this]
    rfl

/-- The trail of the solver as a number below `2 ^ n`. -/
def Trail.code (n : Nat) (t : Trail) : Nat := trailCode (Finset.range n) t.steps

theorem Trail.code_lt (n : Nat) (t : Trail) : t.code n < 2 ^ n := by
  have := trailCode_lt (Finset.range n) t.steps
  rwa [Finset.card_range] at this

section
variable {env : Env} {n : Nat} {F L : DB} {S : List LC} {p p' : PropState} {values : PartialAssignment}
  {t t' : Trail} {ctx ctx' : Ctx} {s s' : Search}

theorem Phase.code {S2 : List LC} {r : Option ConflictClause} (h : Phase n S p S2 p' r) :
    p.trail.code n ≤ p'.trail.code n := by
  obtain ⟨ρ, new, h3, _⟩ := h.steps
  unfold Trail.code
  rw [h3, trailCode_append, trailCode_ren]
  exact Nat.le_add_right _ _

/-- A learned clause increases the number. -/
theorem code_learn (h : TrailInv n values t) {lvl target : Nat} (hlt : lvl < t.decisionLevel)
    (hc : t.decisions[lvl + 1]? = some target) {u : Step} (hu : u ∈ t.steps)
    (hul : u.level = t.decisionLevel) {a : Lit} (ha : a.index = u.lit.index) {r : Reason}
    (hr : r ≠ .decision) : t.code n < ((t.cut lvl target).push ⟨a, lvl, r⟩).code n := by
  have hcut := (h.take_eq_filter hc).1
  obtain ⟨x, hx, hxr, hxl⟩ := h.decs (lvl + 1) target (by omega) hc
  have hpos := (List.getElem?_eq_some_iff.1 hx).1
  have hfree : ∀ y ∈ t.steps, lvl < y.level →
      y.lit.index ∈ freeAfter (Finset.range n) (t.steps.take target) := by
    intro y hy hyl
    refine mem_freeAfter.2 ⟨Finset.mem_range.2 (h.idx_lt y hy), ?_⟩
    intro z hz e
    rw [hcut] at hz
    obtain ⟨hz1, hz2⟩ := List.mem_filter.1 hz
    have := h.level_congr hz1 hy e
    have : z.level ≤ lvl := by simpa using hz2
    omega
  have hxm : x ∈ t.steps := List.mem_of_getElem? hx
  have hsplit : t.steps = t.steps.take target ++ x :: t.steps.drop (target + 1) := by
    have h1 := (List.getElem?_eq_some_iff.1 hx).2
    rw [← h1, List.getElem_cons_drop, List.take_append_drop]
  unfold Trail.code
  have e1 : ((t.cut lvl target).push ⟨a, lvl, r⟩).steps = t.steps.take target ++ [⟨a, lvl, r⟩] := rfl
  rw [e1, trailCode_append]
  conv_lhs => rw [hsplit, trailCode_append]
  have h1 := hfree x hxm (by omega)
  have h2 : a.index ∈ freeAfter (Finset.range n) (t.steps.take target) := by
    rw [ha]; exact hfree u hu (by omega)
  generalize freeAfter (Finset.range n) (t.steps.take target) = V at h1 h2
  have h3 := trailCode_lt (V.erase x.lit.index) (t.steps.drop (target + 1))
  rw [Finset.card_erase_of_mem h1] at h3
  simp only [trailCode, if_pos h1, if_pos h2, if_pos hxr, if_neg hr]
  omega

/-- A search step: the number does not decrease, and it increases with a conflict. -/
theorem StepPost.code {L' : DB} {S' : List LC} {r : Option Bool}
    (q : StepPost env n F L S ctx s L' S' ctx' s' r) :
    ctx'.search.restarts = ctx.search.restarts ∧
    ctx.search.conflicts ≤ ctx'.search.conflicts ∧ ctx'.search.conflicts ≤ ctx.search.conflicts + 1 ∧
    (r = none → ctx'.search.conflicts + s.prop.trail.code n ≤ ctx.search.conflicts + s'.prop.trail.code n) := by
  cases q with
  | already => simp
  | fail _ _ _ e1 => rw [e1]; simp
  | sat _ _ _ _ e1 => rw [e1]; simp
  | learn hu q h0 e1 e2 A =>
    rw [A.search, e1]
    refine ⟨rfl, Nat.le_succ _, Nat.le_refl _, fun _ => ?_⟩
    have h1 := q.code
    obtain ⟨a, rest, r, ec, hr, et, _⟩ := A.trail
    obtain ⟨k, u, rest', ec', hk, hul, _⟩ := A.asserting.head
    rw [ec] at ec'
    have ha : a = u.lit.neg := (List.cons.inj ec').1
    have := code_learn q.inv.trail A.asserting.lt A.cutpos (List.mem_of_getElem? hk) hul
      (show a.index = u.lit.index by rw [ha, Lit.index_neg]) hr
    rw [et]
    simp only
    omega
  | @decide S2 p2 ctx' v x b hu q hx hun hph pp e1 e2 =>
    rw [e1]
    refine ⟨rfl, Nat.le_refl _, Nat.le_succ _, fun _ => ?_⟩
    have h1 := q.code
    have h2 : p2.trail.code n ≤ (p2.trail.decide (litOf x b)).code n := by
      unfold Trail.code Trail.decide Trail.push
      simp only [trailCode_append]
      exact Nat.le_add_right _ _
    simp only
    omega

end

/-! ## Sums of the Luby sequence -/

/-- The sum of the first terms of the Luby sequence. -/
def lubySum : Nat → Nat
  | 0 => 0
  | k + 1 => lubySum k + (Luby.after k).v

theorem lubySum_mono {a b : Nat} (h : a ≤ b) : lubySum a ≤ lubySum b := by
  induction b with
  | zero => rw [Nat.le_zero.1 h]
  | succ b ih =>
    rcases Nat.le_succ_iff.1 h with h | rfl
    · exact Nat.le_trans (ih h) (Nat.le_add_right _ _)
    · exact Nat.le_refl _

theorem lubySum_shift (j : Nat) : ∀ m, m ≤ 2 ^ (j + 1) - 1 →
    lubySum (2 ^ (j + 1) - 1 + m) = lubySum (2 ^ (j + 1) - 1) + lubySum m
  | 0, _ => rfl
  | m + 1, h => by
    rw [← Nat.add_assoc, lubySum, lubySum, lubySum_shift j m (by omega), Luby.after_shift j m (by omega)]
    simp only [Nat.add_assoc]

/-- The terms before the first `2 ^ j` sum up to `j * 2 ^ j`. -/
theorem lubySum_pow : ∀ j, lubySum (2 ^ (j + 1) - 2) = j * 2 ^ j
  | 0 => rfl
  | j + 1 => by
    have hp := Nat.two_pow_pos j
    have e1 : 2 ^ (j + 1) = 2 * 2 ^ j := pow_succ' 2 j
    have e2 : 2 ^ (j + 1 + 1) = 2 * 2 ^ (j + 1) := pow_succ' 2 (j + 1)
    have h1 : lubySum (2 ^ (j + 1) - 1) = j * 2 ^ j + 2 ^ j := by
      rw [show 2 ^ (j + 1) - 1 = (2 ^ (j + 1) - 2) + 1 by omega, lubySum, lubySum_pow j, Luby.after_pow]
    rw [show 2 ^ (j + 1 + 1) - 2 = 2 ^ (j + 1) - 1 + (2 ^ (j + 1) - 1) by omega,
      lubySum_shift j _ (Nat.le_refl _), h1, e1]
    ring

/-! ## Runs -/

section
variable {env : Env} {n : Nat} {F : DB} {s s' : Solver}

/-- What holds before each iteration of the main loop. -/
structure Epoch (env : Env) (n : Nat) (F : DB) (s : Solver) : Prop where
  inv : SolverInv env n F s
  luby : s.schedule.luby = Luby.after s.ctx.search.restarts
  next : s.schedule.nextRestart = 512 * lubySum s.ctx.search.restarts
  le : s.ctx.search.conflicts ≤ s.schedule.nextRestart
  code : s.ctx.search.conflicts ≤ 512 * lubySum (s.ctx.search.restarts - 1) + s.search.prop.trail.code n
  short : ∀ i, i + 1 < s.ctx.search.restarts → 512 * (Luby.after i).v < 2 ^ n

/-- Bound on the number of conflicts. -/
def maxConflicts (n : Nat) : Nat := (n - 9 + 1) * 2 ^ n

theorem lubySum_short {r : Nat} (h : ∀ i, i + 1 < r → 512 * (Luby.after i).v < 2 ^ n) :
    512 * lubySum (r - 1) + 2 ^ n ≤ maxConflicts n := by
  have hp := Nat.two_pow_pos (n - 9)
  have e : 2 ^ (n - 9 + 1) = 2 * 2 ^ (n - 9) := pow_succ' 2 (n - 9)
  have hr : r - 1 ≤ 2 ^ (n - 9 + 1) - 2 := by
    by_contra hlt
    have h1 := h (2 ^ (n - 9 + 1) - 2) (by omega)
    rw [Luby.after_pow] at h1
    simp only at h1
    by_cases h9 : 9 ≤ n
    · have : 2 ^ n = 512 * 2 ^ (n - 9) := by
        rw [show (512 : Nat) = 2 ^ 9 by rfl, ← pow_add, Nat.add_sub_cancel' h9]
      omega
    · have : 2 ^ n ≤ 2 ^ 9 := Nat.pow_le_pow_right (by omega) (by omega)
      omega
  have h2 := lubySum_mono hr
  rw [lubySum_pow] at h2
  unfold maxConflicts
  by_cases h9 : 9 ≤ n
  · have : 2 ^ n = 512 * 2 ^ (n - 9) := by
      rw [show (512 : Nat) = 2 ^ 9 by rfl, ← pow_add, Nat.add_sub_cancel' h9]
    have h3 : (n - 9 + 1) * 2 ^ n = 512 * ((n - 9) * 2 ^ (n - 9)) + 2 ^ n := by
      rw [Nat.add_mul, Nat.one_mul, this]; ring
    omega
  · have : n - 9 = 0 := by omega
    rw [this] at h2 ⊢
    simp only [Nat.zero_mul, Nat.zero_add, Nat.one_mul] at h2 ⊢
    omega

theorem Epoch.step (h : Epoch env n F s) {r : Option Bool} (e : s.scheduleStep env = .ok (s', r)) :
    s'.ctx.search.conflicts ≤ maxConflicts n ∧ (r = none → Epoch env n F s') := by
  obtain ⟨⟨L, S, hi⟩, hlu, hn, hle, hcode, hshort⟩ := h
  unfold Solver.scheduleStep at e
  obtain ⟨s1, e1, h1, hc1⟩ := maybeRestart_spec hi
  obtain ⟨s2, e2, ⟨L2, S2, h2⟩, hc2⟩ := maybeReduce_spec h1
  -- a reduction only changes clauses
  have red : s2.search.prop.trail = s1.search.prop.trail ∧
      s2.ctx.search.conflicts = s1.ctx.search.conflicts ∧
      s2.ctx.search.restarts = s1.ctx.search.restarts ∧ s2.schedule.luby = s1.schedule.luby ∧
      s2.schedule.nextRestart = s1.schedule.nextRestart := by
    rcases hc2 with ⟨_, rfl⟩ | ⟨_, g1, g2⟩
    · exact ⟨rfl, rfl, rfl, rfl, rfl⟩
    · obtain ⟨ctx', s3, L', D, S', e3, _, q, _⟩ := reduce_inv h1
      rw [g1] at e3
      simp only [Except.ok.injEq, Prod.mk.injEq] at e3
      obtain ⟨a, ha⟩ := q.eq
      rw [e3.1, e3.2, q.del.search, g2, ha]
      exact ⟨rfl, rfl, rfl, rfl, rfl⟩
  obtain ⟨r1, r2, r3, r4, r5⟩ := red
  rw [e1, bind_ok, e2, bind_ok] at e
  obtain ⟨⟨ctx', search', r'⟩, e3, e⟩ := bind_eq_ok.1 e
  cases e
  obtain ⟨L', S', h', q⟩ := (searchStep_spec h2).ok_elim e3
  obtain ⟨w0, w1, w2, w3⟩ := q.code
  rw [r1, r2] at w3
  rw [r2] at w1 w2
  rw [r3] at w0
  -- what holds after the restart
  have mid : s1.schedule.luby = Luby.after s1.ctx.search.restarts ∧
      s1.schedule.nextRestart = 512 * lubySum s1.ctx.search.restarts ∧
      s1.ctx.search.conflicts < s1.schedule.nextRestart ∧
      s1.ctx.search.conflicts ≤ 512 * lubySum (s1.ctx.search.restarts - 1) + s1.search.prop.trail.code n ∧
      ∀ i, i + 1 < s1.ctx.search.restarts → 512 * (Luby.after i).v < 2 ^ n := by
    rcases hc1 with ⟨g0, rfl⟩ | ⟨g0, g1, g2⟩
    · exact ⟨hlu, hn, g0, hcode, hshort⟩
    · obtain ⟨ctx1, s3, e3, _, g3, g4, _⟩ := restart_spec hi
      rw [g1] at e3
      simp only [Except.ok.injEq, Prod.mk.injEq] at e3
      have x1 : s1.ctx.search.restarts = s.ctx.search.restarts + 1 := by rw [e3.1, g3]
      have x2 : s1.ctx.search.conflicts = s.ctx.search.conflicts := by rw [e3.1, g3]
      have hv := (Luby.inv_after s.ctx.search.restarts).pow
      obtain ⟨a, ha⟩ := hv
      have hp := Nat.two_pow_pos a
      have hnext : s1.schedule.nextRestart = 512 * lubySum s.ctx.search.restarts +
          512 * (Luby.after s.ctx.search.restarts).v := by
        rw [g2, hlu, Luby.advance_fst]
        simp only
        omega
      refine ⟨by rw [x1, g2, hlu]; rfl, ?_, ?_, ?_, ?_⟩
      · rw [hnext, x1, lubySum, Nat.mul_add]
      · rw [hnext, x2, ha]; omega
      · rw [x1, x2, Nat.add_sub_cancel]; omega
      · intro i hi1
        rw [x1] at hi1
        by_cases hi2 : i + 1 < s.ctx.search.restarts
        · exact hshort i hi2
        · have hi3 : s.ctx.search.restarts = i + 1 := by omega
          have hc := s.search.prop.trail.code_lt n
          rw [hi3, Nat.add_sub_cancel] at hcode
          rw [hi3, lubySum, Nat.mul_add] at hn
          omega
  obtain ⟨m1, m2, m3, m4, m5⟩ := mid
  have hb := lubySum_short m5
  have hc := s1.search.prop.trail.code_lt n
  refine ⟨by simp only; omega, ?_⟩
  rintro rfl
  have w3 := w3 rfl
  refine ⟨⟨L', S', h'⟩, ?_, ?_, ?_, ?_, ?_⟩ <;> simp only
  · rw [w0, r4, m1]
  · rw [w0, r5, m2]
  · rw [r5]; omega
  · rw [w0]; omega
  · rw [w0]; exact m5

theorem Epoch.solve : ∀ {k : Nat} {s s' : Solver} {r : Option Bool}, Epoch env n F s →
    s.solve env k = .ok (s', r) → s.ctx.search.conflicts ≤ maxConflicts n →
    s'.ctx.search.conflicts ≤ maxConflicts n
  | 0, s, s', r, _, e, h => by cases e; exact h
  | k + 1, s, s', r, h, e, _ => by
    simp only [Solver.solve] at e
    obtain ⟨⟨s1, r1⟩, e1, e⟩ := bind_eq_ok.1 e
    obtain ⟨h1, h2⟩ := h.step e1
    cases r1 with
    | some b => cases e; exact h1
    | none => exact (h2 rfl).solve e h1

end

section
variable {env : Env} {F : List (List Lit)} {s s' : Solver} {k : Nat}

theorem Solver.Input.epoch (h : Solver.Input env F s) : Epoch env (formulaVars F) (toDB F) s := by
  have hs := h.start.search
  have hc := h.start.schedule
  refine ⟨(Solver.Reachable.input h).inv, ?_, ?_, ?_, ?_, ?_⟩
  · rw [hs, hc]; rfl
  · rw [hs, hc]; rfl
  · rw [hs]; exact Nat.zero_le _
  · rw [hs]; exact Nat.zero_le _
  · rw [hs]; intro i hi; simp at hi

/-- C87: a run on `n` variables has at most `2 ^ n` conflicts for `n ≤ 9`, and at most `(n - 8) * 2 ^ n`
conflicts for `n ≥ 9`. -/
theorem C87_conflicts (h : Solver.Input env F s) {r : Option Bool} (e : s.solve env k = .ok (s', r)) :
    s'.ctx.search.conflicts ≤ (formulaVars F - 9 + 1) * 2 ^ formulaVars F := by
  refine h.epoch.solve e ?_
  rw [h.start.search]
  exact Nat.zero_le _

/-- C87: so `solve()` returns an answer after this number of iterations, unless the clause arena is full or
exceeds the sizes covered by the model. -/
theorem C87_answer (h : Solver.Input env F s) {c n : Nat} (hn : n = formulaVars F) (hc : c = (n - 9 + 1) * 2 ^ n)
    (hk : c + n * (c + c / 512 + 2) < k) :
    (∃ s' b, s.solve env k = .ok (s', some b)) ∨ s.solve env k = .error .arenaFull ∨
      s.solve env k = .error .tooBig := by
  cases e : s.solve env k with
  | error err =>
    rcases C04_no_panic (.input h) k err e with rfl | rfl
    · exact .inr (.inl rfl)
    · exact .inr (.inr rfl)
  | ok x =>
    obtain ⟨s', r⟩ := x
    cases r with
    | some b => exact .inl ⟨s', b, rfl⟩
    | none =>
      exfalso
      have h1 := C60_bound h e
      have h2 := C87_conflicts h e
      rw [← hn, ← hc] at h2
      rw [← hn] at h1
      have h3 : n * (s'.ctx.search.conflicts + s'.ctx.search.conflicts / 512 + 2) ≤ n * (c + c / 512 + 2) :=
        Nat.mul_le_mul_left _ (by have := Nat.div_le_div_right (c := 512) h2; omega)
      omega

/-- C87: formulas with at most 50 variables need less than `2 ^ 56` conflicts and less than `2 ^ 63` iterations, so
no counter of conflicts or iterations overflows. -/
theorem C87_small (h : Solver.Input env F s) (hn : formulaVars F ≤ 50) :
    (∃ s' b, s.solve env (2 ^ 63) = .ok (s', some b) ∧ s'.ctx.search.conflicts < 2 ^ 56) ∨
      s.solve env (2 ^ 63) = .error .arenaFull ∨ s.solve env (2 ^ 63) = .error .tooBig := by
  have h1 : (formulaVars F - 9 + 1) * 2 ^ formulaVars F ≤ 42 * 2 ^ 50 :=
    Nat.mul_le_mul (by omega) (Nat.pow_le_pow_right (by omega) hn)
  generalize hc : (formulaVars F - 9 + 1) * 2 ^ formulaVars F = c at h1
  have h2 : formulaVars F * (c + c / 512 + 2) ≤ 50 * (c + c / 512 + 2) := Nat.mul_le_mul_right _ hn
  rcases C87_answer h rfl hc.symm (k := 2 ^ 63) (by omega) with ⟨s', b, e⟩ | e | e
  · refine .inl ⟨s', b, e, ?_⟩
    have := C87_conflicts h e
    omega
  · exact .inr (.inl e)
  · exact .inr (.inr e)

end

/-- All clauses with three variables. -/
def Example.all3 : List (List Int) :=
  [[1, 2, 3], [1, 2, -3], [1, -2, 3], [1, -2, -3], [-1, 2, 3], [-1, 2, -3], [-1, -2, 3], [-1, -2, -3]]

/-- A case for C87: three variables and all eight clauses of three literals need four conflicts of the eight that
are allowed. -/
theorem C87_example : ∃ s s', Solver.Input Example.env (Example.cnf Example.all3) s ∧
    s.solve Example.env 100 = .ok (s', some false) ∧ s'.ctx.search.conflicts = 4 ∧
    formulaVars (Example.cnf Example.all3) = 3 := by
  have h : (Example.run Example.all3).map (fun x => (x.1.ctx.search.conflicts, x.2)) =
      .ok (4, some false) := by decide +kernel
  obtain ⟨⟨s', r⟩, h1, h2⟩ := Example.of_map h
  simp only [Prod.mk.injEq] at h2
  obtain ⟨h2, rfl⟩ := h2
  unfold Example.run Example.load at h1
  obtain ⟨s, h3, h1⟩ := bind_eq_ok.1 h1
  have hi := Solver.Input.addClauses _ (.proof (.new (env := Example.env)))
    (Example.ok_valid (F := Example.all3) (by decide +kernel)) h3
  exact ⟨s, s', by simpa using hi, h1, h2, by decide +kernel⟩

end Starlit
