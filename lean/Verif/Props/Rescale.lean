import Verif.Props.AnalysisCost

/-!
# C72: how often scores are rescaled

Rescaling visits all variables.  A conflict rescales at most once, and it takes at least 1600 conflicts from one rescaling
to the next but one.
-/

namespace Starlit

/-- `val b` is the number with the given bits. -/
local notation "val" => F32.value

/-! ## Counting by means of the increment -/

section
variable {env : Env}

theorem Vsids.bumpVarT_inc {v v' : Vsids} {x : Nat} {t : Cost} (e : v.bumpVarT env x = .ok (t, v')) :
    v'.increment = env.rescale^[t.2] v.increment := by
  unfold bumpVarT at e
  obtain ⟨old, _, e⟩ := bind_eq_ok.1 e
  obtain ⟨⟨k, a⟩, _, e⟩ := bind_eq_ok.1 e
  simp only at e
  split at e
  · cases e; rfl
  · cases e; rfl

namespace Analysis

theorem addLiteralT_inc {an an' : Analysis} {t : Trail} {l : Lit} {cb cb' : Callbacks} {k : Cost}
    (e : addLiteralT env an t l cb = .ok (k, an', cb')) :
    cb'.vsids.increment = env.rescale^[k.2] cb.vsids.increment := by
  unfold addLiteralT at e
  obtain ⟨i, _, e⟩ := bind_eq_ok.1 e
  obtain ⟨s, _, e⟩ := bind_eq_ok.1 e
  split at e
  · cases e; rfl
  obtain ⟨old, _, e⟩ := bind_eq_ok.1 e
  obtain ⟨flags, _, e⟩ := bind_eq_ok.1 e
  simp only at e
  split at e
  · cases e; rfl
  obtain ⟨⟨k, v⟩, e1, e⟩ := bind_eq_ok.1 e
  have h1 := Vsids.bumpVarT_inc e1
  simp only at e
  split at e
  · cases e; exact h1
  · cases e; exact h1

theorem addLiteralsT_inc {t : Trail} : ∀ {ls : List Lit} {an an' : Analysis} {cb cb' : Callbacks}
    {k : Cost}, addLiteralsT env t ls an cb = .ok (k, an', cb') →
    cb'.vsids.increment = env.rescale^[k.2] cb.vsids.increment
  | [], an, an', cb, cb', k, e => by cases e; rfl
  | l :: ls, an, an', cb, cb', k, e => by
    unfold addLiteralsT at e
    obtain ⟨⟨k1, an1, cb1⟩, e1, e⟩ := bind_eq_ok.1 e
    obtain ⟨⟨k2, r⟩, e2, e⟩ := bind_eq_ok.1 e
    cases e
    rw [addLiteralsT_inc e2, addLiteralT_inc e1, Prod.snd_add, ← Function.iterate_add_apply, Nat.add_comm]

theorem uipLoopT_inc : ∀ (k : Nat) {an an' : Analysis} {p p' : PropState} {cb cb' : Callbacks} {t : Cost},
    uipLoopT env k an p cb = .ok (t, an', p', cb') → cb'.vsids.increment = env.rescale^[t.2] cb.vsids.increment
  | 0, an, an', p, p', cb, cb', t, e => by cases e; rfl
  | k + 1, an, an', p, p', cb, cb', t, e => by
    unfold uipLoopT at e
    obtain ⟨flag, _, e⟩ := bind_eq_ok.1 e
    obtain ⟨flags, _, e⟩ := bind_eq_ok.1 e
    simp only at e
    split at e
    · obtain ⟨s, es, e⟩ := bind_eq_ok.1 e
      split at e
      · cases e
      split at e
      · obtain ⟨flags, _, e⟩ := bind_eq_ok.1 e
        cases e
        rfl
      · obtain ⟨⟨t1, an1, p1⟩, e1, e⟩ := bind_eq_ok.1 e
        obtain ⟨ls, e2, e⟩ := bind_eq_ok.1 e
        obtain ⟨⟨t2, an2, cb2⟩, e3, e⟩ := bind_eq_ok.1 e
        obtain ⟨⟨t3, r⟩, e4, e⟩ := bind_eq_ok.1 e
        cases e
        rw [uipLoopT_inc k e4, addLiteralsT_inc e3, ← Function.iterate_add_apply]
        simp only [Prod.snd_add]
        rw [Nat.zero_add, Nat.add_comm]
    · obtain ⟨⟨t3, r⟩, e4, e⟩ := bind_eq_ok.1 e
      cases e
      rw [uipLoopT_inc k e4]
      simp only [Prod.snd_add]
      rw [Nat.zero_add]

theorem derive1uipT_inc {an an' : Analysis} {p p' : PropState} {c : ConflictClause} {cb cb' : Callbacks} {t : Cost}
    (e : derive1uipT env an p c cb = .ok (t, an', p', cb')) :
    cb'.vsids.increment = env.rescale^[t.2] cb.vsids.increment := by
  unfold derive1uipT at e
  simp only at e
  obtain ⟨⟨t1, an1, p1⟩, e1, e⟩ := bind_eq_ok.1 e
  obtain ⟨ls, e2, e⟩ := bind_eq_ok.1 e
  obtain ⟨⟨t2, an2, cb2⟩, e3, e⟩ := bind_eq_ok.1 e
  obtain ⟨⟨t3, r⟩, e4, e⟩ := bind_eq_ok.1 e
  obtain ⟨_, _, e⟩ := bind_eq_ok.1 e
  cases e
  rw [uipLoopT_inc _ e4, addLiteralsT_inc e3, ← Function.iterate_add_apply]
  simp only [Prod.snd_add]
  rw [Nat.zero_add, Nat.add_comm]

/-- The increment after a conflict tells the number of rescalings. -/
theorem analyzeConflictT_inc {ctx ctx' : Ctx} {an an' : Analysis} {p p' : PropState} {c : ConflictClause}
    {cb cb' : Callbacks} {t : Cost} (e : analyzeConflictT env ctx an p c cb = .ok (t, ctx', an', p', cb')) :
    ∃ r1 r2, t.2 = r1 + r2 ∧ r2 ≤ 1 ∧
      cb'.vsids.increment = env.rescale^[r2] (env.decay (env.rescale^[r1] cb.vsids.increment)) := by
  unfold analyzeConflictT at e
  obtain ⟨_, _, e⟩ := bind_eq_ok.1 e
  obtain ⟨⟨t1, an1, p2, cb1⟩, e1, e⟩ := bind_eq_ok.1 e
  simp only at e
  obtain ⟨⟨t3, an2, level⟩, e2, e⟩ := bind_eq_ok.1 e
  obtain ⟨⟨t4, p3, cb2⟩, e3, e⟩ := bind_eq_ok.1 e
  obtain ⟨⟨t5, ctx5, an5, p5⟩, e4, e⟩ := bind_eq_ok.1 e
  cases e
  have h3 : backtrackToLevel p2 level { cb1 with vsids := (Vsids.doDecayT env cb1.vsids).2 } = .ok (p3, cb2) := by
    rw [← backtrackToLevelT_erase, e3]; rfl
  have h4 := congrArg Act.inc (backtrackToLevel_act h3)
  change cb2.vsids.increment = (Vsids.doDecayT env cb1.vsids).2.increment at h4
  have h5 := derive1uipT_inc e1
  rw [h4]
  unfold Vsids.doDecayT
  simp only
  split
  · exact ⟨t1.2, 1, by simp [Prod.snd_add], Nat.le_refl _, by rw [← h5]; rfl⟩
  · exact ⟨t1.2, 0, by simp [Prod.snd_add], Nat.zero_le _, by rw [← h5]; rfl⟩

end Analysis

end

/-! ## The arithmetic -/

namespace Score32

/-- Rescaling, from above. -/
theorem rescale_le {a : Nat} (h : val a ≤ 2 ^ 127) : val (F32.mul a RESCALE_FACTOR) ≤
    val a * ((2 ^ 23 + 1) / 2 ^ 147 * (1 + 1 / 2 ^ 23)) + 1 / 2 ^ 149 := by
  have := (abs_le.1 (rescale_spec h)).2
  linarith

/-- Enlarging the increment, from above. -/
theorem decay_le {a : Nat} (h : val a ≤ 2 ^ 126) : val (F32.mul a INVERSE_DECAY) ≤
    val a * (8830114 / 2 ^ 23 * (1 + 1 / 2 ^ 23)) + 1 / 2 ^ 149 := by
  have := (abs_le.1 (decay_spec h)).2
  linarith

/-- Small numbers become tiny. -/
theorem rescale_small (k : Nat) : ∀ {a : Nat}, val a ≤ 4 →
    val ((fun a => F32.mul a RESCALE_FACTOR)^[k + 1] a) ≤ 1 / 2 ^ 100 := by
  induction k with
  | zero =>
    intro a h
    have := rescale_le (a := a) (by norm_num; linarith)
    simp only [Nat.zero_add, Function.iterate_one]
    norm_num at this ⊢
    linarith
  | succ k ih =>
    intro a h
    rw [Function.iterate_succ_apply]
    refine ih ?_
    have := rescale_le (a := a) (by norm_num; linarith)
    norm_num at this ⊢
    linarith

/-- A conflict rescales at most once, and the increment grows by a twentieth and shrinks by `2 ^ 124`. -/
theorem conflict_inc {i r1 r2 : Nat} (hi : IncOK i) (h2 : r2 ≤ 1)
    (hx : 1 / 32 ≤ val ((fun a => F32.mul a RESCALE_FACTOR)^[r2]
      (F32.mul ((fun a => F32.mul a RESCALE_FACTOR)^[r1] i) INVERSE_DECAY))) :
    r1 + r2 ≤ 1 ∧ val ((fun a => F32.mul a RESCALE_FACTOR)^[r2]
      (F32.mul ((fun a => F32.mul a RESCALE_FACTOR)^[r1] i) INVERSE_DECAY)) ≤
      val i * (10527 / 10000) * (1001 / 1000 / 2 ^ 124) ^ (r1 + r2) := by
  obtain ⟨hi1, hi2⟩ := hi
  rw [le_limit] at hi2
  have hR := rescale_le (a := i) (by norm_num at hi2 ⊢; linarith)
  match r1, r2, h2 with
  | 0, 0, _ =>
    have hD := decay_le (a := i) (by norm_num at hi2 ⊢; linarith)
    simp only [Function.iterate_zero, id] at hx ⊢
    refine ⟨by omega, ?_⟩
    norm_num at hD hi1 hx ⊢
    linarith
  | 0, 1, _ =>
    have hD := decay_le (a := i) (by norm_num at hi2 ⊢; linarith)
    simp only [Function.iterate_zero, id, Function.iterate_one] at hx ⊢
    have hR2 := rescale_le (a := F32.mul i INVERSE_DECAY) (by norm_num at hD hi2 ⊢; linarith)
    refine ⟨by omega, ?_⟩
    norm_num at hD hi1 hx hR2 ⊢
    linarith
  | 1, 0, _ =>
    simp only [Function.iterate_zero, id, Function.iterate_one] at hx ⊢
    have hD := decay_le (a := F32.mul i RESCALE_FACTOR) (by norm_num at hR hi2 ⊢; linarith)
    refine ⟨by omega, ?_⟩
    norm_num at hD hi1 hx hR ⊢
    linarith
  | 1, 1, _ =>
    exfalso
    simp only [Function.iterate_one] at hx
    have hD := decay_le (a := F32.mul i RESCALE_FACTOR) (by norm_num at hR hi2 ⊢; linarith)
    have hR2 := rescale_le (a := F32.mul (F32.mul i RESCALE_FACTOR) INVERSE_DECAY) (by norm_num at hR hD hi2 ⊢; linarith)
    norm_num at hD hR hi2 hx hR2
    linarith
  | k + 2, r2, h2 =>
    exfalso
    have hs : val ((fun a => F32.mul a RESCALE_FACTOR)^[k + 2] i) ≤ 1 / 2 ^ 100 := by
      rw [Function.iterate_succ_apply]
      refine rescale_small k ?_
      norm_num at hR hi2 ⊢
      linarith
    generalize (fun a => F32.mul a RESCALE_FACTOR)^[k + 2] i = m at hx hs
    have hD := decay_le (a := m) (by norm_num at hs ⊢; linarith)
    match r2, h2 with
    | 0, _ =>
      simp only [Function.iterate_zero, id] at hx
      norm_num at hD hs hx
      linarith
    | 1, _ =>
      simp only [Function.iterate_one] at hx
      have hR2 := rescale_le (a := F32.mul m INVERSE_DECAY) (by norm_num at hD hs ⊢; linarith)
      norm_num at hD hs hx hR2
      linarith

theorem rate : (10527 / 10000 : ℝ) ^ 1600 * (1001 / 1000 / 2 ^ 124) ≤ 1 / 33 := by
  have h1 : (10527 / 10000 : ℝ) ^ 40 ≤ 7802 / 1000 := by norm_num
  have h2 : (10527 / 10000 : ℝ) ^ 1600 ≤ (7802 / 1000) ^ 40 := by
    rw [show 1600 = 40 * 40 by rfl, pow_mul]
    exact pow_le_pow_left₀ (by positivity) h1 40
  refine (mul_le_mul_of_nonneg_right h2 (by norm_num)).trans ?_
  norm_num

theorem rate_pow {C R : Nat} (h : C ≤ 1600 * R) (h0 : R ≠ 0) :
    (10527 / 10000 : ℝ) ^ C * (1001 / 1000 / 2 ^ 124) ^ R ≤ 1 / 33 := by
  have h1 : (10527 / 10000 : ℝ) ^ C ≤ (10527 / 10000) ^ (1600 * R) := pow_le_pow_right₀ (by norm_num) h
  have h2 : (0 : ℝ) ≤ (1001 / 1000 / 2 ^ 124) ^ R := by positivity
  refine (mul_le_mul_of_nonneg_right h1 h2).trans ?_
  rw [pow_mul, ← mul_pow]
  refine (pow_le_pow_left₀ (by positivity) rate R).trans ?_
  exact pow_le_of_le_one (by norm_num) (by norm_num) h0

end Score32

/-! ## Runs -/

/-- A part of a run from one state to another, with the number of conflicts above the top level and the number of times the
scores are rescaled. -/
inductive Solver.Rescalings (env : Env) (F : List (List Lit)) (s0 : Solver) : Solver → Nat → Nat → Prop
  | start : Rescalings env F s0 s0 0 0
  | restart {s s' : Solver} {C R : Nat} : Rescalings env F s0 s C R →
      s.maybeRestart = .ok s' → Rescalings env F s0 s' C R
  | reduce {s s' : Solver} {C R : Nat} : Rescalings env F s0 s C R →
      s.maybeReduce env = .ok s' → Rescalings env F s0 s' C R
  | learn {s : Solver} {C R : Nat} {p1 p p' : PropState} {ctx1 ctx ctx' : Ctx} {an' : Analysis} {cb' : Callbacks}
      {c : ConflictClause} {search : Search} {r : Option Bool} {t : Cost} : Rescalings env F s0 s C R →
      Solver.Propagating env F s p1 ctx1 p (some c) → p.trail.decisionLevel ≠ 0 →
      searchStep env s.ctx s.search = .ok (ctx, search, r) →
      Analysis.analyzeConflictT env ctx1.conflict s.search.analysis p c s.search.cb = .ok (t, ctx', an', p', cb') →
      Rescalings env F s0 { s with ctx := ctx, search := search } (C + 1) (R + t.2)
  | step {s : Solver} {C R : Nat} {ctx : Ctx} {search : Search} {r : Option Bool} : Rescalings env F s0 s C R →
      (∀ p1 ctx1 p c, Solver.Propagating env F s p1 ctx1 p (some c) → p.trail.decisionLevel = 0) →
      searchStep env s.ctx s.search = .ok (ctx, search, r) →
      Rescalings env F s0 { s with ctx := ctx, search := search } C R

section
variable {env : Env} {F : List (List Lit)} {s s0 : Solver} {C R : Nat}

theorem Solver.Rescalings.reachable (h0 : Solver.Reachable env F s0) (h : Solver.Rescalings env F s0 s C R) :
    Solver.Reachable env F s := by
  induction h with
  | start => exact h0
  | restart _ e ih => exact ih.restart e
  | reduce _ e ih => exact ih.reduce e
  | learn _ _ _ e _ ih => exact ih.step e
  | step _ _ e ih => exact ih.step e

/-- Every run has these numbers. -/
theorem C72_numbers (h : Solver.Reachable env F s) :
    ∃ s0 C R, Solver.Input env F s0 ∧ Solver.Rescalings env F s0 s C R := by
  induction h with
  | @input s h => exact ⟨s, 0, 0, h, .start⟩
  | restart _ e ih => obtain ⟨s0, C, R, hi, ih⟩ := ih; exact ⟨s0, C, R, hi, ih.restart e⟩
  | reduce _ e ih => obtain ⟨s0, C, R, hi, ih⟩ := ih; exact ⟨s0, C, R, hi, ih.reduce e⟩
  | @step s ctx search r _ e ih =>
    obtain ⟨s0, C, R, hi, ih⟩ := ih
    by_cases hc : ∃ p1 ctx1 p c, Solver.Propagating env F s p1 ctx1 p (some c) ∧ p.trail.decisionLevel ≠ 0
    · obtain ⟨p1, ctx1, p, c, h1, h2⟩ := hc
      obtain ⟨ctx', an', p', cb', ea, _⟩ := searchStep_conflict h1 h2 e
      rw [← Analysis.analyzeConflictT_erase] at ea
      obtain ⟨t, et⟩ := map_snd_eq_ok ea
      exact ⟨s0, _, _, hi, ih.learn h1 h2 e et⟩
    · refine ⟨s0, _, _, hi, ih.step ?_ e⟩
      intro p1 ctx1 p c hp
      by_contra h0
      exact hc ⟨p1, ctx1, p, c, hp, h0⟩

end

section
variable {order : List (Nat × Nat) → List (Nat × Nat)} {perm : ∀ l, (order l).Perm l}
  {F : List (List Lit)} {s s0 : Solver} {C R : Nat}

theorem conflict_rescale {p1 p p' : PropState} {ctx1 ctx ctx' : Ctx} {c : ConflictClause} {search : Search}
    {r : Option Bool} {an' : Analysis} {cb' : Callbacks} {t : Cost}
    (h : Solver.Propagating (f32Env order perm) F s p1 ctx1 p (some c))
    (h0 : p.trail.decisionLevel ≠ 0) (e : searchStep (f32Env order perm) s.ctx s.search = .ok (ctx, search, r))
    (et : Analysis.analyzeConflictT (f32Env order perm) ctx1.conflict s.search.analysis p c s.search.cb =
      .ok (t, ctx', an', p', cb')) :
    t.2 ≤ 1 ∧ val search.cb.vsids.increment ≤
      val s.search.cb.vsids.increment * (10527 / 10000) * (1001 / 1000 / 2 ^ 124) ^ t.2 := by
  obtain ⟨ctx2, an2, p2, cb2, ea, rfl⟩ := searchStep_conflict h h0 e
  rw [← Analysis.analyzeConflictT_erase, et] at ea
  cases ea
  obtain ⟨r1, r2, h1, h2, h3⟩ := Analysis.analyzeConflictT_inc et
  obtain ⟨_, i1, i2⟩ := C41_range h.reach
  obtain ⟨_, i3, _⟩ := C41_range (h.reach.step e)
  simp only at i3 ⊢
  rw [h3] at i3 ⊢
  rw [h1]
  exact Score32.conflict_inc ⟨i1, F32.value_le.1 i2⟩ h2 i3

/-- C72: a conflict rescales the scores at most once. -/
theorem C72_once {p1 p p' : PropState} {ctx1 ctx ctx' : Ctx} {c : ConflictClause} {search : Search}
    {r : Option Bool} {an' : Analysis} {cb' : Callbacks} {t : Cost}
    (h : Solver.Propagating (f32Env order perm) F s p1 ctx1 p (some c))
    (h0 : p.trail.decisionLevel ≠ 0) (e : searchStep (f32Env order perm) s.ctx s.search = .ok (ctx, search, r))
    (et : Analysis.analyzeConflictT (f32Env order perm) ctx1.conflict s.search.analysis p c s.search.cb =
      .ok (t, ctx', an', p', cb')) : t.2 ≤ 1 :=
  (conflict_rescale h h0 e et).1

theorem Solver.Rescalings.inc (h0 : Solver.Reachable (f32Env order perm) F s0)
    (h : Solver.Rescalings (f32Env order perm) F s0 s C R) :
    val s.search.cb.vsids.increment ≤
      val s0.search.cb.vsids.increment * ((10527 / 10000) ^ C * (1001 / 1000 / 2 ^ 124) ^ R) := by
  induction h with
  | start => simp
  | restart _ e ih =>
    have := congrArg Act.inc (maybeRestart_act e)
    exact (congrArg F32.value this).trans_le ih
  | reduce _ e ih =>
    have := congrArg Act.inc (maybeReduce_act e)
    exact (congrArg F32.value this).trans_le ih
  | @learn s C R p1 p p' ctx1 ctx ctx' an' cb' c search r t hr hp hl e et ih =>
    refine (conflict_rescale hp hl e et).2.trans ?_
    have h1 := mul_le_mul_of_nonneg_right ih
      (show (0 : ℝ) ≤ (10527 / 10000) * (1001 / 1000 / 2 ^ 124) ^ t.2 by positivity)
    rw [← mul_assoc] at h1
    refine h1.trans (le_of_eq ?_)
    rw [pow_succ, pow_add]
    ring
  | step hr hn e ih =>
    have := congrArg Act.inc ((C47_other (hr.reachable h0)).2.2 _ _ _ e hn)
    exact (congrArg F32.value this).trans_le ih

/-- C72, runs: there is at most one rescaling in 1600 conflicts. -/
theorem C72_run (h0 : Solver.Input (f32Env order perm) F s0) (h : Solver.Rescalings (f32Env order perm) F s0 s C R) :
    1600 * R ≤ C := by
  by_contra hc
  have h1 := h.inc (.input h0)
  have h2 := (C41_range (h.reachable (.input h0))).2.1
  have h3 : val s0.search.cb.vsids.increment = 1 := by
    have := congrArg Act.inc h0.act
    change s0.search.cb.vsids.increment = _ at this
    rw [this]
    exact one_value
  rw [h3, one_mul] at h1
  have h4 := Score32.rate_pow (C := C) (R := R) (by omega) (by omega)
  norm_num at h1 h2 h4
  linarith

/-- C72, parts of runs: in any stretch of a run the number of rescalings is at most one more than a 1600th of the number of
conflicts. -/
theorem C72_stretch (h0 : Solver.Reachable (f32Env order perm) F s0)
    (h : Solver.Rescalings (f32Env order perm) F s0 s C R) : 1600 * (R - 1) ≤ C := by
  by_contra hc
  have h1 := h.inc h0
  have h2 := (C41_range (h.reachable h0)).2.1
  have h3 := (C41_range h0).2.2
  rw [limit_value] at h3
  obtain ⟨R, rfl⟩ : ∃ k, R = k + 1 := ⟨R - 1, by omega⟩
  have h4 := Score32.rate_pow (C := C) (R := R) (by omega) (by omega)
  rw [pow_succ] at h1
  have h5 : (0 : ℝ) ≤ (10527 / 10000) ^ C * (1001 / 1000 / 2 ^ 124) ^ R := by positivity
  generalize hx : (10527 / 10000 : ℝ) ^ C * (1001 / 1000 / 2 ^ 124) ^ R = x at h4 h5
  have h6 : val s0.search.cb.vsids.increment * ((10527 / 10000) ^ C * ((1001 / 1000 / 2 ^ 124) ^ R *
      (1001 / 1000 / 2 ^ 124))) = val s0.search.cb.vsids.increment * (1001 / 1000 / 2 ^ 124) * x := by
    rw [← hx]; ring
  rw [h6] at h1
  have h7 : val s0.search.cb.vsids.increment * (1001 / 1000 / 2 ^ 124) ≤ 1001 / 1000 := by
    norm_num at h3 ⊢
    linarith
  have h8 := mul_le_mul_of_nonneg_right h7 h5
  linarith

end

/-- The hypotheses of C72 are met by a run with a conflict, which does not rescale; the same analysis with the increment at
the limit rescales once, to the value of the increment after one conflict. -/
theorem C72_example : ∃ s p1 ctx1 p c ctx search r t ctx' an' p' cb' s0 C R t2 z, Solver.Propagating Example.env32
    (Example.cnf [[1, -2], [2, -4], [4, -6], [5, 1, 6, 3], [5, 1, 6, -3]]) s p1 ctx1 p (some c) ∧
    p.trail.decisionLevel = 2 ∧ searchStep Example.env32 s.ctx s.search = .ok (ctx, search, r) ∧
    Analysis.analyzeConflictT Example.env32 ctx1.conflict s.search.analysis p c s.search.cb =
      .ok (t, ctx', an', p', cb') ∧ t.2 = 0 ∧
    Solver.Input Example.env32 (Example.cnf [[1, -2], [2, -4], [4, -6], [5, 1, 6, 3], [5, 1, 6, -3]]) s0 ∧
    Solver.Rescalings Example.env32 (Example.cnf [[1, -2], [2, -4], [4, -6], [5, 1, 6, 3], [5, 1, 6, -3]]) s0
      { s with ctx := ctx, search := search } (C + 1) R ∧
    Analysis.analyzeConflictT Example.env32 ctx1.conflict s.search.analysis p c
      { s.search.cb with vsids := { s.search.cb.vsids with increment := RESCALE_LIMIT } } = .ok (t2, z) ∧
    t2.2 = 1 ∧ z.2.2.2.vsids.increment = 1065794722 := by
  have h : (do
      let x ← Example.mid32 [[1, -2], [2, -4], [4, -6], [5, 1, 6, 3], [5, 1, 6, -3]] 2
      match x.2.2.2.2 with
      | none => throw .panic
      | some c => do
        let y ← searchStep Example.env32 x.1.ctx x.1.search
        let z ← Analysis.analyzeConflictT Example.env32 x.2.2.1.conflict x.1.search.analysis x.2.2.2.1 c x.1.search.cb
        let w ← Analysis.analyzeConflictT Example.env32 x.2.2.1.conflict x.1.search.analysis x.2.2.2.1 c
          { x.1.search.cb with vsids := { x.1.search.cb.vsids with increment := RESCALE_LIMIT } }
        pure [x.2.2.2.1.trail.decisionLevel, z.1.2, w.1.2, w.2.2.2.2.vsids.increment] : M (List Nat)) =
      .ok [2, 0, 1, 1065794722] := by
    decide +kernel
  obtain ⟨⟨s, p1, ctx1, p, r⟩, h1, h2⟩ := bind_eq_ok.1 h
  cases r with
  | none => cases h2
  | some c =>
    simp only at h2
    obtain ⟨⟨ctx, search, r⟩, hs, h2⟩ := bind_eq_ok.1 h2
    obtain ⟨⟨t, ctx', an', p', cb'⟩, hz, h2⟩ := bind_eq_ok.1 h2
    obtain ⟨⟨t2, z⟩, hw, h2⟩ := bind_eq_ok.1 h2
    have h3 := Except.ok.inj h2
    simp only [List.cons.injEq, and_true] at h3
    obtain ⟨a1, a2, a3, a4⟩ := h3
    have hp := Example.mid32_propagating (by decide +kernel) h1
    obtain ⟨s0, C, R, hi, hr⟩ := C72_numbers hp.reach
    exact ⟨s, p1, ctx1, p, c, ctx, search, r, t, ctx', an', p', cb', s0, C, _, t2, z, hp, a1, hs, hz, a2, hi,
      hr.learn hp (by omega) hs hz, hw, a3, a4⟩

end Starlit
