import Verif.Float
import Verif.Solver.Backtrack

/-!
# The arithmetic of VSIDS

Error bounds for rounding, and the constants and operations of `/repo/starlit/src/search/vsids.rs` as an
`Env`.
-/

namespace Starlit

namespace Fp

/-- The distance of neighbouring numbers. -/
theorem units_gap {p : Nat} (b : Nat) :
    2 ^ p * (units p (b + 1) - units p b) ≤ 2 ^ p + units p b := by
  obtain ⟨k, m, rfl, h, hm⟩ := decomp p b
  rw [units_eq h (by omega), Nat.add_assoc, units_eq (h.imp id (by omega)) (by omega),
    ← Nat.sub_mul, Nat.add_sub_cancel_left, one_mul]
  rcases h with rfl | h
  · simp
  · have := Nat.mul_le_mul_right (2 ^ k) h
    omega

end Fp

namespace FpFormat
variable {φ : FpFormat}

/-- Relative error of rounding. -/
noncomputable def eps (φ : FpFormat) : ℝ := 1 / 2 ^ φ.p

/-- The smallest positive number. -/
noncomputable def tiny (φ : FpFormat) : ℝ := 1 / φ.scale

theorem RoundedR.error {q : ℝ} {r f : Nat} (h : φ.RoundedR q r f) :
    |Fp.units φ.p r - q| ≤ φ.eps * q + 1 := by
  have hle := h.le
  have hlt := h.lt
  have hp : (0 : ℝ) < 2 ^ φ.p := by positivity
  have hg : (2 : ℝ) ^ φ.p * (Fp.units φ.p (f + 1) - Fp.units φ.p f) ≤ 2 ^ φ.p + Fp.units φ.p f := by
    have h1 := Fp.units_gap (p := φ.p) f
    have h2 := Fp.units_lt (p := φ.p).2 (Nat.lt_succ_self f)
    have h3 : ((2 ^ φ.p * (Fp.units φ.p (f + 1) - Fp.units φ.p f) : ℕ) : ℝ) ≤
        ((2 ^ φ.p + Fp.units φ.p f : ℕ) : ℝ) := by exact_mod_cast h1
    push_cast [Nat.cast_sub h2.le] at h3
    exact h3
  have hgap : (Fp.units φ.p (f + 1) - Fp.units φ.p f : ℝ) ≤ φ.eps * q + 1 := by
    have h4 : (Fp.units φ.p (f + 1) - Fp.units φ.p f : ℝ) ≤ (2 ^ φ.p + q) / 2 ^ φ.p := by
      rw [le_div_iff₀ hp]; linarith
    have h5 : ((2 : ℝ) ^ φ.p + q) / 2 ^ φ.p = φ.eps * q + 1 := by
      unfold eps; field_simp; ring
    rwa [h5] at h4
  rcases h.cases with rfl | rfl
  · rw [abs_le]; constructor <;> linarith
  · rw [abs_le]; constructor <;> linarith

theorem round_error {N D : Nat} (hD : 0 < D) (hr : φ.round N D < φ.inf) :
    |φ.value (φ.round N D) - (N : ℝ) / (D * φ.scale)| ≤
      φ.eps * ((N : ℝ) / (D * φ.scale)) + φ.tiny := by
  obtain ⟨f, h⟩ := Fp.roundBits_spec (N := N) φ.p_pos hD
  have h1 := (h.real hD).error
  have hs : (0 : ℝ) < φ.scale := by exact_mod_cast φ.scale_pos
  have e : φ.round N D = Fp.roundBits φ.p N D := by
    unfold round at hr ⊢; omega
  rw [e, value_eq, ← div_div, ← sub_div, abs_div, abs_of_pos hs, div_le_iff₀ hs]
  refine h1.trans (le_of_eq ?_)
  unfold tiny
  field_simp

theorem add_error {a b : Nat} (ha : a < φ.inf) (hb : b < φ.inf) (hr : φ.add a b < φ.inf) :
    |φ.value (φ.add a b) - (φ.value a + φ.value b)| ≤
      φ.eps * (φ.value a + φ.value b) + φ.tiny := by
  unfold add at hr ⊢
  rw [if_pos ⟨ha, hb⟩] at hr ⊢
  have := round_error (N := Fp.units φ.p a + Fp.units φ.p b) (D := 1) (by decide) hr
  rw [value_eq φ a, value_eq φ b, ← add_div]
  simpa using this

theorem mul_error {a b : Nat} (ha : a < φ.inf) (hr : φ.mul a b < φ.inf) :
    |φ.value (φ.mul a b) - φ.value a * φ.value b| ≤ φ.eps * (φ.value a * φ.value b) + φ.tiny := by
  unfold mul at hr ⊢
  rw [if_pos ha] at hr ⊢
  have := round_error (N := Fp.units φ.p a * Fp.units φ.p b) φ.scale_pos hr
  rw [value_eq φ a, value_eq φ b, div_mul_div_comm]
  simpa using this

theorem value_nonneg (a : Nat) : 0 ≤ φ.value a := by
  rw [value_eq]; positivity

/-- Adding enough leads to the next number. -/
theorem lt_add {a b : Nat} (ha : a < φ.inf) (hb : b < φ.inf)
    (h : φ.eps * φ.value a + φ.tiny ≤ φ.value b) : a < φ.add a b := by
  have hs : (0 : ℝ) < φ.scale := by exact_mod_cast φ.scale_pos
  have hp : (0 : ℝ) < 2 ^ φ.p := by positivity
  have hg : Fp.units φ.p (a + 1) ≤ Fp.units φ.p a + Fp.units φ.p b := by
    have h1 := Fp.units_gap (p := φ.p) a
    have h2 := Fp.units_lt (p := φ.p).2 (Nat.lt_succ_self a)
    have h3 : ((2 ^ φ.p * (Fp.units φ.p (a + 1) - Fp.units φ.p a) : ℕ) : ℝ) ≤
        ((2 ^ φ.p + Fp.units φ.p a : ℕ) : ℝ) := by exact_mod_cast h1
    push_cast [Nat.cast_sub h2.le] at h3
    rw [value_eq, value_eq] at h
    unfold eps tiny at h
    have h4 : (1 / 2 ^ φ.p * (Fp.units φ.p a / φ.scale) + 1 / φ.scale : ℝ) =
        ((2 ^ φ.p + Fp.units φ.p a) / 2 ^ φ.p) / φ.scale := by field_simp; ring
    rw [h4, div_le_div_iff_of_pos_right hs, div_le_iff₀ hp] at h
    have h5 : (Fp.units φ.p (a + 1) : ℝ) ≤ Fp.units φ.p a + Fp.units φ.p b := by
      by_contra hc
      push Not at hc
      have : (2 : ℝ) ^ φ.p * Fp.units φ.p b <
          2 ^ φ.p * (Fp.units φ.p (a + 1) - Fp.units φ.p a) :=
        mul_lt_mul_of_pos_left (by linarith) hp
      linarith
    exact_mod_cast h5
  unfold add
  rw [if_pos ⟨ha, hb⟩]
  have h1 := φ.round_units (D := 1) (b := a + 1) (by decide) (by omega)
  have h2 := φ.round_mono (N := Fp.units φ.p (a + 1) * 1) (D := 1)
    (N' := Fp.units φ.p a + Fp.units φ.p b) (D' := 1) (by decide) (by decide) (by omega)
  omega

end FpFormat

/-! ## Constants -/

/-- `RESCALE_LIMIT` (`/repo/starlit/src/search/vsids.rs:47`): `std::f32::MAX / 16.0`. -/
def RESCALE_LIMIT : Nat := F32.div (F32.inf - 1) (F32.ofRatio 16 1)

/-- `RESCALE_FACTOR` (`/repo/starlit/src/search/vsids.rs:48`): `1.0 / RESCALE_LIMIT`. -/
def RESCALE_FACTOR : Nat := F32.div (F32.ofRatio 1 1) RESCALE_LIMIT

/-- `INVERSE_DECAY` (`/repo/starlit/src/search/vsids.rs:49`): `1.0 / 0.95`. -/
def INVERSE_DECAY : Nat := F32.div (F32.ofRatio 1 1) (F32.ofRatio 95 100)

/-- The arithmetic of the solver: `f32` operations on bit patterns, and for the reduction interval the
`f64` expression `(2000.0 * (reductions as f64).sqrt()) as u64` (`/repo/starlit/src/state.rs:70`).  The
order of the elements above the selected one after `select_nth_unstable` is left open. -/
def f32Env (order : List (Nat × Nat) → List (Nat × Nat)) (perm : ∀ l, (order l).Perm l) : Env where
  one := F32.ofRatio 1 1
  add := F32.add
  aboveLimit := fun b => decide (RESCALE_LIMIT < b)
  rescale := fun a => F32.mul a RESCALE_FACTOR
  decay := fun a => F32.mul a INVERSE_DECAY
  reduceInterval := fun i => F64.toU64 (F64.mul (F64.ofRatio 2000 1) (F64.sqrt (F64.ofRatio i 1)))
  order := order
  order_perm := perm

theorem f32Env_mono (order : List (Nat × Nat) → List (Nat × Nat)) (perm : ∀ l, (order l).Perm l) :
    (f32Env order perm).Mono :=
  ⟨fun a i => F32.add_ge a i, fun _ _ h => F32.mul_mono RESCALE_FACTOR h⟩

theorem RESCALE_LIMIT_eq : RESCALE_LIMIT = 2105540607 := by decide +kernel
theorem RESCALE_FACTOR_eq : RESCALE_FACTOR = 25165825 := by decide +kernel
theorem INVERSE_DECAY_eq : INVERSE_DECAY = 1065794722 := by decide +kernel
theorem F32_one : F32.ofRatio 1 1 = 1065353216 := by decide +kernel
theorem F32_inf : F32.inf = 2139095040 := by decide +kernel

theorem F32_scale : (F32.scale : ℝ) = 2 ^ 149 := by
  have : F32.scale = 2 ^ 149 := by decide +kernel
  rw [this]; norm_num

theorem limit_value : F32.value RESCALE_LIMIT = (2 ^ 24 - 1) * 2 ^ 100 := by
  rw [FpFormat.value_eq, F32_scale, RESCALE_LIMIT_eq,
    show Fp.units F32.p 2105540607 = (2 ^ 24 - 1) * 2 ^ 249 by decide +kernel]
  norm_num

theorem factor_value : F32.value RESCALE_FACTOR = (2 ^ 23 + 1) / 2 ^ 147 := by
  rw [FpFormat.value_eq, F32_scale, RESCALE_FACTOR_eq,
    show Fp.units F32.p 25165825 = (2 ^ 23 + 1) * 4 by decide +kernel]
  norm_num

theorem decay_value : F32.value INVERSE_DECAY = 8830114 / 2 ^ 23 := by
  rw [FpFormat.value_eq, F32_scale, INVERSE_DECAY_eq,
    show Fp.units F32.p 1065794722 = 8830114 * 2 ^ 126 by decide +kernel]
  norm_num

theorem one_value : F32.value (F32.ofRatio 1 1) = 1 := by
  rw [FpFormat.value_eq, F32_scale, F32_one,
    show Fp.units F32.p 1065353216 = 2 ^ 149 by decide +kernel]
  norm_num

theorem zero_value : F32.value 0 = 0 := by
  rw [FpFormat.value_eq, show Fp.units F32.p 0 = 0 by decide +kernel]; simp

theorem F32_eps : F32.eps = 1 / 2 ^ 23 := rfl

theorem F32_tiny : F32.tiny = 1 / 2 ^ 149 := by
  unfold FpFormat.tiny; rw [F32_scale]

/-- Results well below the largest number are finite. -/
theorem F32_finite {q : ℝ} {r : Nat} (h : F32.Nearest q r) (hq : q ≤ 2 ^ 127) : r < F32.inf := by
  refine lt_of_le_of_ne h.le fun e => ?_
  have := h.overflow.1 e
  have h1 : ((F32.bias : ℤ) - F32.p - 1) = 103 := by decide +kernel
  rw [h1, show F32.p = 23 from rfl] at this
  norm_num at this hq
  linarith

end Starlit
