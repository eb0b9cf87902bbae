import Mathlib.Analysis.Real.Sqrt
import Mathlib.Tactic.FieldSimp
import Mathlib.Tactic.NormNum.Pow
import Verif.Fp

/-!
# The floating point operations of the solver

`f32` for VSIDS (`/repo/starlit/src/search/vsids.rs`), `f64` for the reduction interval
(`/repo/starlit/src/state.rs:70`).  Only numbers without sign occur; NaNs do not occur (C41).
-/

namespace Starlit

/-- A floating point format: bits of the mantissa and of the exponent. -/
structure FpFormat where
  p : Nat
  e : Nat
  p_pos : 0 < p
  e_big : 1 < e

/-- `f32`. -/
def F32 : FpFormat := ⟨23, 8, by decide, by decide⟩

/-- `f64`. -/
def F64 : FpFormat := ⟨52, 11, by decide, by decide⟩

namespace FpFormat
variable (φ : FpFormat)

/-- The bits of infinity: exponent all ones, mantissa 0. -/
def inf : Nat := (2 ^ φ.e - 1) * 2 ^ φ.p

/-- The exponent bias. -/
def bias : Nat := 2 ^ (φ.e - 1) - 1

/-- One in units of the smallest positive number: `2^149` for `f32`. -/
def scale : Nat := 2 ^ (φ.bias - 1 + φ.p)

/-- `N / D` units rounded to nearest even, with overflow to infinity. -/
def round (N D : Nat) : Nat := min φ.inf (Fp.roundBits φ.p N D)

/-- Conversion of an integer, and of a decimal literal `N / D`. -/
def ofRatio (N D : Nat) : Nat := φ.round (N * φ.scale) D

/-- Addition.  Not finite operands do not occur; the larger one is returned. -/
def add (a b : Nat) : Nat :=
  if a < φ.inf ∧ b < φ.inf then φ.round (Fp.units φ.p a + Fp.units φ.p b) 1 else max a b

/-- Multiplication by a finite constant.  Not finite operands do not occur; they are returned. -/
def mul (a b : Nat) : Nat :=
  if a < φ.inf then φ.round (Fp.units φ.p a * Fp.units φ.p b) φ.scale else a

/-- Division of finite numbers, the divisor is not zero. -/
def div (a b : Nat) : Nat := φ.round (Fp.units φ.p a * φ.scale) (Fp.units φ.p b)

/-- Square root of finite numbers.  `Nat.sqrt` of the square in units is at least `2^(p+1)`, so that
replacing the fractional part of the square root by `1/2` does not change the rounding. -/
def sqrt (a : Nat) : Nat :=
  let y := Fp.units φ.p a * φ.scale
  let s := Nat.sqrt y
  φ.round (2 * s + if s * s = y then 0 else 1) 2

/-- `as u64` of a finite number: truncation, saturating. -/
def toU64 (a : Nat) : Nat := min (2 ^ 64 - 1) (Fp.units φ.p a / φ.scale)

/-! ## Specification -/

/-- The number given by the bits, as in IEEE 754: sign-free exponent and mantissa fields. -/
noncomputable def value (b : Nat) : ℝ :=
  if b / 2 ^ φ.p = 0 then (b % 2 ^ φ.p : ℕ) / 2 ^ φ.p * (2 : ℝ) ^ (1 - φ.bias : ℤ)
  else (1 + (b % 2 ^ φ.p : ℕ) / 2 ^ φ.p) * (2 : ℝ) ^ ((b / 2 ^ φ.p : ℕ) - φ.bias : ℤ)

/-- Rounding to nearest, ties to even: numbers at least half a unit above the largest finite one
become infinite, for all others there is no closer finite number, and in case of a tie the mantissa is
even. -/
structure Nearest (q : ℝ) (r : Nat) : Prop where
  le : r ≤ φ.inf
  overflow : r = φ.inf ↔ (2 ^ (φ.p + 2) - 1) * (2 : ℝ) ^ (φ.bias - φ.p - 1 : ℤ) ≤ q
  nearest : r < φ.inf → ∀ b < φ.inf, |φ.value r - q| ≤ |φ.value b - q|
  even : r < φ.inf → ∀ b < φ.inf, b ≠ r → |φ.value b - q| = |φ.value r - q| → r % 2 = 0

/-! ## Correctness -/

theorem scale_pos : 0 < φ.scale := by unfold scale; positivity

theorem bias_pos : 0 < φ.bias := by
  have := φ.e_big
  unfold bias
  have : 2 ^ 1 ≤ 2 ^ (φ.e - 1) := Nat.pow_le_pow_right (by omega) (by omega)
  omega

theorem scale_real : (φ.scale : ℝ) = 2 ^ (φ.bias - 1 + φ.p : ℤ) := by
  have := φ.bias_pos
  unfold scale
  push_cast
  rw [← zpow_natCast]
  congr 1
  omega

/-- The value is the number of units. -/
theorem value_eq (b : Nat) : φ.value b = Fp.units φ.p b / φ.scale := by
  have hp : 0 < 2 ^ φ.p := by positivity
  have h2 : (2 : ℝ) ≠ 0 := by norm_num
  have hs : (φ.scale : ℝ) ≠ 0 := by exact_mod_cast φ.scale_pos.ne'
  rw [eq_div_iff hs, scale_real]
  unfold value Fp.units
  by_cases h : b < 2 ^ φ.p
  · rw [if_pos h, if_pos (Nat.div_eq_of_lt h), Nat.mod_eq_of_lt h, mul_assoc, ← zpow_add₀ h2,
      show (1 - φ.bias + (φ.bias - 1 + φ.p) : ℤ) = φ.p by ring, zpow_natCast]
    field_simp
  · have h1 : 1 ≤ b / 2 ^ φ.p := (Nat.le_div_iff_mul_le hp).2 (by omega)
    rw [if_neg h, if_neg (by omega), mul_assoc, ← zpow_add₀ h2]
    have e : ((b / 2 ^ φ.p : ℕ) - φ.bias + (φ.bias - 1 + φ.p) : ℤ) =
        (φ.p + (b / 2 ^ φ.p - 1) : ℕ) := by
      rw [Nat.cast_add, Nat.cast_sub h1]; push_cast; ring
    rw [e, zpow_natCast, pow_add]
    push_cast
    field_simp

theorem value_lt {a b : Nat} : φ.value a < φ.value b ↔ a < b := by
  have hs : (0 : ℝ) < φ.scale := by exact_mod_cast φ.scale_pos
  rw [value_eq, value_eq, div_lt_div_iff_of_pos_right hs, Nat.cast_lt, Fp.units_lt]

theorem value_le {a b : Nat} : φ.value a ≤ φ.value b ↔ a ≤ b := by
  rw [← not_lt, value_lt, not_lt]

theorem inf_pos : 0 < φ.inf := by
  have := φ.e_big
  unfold inf
  have : 2 ^ 2 ≤ 2 ^ φ.e := Nat.pow_le_pow_right (by omega) (by omega)
  exact Nat.mul_pos (by omega) (by positivity)

/-- Infinity is even, the largest finite number odd. -/
theorem inf_even : φ.inf % 2 = 0 := by
  have := φ.p_pos
  unfold inf
  obtain ⟨p', hp⟩ := Nat.exists_eq_succ_of_ne_zero this.ne'
  rw [hp, pow_succ, ← mul_assoc, Nat.mul_mod_left]

/-- Twice the overflow threshold in units. -/
theorem threshold : ((Fp.units φ.p (φ.inf - 1) + Fp.units φ.p φ.inf : ℕ) : ℝ) =
    2 * ((2 ^ (φ.p + 2) - 1) * (2 : ℝ) ^ (φ.bias - φ.p - 1 : ℤ)) * φ.scale := by
  have hp : 0 < 2 ^ φ.p := by positivity
  have he : 2 ≤ φ.e := φ.e_big
  have h4 : 2 * 2 ^ (φ.e - 1) = 2 ^ φ.e := by rw [← pow_succ']; congr 1; omega
  have hb := φ.bias_pos
  have hbb : φ.bias = 2 ^ (φ.e - 1) - 1 := rfl
  have h3 : 2 ^ φ.e - 1 = (2 * φ.bias - 1) + 2 := by omega
  have e1 : φ.inf = (2 * φ.bias - 1) * 2 ^ φ.p + 2 * 2 ^ φ.p := by
    unfold inf; rw [h3, Nat.add_mul]
  have e2 : φ.inf - 1 = (2 * φ.bias - 1) * 2 ^ φ.p + (2 * 2 ^ φ.p - 1) := by
    rw [e1]; omega
  rw [e2, e1, Fp.units_eq (.inr (by omega)) (by omega), Fp.units_eq (.inr (by omega)) (by omega),
    ← Nat.add_mul, scale_real]
  have h2 : (2 : ℝ) ≠ 0 := by norm_num
  have e3 : ((2 * 2 ^ φ.p - 1 + 2 * 2 ^ φ.p : ℕ) : ℝ) = 2 ^ (φ.p + 2) - 1 := by
    rw [show 2 * 2 ^ φ.p - 1 + 2 * 2 ^ φ.p = 2 ^ (φ.p + 2) - 1 by rw [pow_add]; omega,
      Nat.cast_sub (Nat.one_le_two_pow)]
    push_cast; ring
  have e4 : ((2 ^ (2 * φ.bias - 1) : ℕ) : ℝ) =
      2 * (2 : ℝ) ^ (φ.bias - φ.p - 1 : ℤ) * 2 ^ (φ.bias - 1 + φ.p : ℤ) := by
    rw [mul_assoc, ← zpow_add₀ h2, show (φ.bias - φ.p - 1 + (φ.bias - 1 + φ.p) : ℤ) =
      (2 * φ.bias - 1 : ℕ) - 1 by omega, zpow_sub₀ h2]
    push_cast
    rw [zpow_natCast]
    field_simp
  rw [Nat.cast_mul, e3, e4]
  ring

/-- `r` is the real number `q`, in units, rounded to nearest even; `f` is the largest number not
above. -/
structure RoundedR (q : ℝ) (r f : Nat) : Prop where
  le : (Fp.units φ.p f : ℝ) ≤ q
  lt : q < Fp.units φ.p (f + 1)
  down : r = f → 2 * q < Fp.units φ.p f + Fp.units φ.p (f + 1) ∨
    2 * q = Fp.units φ.p f + Fp.units φ.p (f + 1) ∧ f % 2 = 0
  up : r ≠ f → r = f + 1 ∧ (Fp.units φ.p f + Fp.units φ.p (f + 1) < 2 * q ∨
    2 * q = Fp.units φ.p f + Fp.units φ.p (f + 1) ∧ f % 2 = 1)

variable {φ}

theorem _root_.Starlit.Fp.Rounded.real {N D r f : Nat} (hD : 0 < D)
    (h : Fp.Rounded φ.p N D r f) : φ.RoundedR (N / D) r f := by
  have hd : (0 : ℝ) < D := by exact_mod_cast hD
  have e1 : 2 * ((N : ℝ) / D) = ((2 * N : ℕ) : ℝ) / D := by push_cast; ring
  have e2 : (Fp.units φ.p f + Fp.units φ.p (f + 1) : ℝ) =
      ((Fp.units φ.p f + Fp.units φ.p (f + 1) : ℕ) : ℝ) := by push_cast; rfl
  refine ⟨?_, ?_, ?_, ?_⟩
  · rw [le_div_iff₀ hd]; exact_mod_cast h.le
  · rw [div_lt_iff₀ hd]; exact_mod_cast h.lt
  · intro e
    rw [e1, e2, div_lt_iff₀ hd, div_eq_iff hd.ne']
    exact (h.down e).imp (fun h => by exact_mod_cast h) (fun h => ⟨by exact_mod_cast h.1, h.2⟩)
  · intro e
    rw [e1, e2, lt_div_iff₀ hd, div_eq_iff hd.ne']
    obtain ⟨h1, h2⟩ := h.up e
    exact ⟨h1, h2.imp (fun h => by exact_mod_cast h) (fun h => ⟨by exact_mod_cast h.1, h.2⟩)⟩

theorem units_le_real {a b : Nat} (h : a ≤ b) : (Fp.units φ.p a : ℝ) ≤ Fp.units φ.p b := by
  exact_mod_cast Fp.units_le.2 h

theorem units_lt_real {a b : Nat} (h : a < b) : (Fp.units φ.p a : ℝ) < Fp.units φ.p b := by
  exact_mod_cast Fp.units_lt.2 h

theorem RoundedR.cases {q : ℝ} {r f : Nat} (h : φ.RoundedR q r f) : r = f ∨ r = f + 1 := by
  by_cases e : r = f
  · exact .inl e
  · exact .inr (h.up e).1

theorem RoundedR.nearest {q : ℝ} {r f : Nat} (h : φ.RoundedR q r f) (b : Nat) :
    |Fp.units φ.p r - q| ≤ |Fp.units φ.p b - q| := by
  have hle := h.le
  have hlt := h.lt
  have key : |Fp.units φ.p r - q| ≤ q - Fp.units φ.p f ∧
      |Fp.units φ.p r - q| ≤ Fp.units φ.p (f + 1) - q := by
    by_cases e : r = f
    · have d := h.down e
      rw [e, abs_of_nonpos (by linarith)]
      refine ⟨by linarith, ?_⟩
      rcases d with d | d <;> linarith
    · obtain ⟨e, d⟩ := h.up e
      rw [e, abs_of_nonneg (by linarith)]
      refine ⟨?_, by linarith⟩
      rcases d with d | d <;> linarith
  rcases Nat.lt_or_ge f b with hb | hb
  · have := units_le_real (φ := φ) hb
    rw [Nat.succ_eq_add_one] at this
    rw [abs_of_nonneg (show (0 : ℝ) ≤ Fp.units φ.p b - q by linarith)]
    linarith [key.2]
  · have := units_le_real (φ := φ) hb
    rw [abs_of_nonpos (show (Fp.units φ.p b - q : ℝ) ≤ 0 by linarith)]
    linarith [key.1]

theorem RoundedR.even {q : ℝ} {r f : Nat} (h : φ.RoundedR q r f) {b : Nat} (hb : b ≠ r)
    (e : |Fp.units φ.p b - q| = |Fp.units φ.p r - q|) : r % 2 = 0 := by
  have hle := h.le
  have hlt := h.lt
  by_cases e1 : r = f
  · rcases h.down e1 with d | ⟨_, d⟩
    · exfalso
      rw [e1] at hb
      rw [e1, abs_of_nonpos (show (Fp.units φ.p f - q : ℝ) ≤ 0 by linarith)] at e
      rcases Nat.lt_or_ge f b with hb' | hb'
      · have := units_le_real (φ := φ) hb'
        rw [Nat.succ_eq_add_one] at this
        rw [abs_of_nonneg (by linarith)] at e
        linarith
      · have := units_lt_real (φ := φ) (show b < f by omega)
        rw [abs_of_nonpos (by linarith)] at e
        linarith
    · rw [e1]; exact d
  · obtain ⟨e1, d⟩ := h.up e1
    rcases d with d | ⟨_, d⟩
    · exfalso
      rw [e1] at hb
      rw [e1, abs_of_nonneg (show (0 : ℝ) ≤ Fp.units φ.p (f + 1) - q by linarith)] at e
      rcases Nat.lt_or_ge f b with hb' | hb'
      · have := units_lt_real (φ := φ) (show f + 1 < b by omega)
        rw [abs_of_nonneg (by linarith)] at e
        linarith
      · have := units_le_real (φ := φ) hb'
        rw [abs_of_nonpos (by linarith)] at e
        linarith
    · rw [e1]; omega

theorem RoundedR.overflow {q : ℝ} {r f : Nat} (h : φ.RoundedR q r f) :
    φ.inf ≤ r ↔ (Fp.units φ.p (φ.inf - 1) + Fp.units φ.p φ.inf : ℝ) ≤ 2 * q := by
  have hi := φ.inf_pos
  have he := φ.inf_even
  have hlt := units_lt_real (φ := φ) (show φ.inf - 1 < φ.inf by omega)
  constructor
  · intro hr
    by_cases hf : φ.inf ≤ f
    · have := units_le_real (φ := φ) hf
      have := h.le
      linarith
    · have e : r ≠ f := by omega
      obtain ⟨e1, d⟩ := h.up e
      have e2 : f + 1 = φ.inf := by omega
      have e3 : φ.inf - 1 = f := by omega
      rw [e3]
      rw [e2] at d
      rcases d with d | d <;> linarith
  · intro hn
    by_contra hc
    have hf : f < φ.inf := by rcases h.cases with e | e <;> omega
    by_cases h1 : f + 1 = φ.inf
    · have e : r = f := by rcases h.cases with e | e <;> omega
      have d := h.down e
      have e3 : φ.inf - 1 = f := by omega
      rw [e3] at hn
      rw [h1] at d
      rcases d with d | d
      · linarith
      · omega
    · have h2 := h.lt
      have := units_le_real (φ := φ) (show f + 1 ≤ φ.inf - 1 by omega)
      linarith

/-- Rounding with overflow is rounding to nearest even. -/
theorem RoundedR.spec {q : ℝ} {r f : Nat} (h : φ.RoundedR q r f) :
    φ.Nearest (q / φ.scale) (min φ.inf r) := by
  have ho := h.overflow
  have hs : (0 : ℝ) < φ.scale := by exact_mod_cast φ.scale_pos
  have habs : ∀ b, |φ.value b - q / φ.scale| = |Fp.units φ.p b - q| / φ.scale := by
    intro b
    rw [value_eq, ← sub_div, abs_div, abs_of_pos hs]
  refine ⟨Nat.min_le_left _ _, ?_, ?_, ?_⟩
  · rw [show min φ.inf r = φ.inf ↔ φ.inf ≤ r by omega, ho]
    have ht := φ.threshold
    push_cast at ht
    rw [ht, le_div_iff₀ hs]
    constructor <;> intro h <;> nlinarith
  · intro hr b hb
    have hr' : r < φ.inf := by omega
    rw [Nat.min_eq_right hr'.le, habs, habs, div_le_div_iff_of_pos_right hs]
    exact h.nearest b
  · intro hr b hb hne e
    have hr' : r < φ.inf := by omega
    rw [Nat.min_eq_right hr'.le] at hne e ⊢
    rw [habs, habs, div_left_inj' hs.ne'] at e
    exact h.even hne e

variable (φ)

/-- `round` rounds to nearest even. -/
theorem round_nearest {N D : Nat} (hD : 0 < D) :
    φ.Nearest ((N : ℝ) / (D * φ.scale)) (φ.round N D) := by
  obtain ⟨f, h⟩ := Fp.roundBits_spec (N := N) φ.p_pos hD
  rw [← div_div]
  exact (h.real hD).spec

theorem add_nearest {a b : Nat} (ha : a < φ.inf) (hb : b < φ.inf) :
    φ.Nearest (φ.value a + φ.value b) (φ.add a b) := by
  unfold add
  rw [if_pos ⟨ha, hb⟩]
  have := φ.round_nearest (N := Fp.units φ.p a + Fp.units φ.p b) (D := 1) (by decide)
  rw [value_eq, value_eq, ← add_div]
  simpa using this

theorem mul_nearest {a b : Nat} (ha : a < φ.inf) : φ.Nearest (φ.value a * φ.value b) (φ.mul a b) := by
  unfold mul
  rw [if_pos ha]
  have := φ.round_nearest (N := Fp.units φ.p a * Fp.units φ.p b) φ.scale_pos
  rw [value_eq, value_eq, div_mul_div_comm]
  simpa using this

theorem div_nearest {a b : Nat} (hb : 0 < b) : φ.Nearest (φ.value a / φ.value b) (φ.div a b) := by
  unfold div
  have hb' : 0 < Fp.units φ.p b := (Nat.zero_le _).trans_lt (Fp.units_lt.2 hb)
  have := φ.round_nearest (N := Fp.units φ.p a * φ.scale) hb'
  have hs : (φ.scale : ℝ) ≠ 0 := by exact_mod_cast φ.scale_pos.ne'
  have h1 : (Fp.units φ.p b : ℝ) ≠ 0 := by exact_mod_cast hb'.ne'
  have e : φ.value a / φ.value b =
      ((Fp.units φ.p a * φ.scale : ℕ) : ℝ) / (Fp.units φ.p b * φ.scale) := by
    rw [value_eq, value_eq]; push_cast; field_simp
  rw [e]; exact this

theorem ofRatio_nearest {N D : Nat} (hD : 0 < D) : φ.Nearest ((N : ℝ) / D) (φ.ofRatio N D) := by
  unfold ofRatio
  have := φ.round_nearest (N := N * φ.scale) hD
  have hs : (φ.scale : ℝ) ≠ 0 := by exact_mod_cast φ.scale_pos.ne'
  have h1 : (D : ℝ) ≠ 0 := by exact_mod_cast hD.ne'
  have e : (N : ℝ) / D = ((N * φ.scale : ℕ) : ℝ) / (D * φ.scale) := by
    push_cast; field_simp
  rw [e]; exact this

/-- The square root is rounded correctly. -/
theorem sqrt_nearest {a : Nat} (h0 : 0 < a) (hbig : φ.p + 3 ≤ φ.bias) :
    φ.Nearest (Real.sqrt (φ.value a)) (φ.sqrt a) := by
  have hs : (0 : ℝ) < φ.scale := by exact_mod_cast φ.scale_pos
  have hu : 1 ≤ Fp.units φ.p a := Nat.succ_le_of_lt ((Nat.zero_le _).trans_lt (Fp.units_lt.2 h0))
  have e : Real.sqrt (φ.value a) = Real.sqrt ((Fp.units φ.p a * φ.scale : ℕ) : ℝ) / φ.scale := by
    rw [value_eq, eq_div_iff hs.ne']
    have h1 : ((Fp.units φ.p a * φ.scale : ℕ) : ℝ) =
        (Fp.units φ.p a / φ.scale : ℝ) * ((φ.scale : ℝ) * φ.scale) := by push_cast; field_simp
    rw [h1, Real.sqrt_mul (by positivity), Real.sqrt_mul_self hs.le]
  rw [e]
  unfold sqrt
  simp only
  have hy : 2 ^ (2 * (φ.p + 1)) ≤ Fp.units φ.p a * φ.scale := by
    refine le_trans ?_ (Nat.le_mul_of_pos_left _ hu)
    unfold scale
    exact Nat.pow_le_pow_right (by omega) (by omega)
  generalize Fp.units φ.p a * φ.scale = y at hy
  have hsq : 2 ^ (φ.p + 1) ≤ Nat.sqrt y := by
    rw [Nat.le_sqrt, ← pow_add]
    rwa [← two_mul]
  have h1 : Nat.sqrt y * Nat.sqrt y ≤ y := Nat.sqrt_le y
  have h2 : y < (Nat.sqrt y + 1) * (Nat.sqrt y + 1) := Nat.lt_succ_sqrt y
  generalize Nat.sqrt y = s at hsq h1 h2
  by_cases hq : s * s = y
  · rw [if_pos hq]
    have hr : Real.sqrt (y : ℝ) = s := by
      rw [← hq]; push_cast; exact Real.sqrt_mul_self (by positivity)
    obtain ⟨f, h⟩ := Fp.roundBits_spec (N := 2 * s + 0) φ.p_pos (show 0 < 2 by decide)
    have := (h.real (φ := φ) (by decide)).spec
    rw [show (((2 * s + 0 : ℕ) : ℝ) / (2 : ℕ)) = s by push_cast; ring] at this
    rw [hr]; exact this
  · rw [if_neg hq]
    obtain ⟨f, h⟩ := Fp.roundBits_spec (N := 2 * s + 1) φ.p_pos (show 0 < 2 by decide)
    have hlo : (s : ℝ) < Real.sqrt y := by
      rw [Real.lt_sqrt (by positivity)]
      have : s * s < y := by omega
      rw [sq]; exact_mod_cast this
    have hhi : Real.sqrt (y : ℝ) < (s + 1 : ℕ) := by
      rw [Real.sqrt_lt' (by positivity), sq]
      exact_mod_cast h2
    have hle := h.le
    have hlt := h.lt
    have hf : 2 * 2 ^ φ.p ≤ f := by
      have e1 := Fp.units_eq (p := φ.p) (k := 0) (m := 2 * 2 ^ φ.p) (.inl rfl) le_rfl
      simp only [zero_mul, zero_add, pow_zero, mul_one] at e1
      have : Fp.units φ.p (2 * 2 ^ φ.p) < Fp.units φ.p (f + 1) := by
        rw [e1, ← pow_succ']; omega
      have := Fp.units_lt.1 this
      omega
    have ev1 := Fp.units_even hf
    have ev2 := Fp.units_even (show 2 * 2 ^ φ.p ≤ f + 1 by omega)
    have hdn := h.down
    have hup := h.up
    refine RoundedR.spec (f := f) ⟨?_, ?_, ?_, ?_⟩
    · have : Fp.units φ.p f ≤ s := by omega
      exact le_trans (by exact_mod_cast this) hlo.le
    · have : s + 1 ≤ Fp.units φ.p (f + 1) := by omega
      exact hhi.trans_le (by exact_mod_cast this)
    · intro hr
      left
      have : 2 * (s + 1) ≤ Fp.units φ.p f + Fp.units φ.p (f + 1) := by
        rcases hdn hr with d | d <;> omega
      have : ((2 * (s + 1 : ℕ) : ℕ) : ℝ) ≤ ((Fp.units φ.p f + Fp.units φ.p (f + 1) : ℕ) : ℝ) := by
        exact_mod_cast this
      push_cast at this hhi
      linarith
    · intro hr
      obtain ⟨h3, d⟩ := hup hr
      refine ⟨h3, .inl ?_⟩
      have : Fp.units φ.p f + Fp.units φ.p (f + 1) ≤ 2 * s := by
        rcases d with d | d <;> omega
      have : ((Fp.units φ.p f + Fp.units φ.p (f + 1) : ℕ) : ℝ) ≤ ((2 * s : ℕ) : ℝ) := by
        exact_mod_cast this
      push_cast at this
      linarith

/-- Rounding is monotone. -/
theorem round_mono {N D N' D' : Nat} (hD : 0 < D) (hD' : 0 < D') (h : N * D' ≤ N' * D) :
    φ.round N D ≤ φ.round N' D' := by
  obtain ⟨f, h1⟩ := Fp.roundBits_spec (N := N) φ.p_pos hD
  obtain ⟨f', h2⟩ := Fp.roundBits_spec (N := N') φ.p_pos hD'
  have := h1.mono hD hD' h2 h
  unfold round
  omega

/-- Rounding is exact for representable numbers. -/
theorem round_units {D b : Nat} (hD : 0 < D) (hb : b ≤ φ.inf) :
    φ.round (Fp.units φ.p b * D) D = b := by
  obtain ⟨f, h1⟩ := Fp.roundBits_spec (N := Fp.units φ.p b * D) φ.p_pos hD
  unfold round
  rw [h1.exact hD]
  omega

theorem add_ge (a b : Nat) : a ≤ φ.add a b := by
  unfold add
  split
  · next h =>
    have h1 := φ.round_units (D := 1) (by decide) h.1.le
    have h2 := φ.round_mono (N := Fp.units φ.p a * 1) (D := 1)
      (N' := Fp.units φ.p a + Fp.units φ.p b) (D' := 1) (by decide) (by decide) (by omega)
    omega
  · exact Nat.le_max_left _ _

theorem mul_mono {a b : Nat} (c : Nat) (h : a ≤ b) : φ.mul a c ≤ φ.mul b c := by
  have hs := φ.scale_pos
  unfold mul
  split
  · split
    · exact φ.round_mono hs hs (Nat.mul_le_mul_right _ (Nat.mul_le_mul_right _ (Fp.units_le.2 h)))
    · exact (Nat.min_le_left _ _).trans (by omega)
  · rw [if_neg (by omega)]; exact h

end FpFormat

end Starlit
