import Mathlib.Tactic.Ring
import Mathlib.Tactic.Linarith
import Mathlib.Algebra.Order.Ring.Nat

/-!
# Binary floating point arithmetic

IEEE 754 numbers without sign, given by their bits: exponent field above a mantissa field of `p` bits
(23 for `f32`, 52 for `f64`).  The arithmetic of `/repo/starlit/src/search/vsids.rs` and
`/repo/starlit/src/state.rs:70` only uses non-negative numbers.  Rounding is to nearest, ties to even,
which is what Rust's operators do.
-/

namespace Starlit.Fp

/-- The value as a multiple of the smallest positive number (`2^-149` for `f32`): subnormal numbers
have exponent field 0 and no hidden bit. -/
def units (p b : Nat) : Nat :=
  if b < 2 ^ p then b else (2 ^ p + b % 2 ^ p) * 2 ^ (b / 2 ^ p - 1)

/-- `N / D` rounded to the nearest integer, ties to even. -/
def rne (N D : Nat) : Nat :=
  if 2 * (N % D) < D then N / D
  else if D < 2 * (N % D) then N / D + 1
  else if N / D % 2 = 0 then N / D
  else N / D + 1

/-- The bits of the number closest to `N / D` units, ties to even, with unbounded exponent. -/
def roundBits (p N D : Nat) : Nat :=
  let k := Nat.log2 (N / D) - p
  k * 2 ^ p + rne N (D * 2 ^ k)

theorem units_eq {p k m : Nat} (h : k = 0 ∨ 2 ^ p ≤ m) (hm : m ≤ 2 * 2 ^ p) :
    units p (k * 2 ^ p + m) = m * 2 ^ k := by
  have hp : 0 < 2 ^ p := by positivity
  by_cases h0 : m < 2 ^ p
  · have hk : k = 0 := h.resolve_right (by omega)
    subst hk
    simp [units, h0]
  · rcases Nat.lt_or_ge m (2 * 2 ^ p) with h1 | h1
    · obtain ⟨r, rfl⟩ := Nat.exists_eq_add_of_le (show 2 ^ p ≤ m by omega)
      have hr : r < 2 ^ p := by omega
      have e : k * 2 ^ p + (2 ^ p + r) = r + (k + 1) * 2 ^ p := by ring
      unfold units
      rw [e, if_neg (by rw [Nat.add_mul]; omega), Nat.add_mul_mod_self_right,
        Nat.add_mul_div_right _ _ hp, Nat.mod_eq_of_lt hr, Nat.div_eq_of_lt hr]
      simp
    · have hm : m = 2 * 2 ^ p := by omega
      subst hm
      have e : k * 2 ^ p + 2 * 2 ^ p = (k + 2) * 2 ^ p := by ring
      unfold units
      rw [e, if_neg (by rw [Nat.add_mul]; omega), Nat.mul_mod_left, Nat.mul_div_cancel _ hp]
      rw [show k + 2 - 1 = k + 1 by omega, pow_succ]
      ring

/-- Every bit pattern in normal form. -/
theorem decomp (p b : Nat) : ∃ k m, b = k * 2 ^ p + m ∧ (k = 0 ∨ 2 ^ p ≤ m) ∧ m < 2 * 2 ^ p := by
  have hp : 0 < 2 ^ p := by positivity
  by_cases h : b < 2 * 2 ^ p
  · exact ⟨0, b, by simp, .inl rfl, h⟩
  · have h1 := Nat.div_add_mod b (2 ^ p)
    have h2 := Nat.mod_lt b hp
    have h3 : 2 ≤ b / 2 ^ p := (Nat.le_div_iff_mul_le hp).2 (by omega)
    obtain ⟨k, hk⟩ := Nat.exists_eq_add_of_le h3
    refine ⟨k + 1, 2 ^ p + b % 2 ^ p, ?_, .inr (by omega), by omega⟩
    rw [hk] at h1
    nlinarith

theorem units_succ {p : Nat} (b : Nat) : units p b < units p (b + 1) := by
  obtain ⟨k, m, rfl, h, hm⟩ := decomp p b
  rw [units_eq h (by omega), Nat.add_assoc, units_eq (h.imp id (by omega)) (by omega)]
  exact Nat.mul_lt_mul_of_pos_right (by omega) (by positivity)

theorem units_strictMono (p : Nat) : StrictMono (units p) := strictMono_nat_of_lt_succ units_succ

theorem units_lt {p a b : Nat} : units p a < units p b ↔ a < b := (units_strictMono p).lt_iff_lt

theorem units_le {p a b : Nat} : units p a ≤ units p b ↔ a ≤ b := (units_strictMono p).le_iff_le

/-- Above `2^(p+1)` units all numbers are even. -/
theorem units_even {p b : Nat} (h : 2 * 2 ^ p ≤ b) : units p b % 2 = 0 := by
  obtain ⟨k, m, rfl, h1, hm⟩ := decomp p b
  rw [units_eq h1 (by omega)]
  cases k with
  | zero => omega
  | succ k => rw [pow_succ, ← mul_assoc, Nat.mul_mod_left]

/-- `r` are the bits of `N / D` rounded: with `f` the largest number not above, the closer one of `f`
and its successor, or the even one. -/
structure Rounded (p N D r f : Nat) : Prop where
  le : units p f * D ≤ N
  lt : N < units p (f + 1) * D
  down : r = f → 2 * N < (units p f + units p (f + 1)) * D ∨
    2 * N = (units p f + units p (f + 1)) * D ∧ f % 2 = 0
  up : r ≠ f → r = f + 1 ∧ ((units p f + units p (f + 1)) * D < 2 * N ∨
    2 * N = (units p f + units p (f + 1)) * D ∧ f % 2 = 1)

theorem roundBits_spec {p N D : Nat} (hp : 0 < p) (hD : 0 < D) :
    ∃ f, Rounded p N D (roundBits p N D) f := by
  unfold roundBits
  simp only
  generalize hk : Nat.log2 (N / D) - p = k
  have hp2 : 0 < 2 ^ p := by positivity
  have hk2 : 0 < 2 ^ k := by positivity
  have hm : N / (D * 2 ^ k) < 2 * 2 ^ p ∧ (k = 0 ∨ 2 ^ p ≤ N / (D * 2 ^ k)) := by
    rw [← Nat.div_div_eq_div_mul]
    have h1 : N / D < 2 ^ (Nat.log2 (N / D) + 1) := Nat.lt_log2_self
    constructor
    · rw [Nat.div_lt_iff_lt_mul hk2, ← pow_succ', ← pow_add]
      exact h1.trans_le (Nat.pow_le_pow_right (by omega) (by omega))
    · by_cases h0 : k = 0
      · exact .inl h0
      · right
        rw [Nat.le_div_iff_mul_le hk2, ← pow_add]
        have hne : N / D ≠ 0 := by
          intro h; rw [h] at hk; simp at hk; omega
        have := Nat.log2_self_le hne
        refine le_trans (Nat.pow_le_pow_right (by omega) (by omega)) this
  obtain ⟨h1, h2⟩ := hm
  have hdm := Nat.div_add_mod N (D * 2 ^ k)
  have hml := Nat.mod_lt N (show 0 < D * 2 ^ k by positivity)
  generalize hmm : N / (D * 2 ^ k) = m at *
  generalize hrr : N % (D * 2 ^ k) = r at *
  have e1 := units_eq (p := p) h2 (by omega)
  have e2 := units_eq (p := p) (k := k) (m := m + 1) (h2.imp id (by omega)) (by omega)
  rw [← Nat.add_assoc] at e2
  have hpar : (k * 2 ^ p + m) % 2 = m % 2 := by
    obtain ⟨p', rfl⟩ := Nat.exists_eq_succ_of_ne_zero hp.ne'
    rw [pow_succ, ← mul_assoc, Nat.mul_add_mod']
  have a1 : m * 2 ^ k * D = D * 2 ^ k * m := by ring
  have a2 : (m + 1) * 2 ^ k * D = D * 2 ^ k * m + D * 2 ^ k := by ring
  have a3 : (m * 2 ^ k + (m + 1) * 2 ^ k) * D = 2 * (D * 2 ^ k * m) + D * 2 ^ k := by ring
  refine ⟨k * 2 ^ p + m, ?_, ?_, ?_, ?_⟩
  · rw [e1, a1]; omega
  · rw [e2, a2]; omega
  · rw [e1, e2, a3, hpar]
    unfold rne
    rw [hmm, hrr]
    split
    · intro _; left; omega
    · split
      · intro h; omega
      · split
        · intro _; right; omega
        · intro h; omega
  · rw [e1, e2, a3, hpar]
    unfold rne
    rw [hmm, hrr]
    split
    · intro h; exact absurd rfl h
    · split
      · intro h; exact ⟨by omega, .inl (by omega)⟩
      · split
        · intro h; exact absurd rfl h
        · intro h; exact ⟨by omega, .inr (by omega)⟩

theorem Rounded.cases {p N D r f : Nat} (h : Rounded p N D r f) : r = f ∨ r = f + 1 := by
  by_cases e : r = f
  · exact .inl e
  · exact .inr (h.up e).1

/-- Rounding keeps representable numbers. -/
theorem Rounded.exact {p D r f b : Nat} (hD : 0 < D) (h : Rounded p (units p b * D) D r f) : r = b := by
  have h1 : f ≤ b := by
    have := Nat.le_of_mul_le_mul_right h.le hD
    exact units_le.1 this
  have h2 : b < f + 1 := by
    have := Nat.lt_of_mul_lt_mul_right h.lt
    exact units_lt.1 this
  have hb : b = f := by omega
  subst hb
  by_contra hne
  have hs := Nat.mul_lt_mul_of_pos_right (units_succ (p := p) b) hD
  rcases (h.up hne).2 with h3 | h3 <;> rw [Nat.add_mul] at h3 <;> omega

/-- Rounding is monotone. -/
theorem Rounded.mono {p N D r f N' D' r' f' : Nat} (hD : 0 < D) (hD' : 0 < D')
    (h : Rounded p N D r f) (h' : Rounded p N' D' r' f') (hle : N * D' ≤ N' * D) : r ≤ r' := by
  have hf : f ≤ f' := by
    by_contra hc
    have h1 : units p (f' + 1) ≤ units p f := units_le.2 (by omega)
    have h2 : units p f * D * D' ≤ N * D' := Nat.mul_le_mul_right _ h.le
    have h3 : N' * D < units p (f' + 1) * D' * D := Nat.mul_lt_mul_of_pos_right h'.lt hD
    have h4 : units p (f' + 1) * (D' * D) ≤ units p f * (D' * D) := Nat.mul_le_mul_right _ h1
    have e1 : units p f * D * D' = units p f * (D' * D) := by ring
    have e2 : units p (f' + 1) * D' * D = units p (f' + 1) * (D' * D) := by ring
    omega
  by_cases e : f = f'
  · subst e
    by_cases h1 : r = f
    · rcases h'.cases with h2 | h2 <;> omega
    · by_cases h2 : r' = f
      · exfalso
        have u := h.up h1
        have d := h'.down h2
        generalize units p f + units p (f + 1) = g at u d
        have m1 : 2 * N * D' ≤ 2 * N' * D := by nlinarith
        have e1 : g * D * D' = g * D' * D := by ring
        rcases d with d | ⟨d, d2⟩
        · have := Nat.mul_lt_mul_of_pos_right d hD
          rcases u.2 with u | ⟨u, _⟩
          · have := Nat.mul_lt_mul_of_pos_right u hD'
            omega
          · rw [u] at m1; omega
        · rcases u.2 with u | ⟨u, u2⟩
          · have := Nat.mul_lt_mul_of_pos_right u hD'
            rw [d] at m1
            omega
          · omega
      · have := (h'.up h2).1
        rcases h.cases with h3 | h3 <;> omega
  · rcases h.cases with h1 | h1 <;> rcases h'.cases with h2 | h2 <;> omega

end Starlit.Fp
