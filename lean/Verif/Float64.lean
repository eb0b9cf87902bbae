import Verif.Float32

/-!
# The reduction interval
-/

namespace Starlit

namespace FpFormat
variable {φ : FpFormat}

/-- The error of a correctly rounded result. -/
theorem Nearest.error {q : ℝ} {r : Nat} (h : φ.Nearest q r) (hq : 0 ≤ q) (hr : r < φ.inf) :
    |φ.value r - q| ≤ φ.eps * q + φ.tiny := by
  have hs : (0 : ℝ) < φ.scale := by exact_mod_cast φ.scale_pos
  have hex : ∃ f, q * φ.scale < Fp.units φ.p (f + 1) := by
    obtain ⟨m, hm⟩ := exists_nat_gt (q * φ.scale)
    refine ⟨m, hm.trans_le ?_⟩
    have := (Fp.units_strictMono φ.p).id_le (m + 1)
    simp only [id] at this
    exact_mod_cast (Nat.le_succ m).trans this
  classical
  obtain ⟨f, hf1, hf2⟩ : ∃ f, (Fp.units φ.p f : ℝ) ≤ q * φ.scale ∧ q * φ.scale < Fp.units φ.p (f + 1) := by
    refine ⟨Nat.find hex, ?_, Nat.find_spec hex⟩
    cases hc : Nat.find hex with
    | zero =>
      have : Fp.units φ.p 0 = 0 := by simp [Fp.units]
      rw [this]; push_cast; positivity
    | succ k =>
      have := Nat.find_min hex (m := k) (by omega)
      exact not_lt.1 this
  have hfi : f < φ.inf := by
    by_contra hc
    have h1 : (Fp.units φ.p φ.inf : ℝ) ≤ Fp.units φ.p f := units_le_real (by omega)
    have h2 : (Fp.units φ.p (φ.inf - 1) : ℝ) ≤ Fp.units φ.p φ.inf := units_le_real (by omega)
    have h3 := φ.threshold
    push_cast at h3
    have h4 : (2 ^ (φ.p + 2) - 1) * (2 : ℝ) ^ (φ.bias - φ.p - 1 : ℤ) ≤ q := by
      rw [← mul_le_mul_iff_of_pos_right hs]
      linarith
    exact absurd (h.overflow.2 h4) hr.ne
  refine (h.nearest hr f hfi).trans ?_
  have hp : (0 : ℝ) < 2 ^ φ.p := by positivity
  have hg : (2 : ℝ) ^ φ.p * (Fp.units φ.p (f + 1) - Fp.units φ.p f) ≤ 2 ^ φ.p + Fp.units φ.p f := by
    have h1 := Fp.units_gap (p := φ.p) f
    have h2 := Fp.units_lt (p := φ.p).2 (Nat.lt_succ_self f)
    have h3 : ((2 ^ φ.p * (Fp.units φ.p (f + 1) - Fp.units φ.p f) : ℕ) : ℝ) ≤
        ((2 ^ φ.p + Fp.units φ.p f : ℕ) : ℝ) := by exact_mod_cast h1
    push_cast [Nat.cast_sub h2.le] at h3
    exact h3
  have e : φ.value f - q = (Fp.units φ.p f - q * φ.scale) / φ.scale := by
    rw [value_eq]; field_simp
  rw [e, abs_div, abs_of_pos hs, div_le_iff₀ hs, abs_of_nonpos (by linarith)]
  have h5 : (φ.eps * q + φ.tiny) * φ.scale = (2 ^ φ.p + q * φ.scale) / 2 ^ φ.p := by
    unfold eps tiny; field_simp; ring
  rw [h5, le_div_iff₀ hp]
  nlinarith

/-- Numbers that can be represented are not rounded. -/
theorem Nearest.exact {q : ℝ} {r b : Nat} (h : φ.Nearest q r) (hb : b < φ.inf) (hr : r < φ.inf)
    (e : φ.value b = q) : r = b := by
  have h1 := h.nearest hr b hb
  rw [e, sub_self, abs_zero] at h1
  have h2 : φ.value r = φ.value b := by
    rw [e]; linarith [abs_nonpos_iff.1 h1]
  exact Nat.le_antisymm ((value_le φ).1 h2.le) ((value_le φ).1 h2.ge)

end FpFormat

theorem F64_scale_nat : F64.scale = 2 ^ 1074 := by decide +kernel

theorem F64_inf : F64.inf = 2047 * 2 ^ 52 := by decide +kernel

theorem F64_tiny : F64.tiny ≤ 1 / 2 ^ 100 := by
  unfold FpFormat.tiny
  rw [F64_scale_nat]
  push_cast
  refine one_div_le_one_div_of_le (by positivity) ?_
  exact pow_le_pow_right₀ (by norm_num) (by norm_num)

theorem F64_eps : F64.eps = 1 / 2 ^ 52 := rfl

/-- Small results are finite. -/
theorem F64_finite {q : ℝ} {r : Nat} (h : F64.Nearest q r) (hq : q ≤ 2 ^ 100) : r < F64.inf := by
  refine lt_of_le_of_ne h.le fun e => ?_
  have := h.overflow.1 e
  have h1 : ((F64.bias : ℤ) - F64.p - 1) = 970 := by decide +kernel
  rw [h1, show F64.p = 52 from rfl] at this
  have h2 : (2 : ℝ) ^ (100 : ℤ) ≤ (2 : ℝ) ^ (970 : ℤ) := zpow_le_zpow_right₀ (by norm_num) (by norm_num)
  generalize (2 : ℝ) ^ (970 : ℤ) = Z at this h2
  norm_num at this h2 hq
  linarith

/-- Integers below `2^53` are represented exactly. -/
theorem F64_nat {n : Nat} (h : n < 2 ^ 53) : ∃ b, b < F64.inf ∧ F64.value b = n := by
  rcases Nat.eq_zero_or_pos n with rfl | h0
  · exact ⟨0, by rw [F64_inf]; norm_num, by rw [FpFormat.value_eq]; simp [Fp.units]⟩
  · have hl := Nat.log2_lt (n := n) (k := 53) (by omega) |>.2 h
    have h1 : 2 ^ n.log2 ≤ n := Nat.log2_self_le (by omega)
    have h2 : n < 2 ^ (n.log2 + 1) := Nat.lt_log2_self
    generalize n.log2 = j at hl h1 h2
    have e1 : 2 ^ j * 2 ^ (52 - j) = 2 ^ 52 := by rw [← pow_add]; congr 1; omega
    have e2 : 2 ^ (j + 1) * 2 ^ (52 - j) = 2 * 2 ^ 52 := by rw [pow_succ, ← e1]; ring
    have h3 : 2 ^ 52 ≤ n * 2 ^ (52 - j) := by rw [← e1]; exact Nat.mul_le_mul_right _ h1
    have h4 : n * 2 ^ (52 - j) < 2 * 2 ^ 52 := by
      rw [← e2]; exact Nat.mul_lt_mul_of_pos_right h2 (by positivity)
    have hu := Fp.units_eq (p := 52) (k := 1074 - (52 - j)) (m := n * 2 ^ (52 - j)) (.inr h3) h4.le
    refine ⟨(1074 - (52 - j)) * 2 ^ 52 + n * 2 ^ (52 - j), ?_, ?_⟩
    · rw [F64_inf]
      have : (1074 - (52 - j)) * 2 ^ 52 ≤ 1074 * 2 ^ 52 := Nat.mul_le_mul_right _ (by omega)
      norm_num at this h4 ⊢
      omega
    · rw [FpFormat.value_eq, show F64.p = 52 from rfl, hu, F64_scale_nat, mul_assoc, ← pow_add,
        show 52 - j + (1074 - (52 - j)) = 1074 by omega]
      push_cast
      exact mul_div_cancel_right₀ _ (by positivity)

theorem F64_exact {n r : Nat} (h : F64.Nearest n r) (hn : n < 2 ^ 53) : F64.value r = n := by
  obtain ⟨b, hb, e⟩ := F64_nat hn
  have hr : r < F64.inf := F64_finite h (by
    have : (n : ℝ) < 2 ^ 53 := by exact_mod_cast hn
    norm_num at this ⊢
    linarith)
  rw [h.exact hb hr e, e]

/-- Truncation. -/
theorem F64_toU64 {a n : Nat} (h1 : (n : ℝ) ≤ F64.value a) (h2 : F64.value a < n + 1)
    (hn : n < 2 ^ 64) : F64.toU64 a = n := by
  unfold FpFormat.toU64
  have hs : (0 : ℝ) < F64.scale := by exact_mod_cast F64.scale_pos
  rw [FpFormat.value_eq] at h1 h2
  rw [le_div_iff₀ hs] at h1
  rw [div_lt_iff₀ hs] at h2
  have : Fp.units F64.p a / F64.scale = n := by
    apply Nat.div_eq_of_lt_le
    · exact_mod_cast h1
    · exact_mod_cast h2
  rw [this]
  omega

/-- Numbers that are not squares have square roots that are not close to integers. -/
theorem sqrt_gap {X N : ℝ} (h0 : 0 ≤ X) (hN : 0 ≤ N) (hN2 : N + 1 ≤ 2 ^ 24) (h1 : N ^ 2 + 1 ≤ X ^ 2)
    (h2 : X ^ 2 + 1 ≤ (N + 1) ^ 2) : N + 1 / 2 ^ 26 ≤ X ∧ X ≤ N + 1 - 1 / 2 ^ 26 := by
  norm_num at *
  constructor
  · by_contra hc
    push Not at hc
    nlinarith
  · by_contra hc
    push Not at hc
    nlinarith

/-- The interval `(2000.0 * (i as f64).sqrt()) as u64` is the square root rounded down. -/
theorem f64_interval {i : Nat} (h0 : 0 < i) (hi : i < 2 ^ 26) :
    F64.toU64 (F64.mul (F64.ofRatio 2000 1) (F64.sqrt (F64.ofRatio i 1))) = Nat.sqrt (4000000 * i) := by
  have v1 : F64.value (F64.ofRatio 2000 1) = 2000 := by
    have := F64_exact (n := 2000) (r := F64.ofRatio 2000 1)
      (by simpa using F64.ofRatio_nearest (N := 2000) (D := 1) (by decide)) (by norm_num)
    simpa using this
  have v2 : F64.value (F64.ofRatio i 1) = i :=
    F64_exact (by simpa using F64.ofRatio_nearest (N := i) (D := 1) (by decide)) (by omega)
  have f1 : F64.ofRatio 2000 1 < F64.inf := by decide +kernel
  have pos : 0 < F64.ofRatio i 1 := by
    by_contra hc
    rw [Nat.eq_zero_of_not_pos hc, FpFormat.value_eq] at v2
    have : Fp.units F64.p 0 = 0 := by simp [Fp.units]
    rw [this] at v2
    have : (0 : ℝ) < i := by exact_mod_cast h0
    simp at v2
    rw [← v2] at this
    simp at this
  have n1 := FpFormat.sqrt_nearest (φ := F64) pos (by decide +kernel)
  rw [v2] at n1
  generalize F64.sqrt (F64.ofRatio i 1) = r at n1
  have n2 := F64.mul_nearest (b := r) f1
  rw [v1] at n2
  generalize F64.mul (F64.ofRatio 2000 1) r = m at n2
  clear pos f1 v1 v2
  have hir : (i : ℝ) < 2 ^ 26 := by exact_mod_cast hi
  have hsq : Real.sqrt i ≤ 2 ^ 13 := by
    rw [Real.sqrt_le_left (by positivity)]
    norm_num at hir ⊢; linarith
  have hN : Nat.sqrt (4000000 * i) < 2 ^ 24 := by
    rw [Nat.sqrt_lt]; norm_num; omega
  have hs0 := Real.sqrt_nonneg (i : ℝ)
  have hss := Real.sq_sqrt (Nat.cast_nonneg (α := ℝ) i)
  by_cases hq : ∃ k, k * k = i
  · obtain ⟨k, rfl⟩ := hq
    have hk : k < 2 ^ 13 := by
      by_contra hc
      have := Nat.mul_le_mul (Nat.le_of_not_lt hc) (Nat.le_of_not_lt hc)
      omega
    have e1 : Real.sqrt ((k * k : ℕ) : ℝ) = (k : ℕ) := by
      push_cast; exact Real.sqrt_mul_self (by positivity)
    rw [e1] at n1
    rw [F64_exact n1 (by omega)] at n2
    have e2 : (2000 * (k : ℝ)) = ((2000 * k : ℕ) : ℝ) := by push_cast; rfl
    rw [e2] at n2
    have v3 := F64_exact n2 (by omega)
    have e3 : Nat.sqrt (4000000 * (k * k)) = 2000 * k := by
      rw [show 4000000 * (k * k) = (2000 * k) * (2000 * k) by ring]; exact Nat.sqrt_eq _
    rw [e3]
    exact F64_toU64 v3.ge (v3.trans_lt (lt_add_one _)) (by omega)
  · have e1 := n1.error hs0 (F64_finite n1 (by norm_num at hsq ⊢; linarith))
    have hr0 := FpFormat.value_nonneg (φ := F64) r
    rw [F64_eps] at e1
    have ht := F64_tiny
    have ht0 : 0 ≤ F64.tiny := div_nonneg zero_le_one (Nat.cast_nonneg _)
    have hrle : F64.value r ≤ 2 ^ 14 := by
      have := (abs_le.1 e1).2
      norm_num at this ht hsq ⊢
      linarith
    have e2 := n2.error (by positivity) (F64_finite n2 (by norm_num at hrle ⊢; linarith))
    rw [F64_eps] at e2
    have hle := Nat.sqrt_le (4000000 * i)
    have hlt := Nat.lt_succ_sqrt (4000000 * i)
    generalize Nat.sqrt (4000000 * i) = N at *
    have hne : N * N ≠ 4000000 * i := by
      intro e
      have hd : 2000 * 2000 ∣ N * N := ⟨i, by rw [e]⟩
      rw [← sq, ← sq] at hd
      obtain ⟨k, rfl⟩ := (Nat.pow_dvd_pow_iff (by norm_num)).1 hd
      exact hq ⟨k, by nlinarith⟩
    have g1 : N * N + 1 ≤ 4000000 * i := by omega
    have g2 : 4000000 * i + 1 ≤ (N + 1) * (N + 1) := hlt
    have g1r : (N : ℝ) * N + 1 ≤ 4000000 * i := by exact_mod_cast g1
    have g2r : 4000000 * (i : ℝ) + 1 ≤ (N + 1) * (N + 1) := by exact_mod_cast g2
    have hNr : (N : ℝ) + 1 ≤ 2 ^ 24 := by exact_mod_cast hN
    obtain ⟨k1, k2⟩ := sqrt_gap (X := 2000 * Real.sqrt i) (N := N) (by positivity) (by positivity) hNr
      (by nlinarith) (by nlinarith)
    refine F64_toU64 ?_ ?_ (by omega)
    · have a1 := (abs_le.1 e1).1
      have a2 := (abs_le.1 e2).1
      norm_num at *
      linarith
    · have a1 := (abs_le.1 e1).2
      have a2 := (abs_le.1 e2).2
      norm_num at *
      linarith

end Starlit
