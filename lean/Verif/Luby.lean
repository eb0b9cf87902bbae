import Verif.Base
import Mathlib.Data.Nat.Bitwise
import Mathlib.Tactic.Ring

/-!
# The Luby sequence (`/repo/starlit/src/state/luby.rs`)
-/

namespace Starlit

/-- `LubySequence` with its `u64` fields (`/repo/starlit/src/state/luby.rs:6-9`). -/
structure Luby64 where
  u : BitVec 64
  v : BitVec 64
deriving DecidableEq, Repr

namespace Luby64

/-- `Default` (`/repo/starlit/src/state/luby.rs:11-15`). -/
def default : Luby64 := ⟨1, 1⟩

/-- `advance` (`/repo/starlit/src/state/luby.rs:19-31`), with the wrapping addition of release
builds. -/
def advance (s : Luby64) : BitVec 64 × Luby64 :=
  if s.u &&& (-s.u) = s.v then (s.v, ⟨s.u + 1, 1⟩) else (s.v, ⟨s.u, s.v <<< 1⟩)

/-- The state after `n` calls. -/
def after : Nat → Luby64
  | 0 => default
  | n + 1 => (after n).advance.2

end Luby64

/-- The same state with unbounded numbers. This is what the model of the solver uses: like all
counters there, `u` and `v` do not overflow. `Luby.toNat_after` in this file shows that both
versions agree for the first `2^63` calls. -/
structure Luby where
  u : Nat
  v : Nat
deriving DecidableEq, Repr

namespace Luby

/-- `u & u.wrapping_neg()` at a sufficient width. -/
def lowBit (u : Nat) : Nat := u &&& (2 ^ (u + 1) - u)

/-- `Default` (`/repo/starlit/src/state/luby.rs:11-15`). -/
def default : Luby := ⟨1, 1⟩

/-- `advance` (`/repo/starlit/src/state/luby.rs:19-31`). -/
def advance (s : Luby) : Nat × Luby :=
  if lowBit s.u = s.v then (s.v, ⟨s.u + 1, 1⟩) else (s.v, ⟨s.u, s.v * 2⟩)

/-- The state after `n` calls. -/
def after : Nat → Luby
  | 0 => default
  | n + 1 => (after n).advance.2

/-! ## Lowest set bit -/

/-- Bit `i` of `x+1` is set and bit `i` of `x` is not. -/
def rises (x i : Nat) : Bool := (x + 1).testBit i && !x.testBit i

theorem rises_even_zero (y : Nat) : rises (2 * y) 0 = true := by
  simp [rises]

theorem rises_even_succ (y i : Nat) : rises (2 * y) (i + 1) = false := by
  simp only [rises, Nat.testBit_succ]
  rw [show (2 * y + 1) / 2 = y by omega, show 2 * y / 2 = y by omega]
  cases y.testBit i <;> rfl

theorem rises_odd_zero (y : Nat) : rises (2 * y + 1) 0 = false := by
  simp [rises]

theorem rises_odd_succ (y i : Nat) : rises (2 * y + 1) (i + 1) = rises y i := by
  simp only [rises, Nat.testBit_succ]
  rw [show (2 * y + 1 + 1) / 2 = y + 1 by omega, show (2 * y + 1) / 2 = y by omega]

/-- `n = 2^k * (odd)`. -/
theorem exists_pow_mul_odd (n : Nat) (hn : 0 < n) : ∃ k m, n = 2 ^ k * (2 * m + 1) := by
  induction n using Nat.strongRecOn with
  | ind n ih =>
    rcases Nat.even_or_odd' n with ⟨m, h | h⟩
    · obtain ⟨k, j, e⟩ := ih m (by omega) (by omega)
      exact ⟨k + 1, j, by rw [h, e, pow_succ]; ring⟩
    · exact ⟨0, m, by simp [h]⟩

theorem rises_pow (k m i : Nat) : rises (2 ^ k * (2 * m + 1) - 1) i = decide (i = k) := by
  induction k generalizing i with
  | zero =>
    have : 2 ^ 0 * (2 * m + 1) - 1 = 2 * m := by simp
    rw [this]
    cases i with
    | zero => rw [rises_even_zero]; simp
    | succ i => rw [rises_even_succ]; simp
  | succ k ih =>
    have hp : 0 < 2 ^ k * (2 * m + 1) := Nat.mul_pos (Nat.two_pow_pos k) (by omega)
    have : 2 ^ (k + 1) * (2 * m + 1) - 1 = 2 * (2 ^ k * (2 * m + 1) - 1) + 1 := by
      rw [pow_succ, Nat.mul_comm (2 ^ k) 2, Nat.mul_assoc]; omega
    rw [this]
    cases i with
    | zero => rw [rises_odd_zero]; simp
    | succ i => rw [rises_odd_succ, ih]; simp

/-- The lowest set bit at any width that the number fits in. -/
theorem land_neg (w k m : Nat) (hw : 2 ^ k * (2 * m + 1) ≤ 2 ^ w) :
    2 ^ k * (2 * m + 1) &&& (2 ^ w - 2 ^ k * (2 * m + 1)) = if 2 ^ k * (2 * m + 1) = 2 ^ w then 0 else 2 ^ k := by
  have hp : 0 < 2 ^ k * (2 * m + 1) := Nat.mul_pos (Nat.two_pow_pos k) (by omega)
  by_cases he : 2 ^ k * (2 * m + 1) = 2 ^ w
  · rw [if_pos he, he]; simp
  · rw [if_neg he]
    have hlt : 2 ^ k * (2 * m + 1) < 2 ^ w := by omega
    have hkw : k < w := by
      have h1 : 2 ^ k ≤ 2 ^ k * (2 * m + 1) := Nat.le_mul_of_pos_right _ (by omega)
      exact (Nat.pow_lt_pow_iff_right (by omega : 1 < 2)).1 (by omega : 2 ^ k < 2 ^ w)
    apply Nat.eq_of_testBit_eq
    intro i
    have hr := rises_pow k m i
    generalize hx : 2 ^ k * (2 * m + 1) - 1 = x at hr
    have hx1 : 2 ^ k * (2 * m + 1) = x + 1 := by omega
    rw [hx1] at hlt ⊢
    rw [Nat.testBit_and, Nat.testBit_two_pow_sub_succ (by omega), Nat.testBit_two_pow]
    have : k = i ↔ i = k := eq_comm
    by_cases hik : i = k
    · subst hik
      simp only [rises, decide_true, Bool.and_eq_true] at hr
      simp [hr.1, hkw]
      simpa using hr.2
    · simp only [rises, hik, decide_false] at hr
      have : ¬ k = i := fun h => hik h.symm
      simp only [this, decide_false]
      cases h1 : (x + 1).testBit i
      · simp
      · rw [h1] at hr
        simp at hr
        simp [hr]

theorem lowBit_eq (k m : Nat) : lowBit (2 ^ k * (2 * m + 1)) = 2 ^ k := by
  unfold lowBit
  have h1 : 2 ^ k * (2 * m + 1) < 2 ^ (2 ^ k * (2 * m + 1)) := Nat.lt_two_pow_self
  have h2 : 2 ^ (2 ^ k * (2 * m + 1)) ≤ 2 ^ (2 ^ k * (2 * m + 1) + 1) :=
    Nat.pow_le_pow_right (by omega) (by omega)
  rw [land_neg _ _ _ (by omega), if_neg (by omega)]

theorem lowBit_pow (k : Nat) : lowBit (2 ^ k) = 2 ^ k := by
  simpa using lowBit_eq k 0

theorem lowBit_le (u : Nat) (hu : 0 < u) : lowBit u ≤ u := by
  obtain ⟨k, m, rfl⟩ := exists_pow_mul_odd u hu
  rw [lowBit_eq]
  exact Nat.le_mul_of_pos_right _ (by omega)

theorem lowBit_pos (u : Nat) (hu : 0 < u) : 0 < lowBit u := by
  obtain ⟨k, m, rfl⟩ := exists_pow_mul_odd u hu
  rw [lowBit_eq]; exact Nat.two_pow_pos k

/-- Adding a larger power of two does not change the lowest bit. -/
theorem lowBit_add (j u : Nat) (hu : 0 < u) (hlt : u < 2 ^ j) : lowBit (2 ^ j + u) = lowBit u := by
  obtain ⟨k, m, rfl⟩ := exists_pow_mul_odd u hu
  have hkj : k < j := by
    have h1 : 2 ^ k ≤ 2 ^ k * (2 * m + 1) := Nat.le_mul_of_pos_right _ (by omega)
    exact (Nat.pow_lt_pow_iff_right (by omega : 1 < 2)).1 (by omega : 2 ^ k < 2 ^ j)
  have : 2 ^ j + 2 ^ k * (2 * m + 1) = 2 ^ k * (2 * (2 ^ (j - k - 1) + m) + 1) := by
    have : 2 ^ j = 2 ^ k * (2 * 2 ^ (j - k - 1)) := by
      rw [← pow_succ', ← pow_add]; congr 1; omega
    rw [this]; ring
  rw [this, lowBit_eq, lowBit_eq]

/-! ## States -/

theorem after_succ (n : Nat) : after (n + 1) = (after n).advance.2 := rfl

/-- `v` is a power of two up to the lowest bit of `u`. -/
structure Inv (s : Luby) : Prop where
  u_pos : 0 < s.u
  pow : ∃ a, s.v = 2 ^ a
  le : s.v ≤ lowBit s.u

theorem Inv.advance {s : Luby} (h : s.Inv) : s.advance.2.Inv := by
  unfold Luby.advance
  split
  · refine ⟨Nat.succ_pos _, ⟨0, rfl⟩, ?_⟩
    exact lowBit_pos _ (Nat.succ_pos _)
  · next hne =>
    obtain ⟨a, ha⟩ := h.pow
    refine ⟨h.u_pos, ⟨a + 1, by simp [ha, pow_succ]⟩, ?_⟩
    obtain ⟨k, m, hk⟩ := exists_pow_mul_odd s.u h.u_pos
    have hle := h.le
    simp only
    rw [hk, lowBit_eq, ha] at hle hne
    rw [hk, lowBit_eq, ha, ← pow_succ]
    have : a ≤ k := (Nat.pow_le_pow_iff_right (by omega)).1 hle
    have : a ≠ k := by rintro rfl; exact hne rfl
    exact Nat.pow_le_pow_right (by omega) (by omega)

theorem inv_after (n : Nat) : (after n).Inv := by
  induction n with
  | zero => exact ⟨by decide, ⟨0, rfl⟩, by decide⟩
  | succ n ih => exact ih.advance

/-- States increase lexicographically. -/
def Lex (s t : Luby) : Prop := s.u < t.u ∨ (s.u = t.u ∧ s.v < t.v)

theorem lex_succ (n : Nat) : Lex (after n) (after (n + 1)) := by
  rw [after_succ]
  unfold Luby.advance
  split
  · exact .inl (Nat.lt_succ_self _)
  · refine .inr ⟨rfl, ?_⟩
    obtain ⟨a, ha⟩ := (inv_after n).pow
    have := Nat.two_pow_pos a
    simp only; omega

theorem lex_trans {s t r : Luby} (h1 : Lex s t) (h2 : Lex t r) : Lex s r := by
  unfold Lex at *; omega

theorem lex_lt {n m : Nat} (h : n < m) : Lex (after n) (after m) := by
  induction m with
  | zero => omega
  | succ m ih =>
    rcases Nat.lt_succ_iff_lt_or_eq.1 h with h | h
    · exact lex_trans (ih h) (lex_succ m)
    · subst h; exact lex_succ _

theorem u_le (n : Nat) : (after n).u ≤ n + 1 := by
  induction n with
  | zero => exact le_refl _
  | succ n ih =>
    rw [after_succ]
    unfold Luby.advance
    split
    · simp only; omega
    · simp only; omega

/-- The state before the term `2^j` at (zero-based) position `2^(j+1) - 2`, and the self-similarity
of the states after it. -/
theorem after_pow (j : Nat) : after (2 ^ (j + 1) - 2) = ⟨2 ^ j, 2 ^ j⟩ := by
  induction j with
  | zero => rfl
  | succ j ih =>
    have hp := Nat.two_pow_pos j
    have e1 : 2 ^ (j + 1) = 2 * 2 ^ j := pow_succ' 2 j
    have e2 : 2 ^ (j + 1 + 1) = 2 * 2 ^ (j + 1) := pow_succ' 2 (j + 1)
    have h1 : after (2 ^ (j + 1) - 1) = ⟨2 ^ j + 1, 1⟩ := by
      rw [show 2 ^ (j + 1) - 1 = (2 ^ (j + 1) - 2) + 1 by omega, after_succ, ih]
      simp [Luby.advance, lowBit_pow]
    have h2 : ∀ n, n ≤ 2 ^ (j + 1) - 2 →
        after (2 ^ (j + 1) - 1 + n) = ⟨2 ^ j + (after n).u, (after n).v⟩ := by
      intro n hn
      induction n with
      | zero => rw [Nat.add_zero, h1]; rfl
      | succ n ih' =>
        have ih' := ih' (by omega)
        rw [← Nat.add_assoc, after_succ, ih', after_succ]
        have hlex := lex_lt (show n < 2 ^ (j + 1) - 2 by omega)
        rw [ih] at hlex
        unfold Lex at hlex
        simp only at hlex
        have hinv := inv_after n
        unfold Luby.advance
        simp only
        have hiff : lowBit (2 ^ j + (after n).u) = (after n).v ↔ lowBit (after n).u = (after n).v := by
          rcases hlex with hlt | ⟨heq, hv⟩
          · rw [lowBit_add j _ hinv.u_pos hlt]
          · rw [heq, lowBit_pow, show 2 ^ j + 2 ^ j = 2 ^ (j + 1) by omega, lowBit_pow]
            omega
        by_cases hc : lowBit (after n).u = (after n).v
        · rw [if_pos hc, if_pos (hiff.2 hc)]; simp [Nat.add_assoc]
        · rw [if_neg hc, if_neg (fun h => hc (hiff.1 h))]
    have h3 := h2 (2 ^ (j + 1) - 2) le_rfl
    rw [ih] at h3
    simp only at h3
    rw [show 2 ^ (j + 1 + 1) - 2 = (2 ^ (j + 1) - 1 + (2 ^ (j + 1) - 2)) + 1 by omega, after_succ, h3]
    rw [show 2 ^ j + 2 ^ j = 2 ^ (j + 1) by omega]
    unfold Luby.advance
    simp only [lowBit_pow]
    rw [if_neg (by omega)]
    simp only [e1, Luby.mk.injEq, true_and]
    omega

theorem after_shift (j n : Nat) (hn : n ≤ 2 ^ (j + 1) - 2) :
    after (2 ^ (j + 1) - 1 + n) = ⟨2 ^ j + (after n).u, (after n).v⟩ := by
  have ih := after_pow j
  have hp := Nat.two_pow_pos j
  have e1 : 2 ^ (j + 1) = 2 * 2 ^ j := pow_succ' 2 j
  induction n with
  | zero =>
    rw [show 2 ^ (j + 1) - 1 + 0 = (2 ^ (j + 1) - 2) + 1 by omega, after_succ, ih]
    simp [Luby.advance, lowBit_pow, after, default]
  | succ n ih' =>
    have ih' := ih' (by omega)
    rw [← Nat.add_assoc, after_succ, ih', after_succ]
    have hlex := lex_lt (show n < 2 ^ (j + 1) - 2 by omega)
    rw [ih] at hlex
    unfold Lex at hlex
    simp only at hlex
    have hinv := inv_after n
    unfold Luby.advance
    simp only
    have hiff : lowBit (2 ^ j + (after n).u) = (after n).v ↔ lowBit (after n).u = (after n).v := by
      rcases hlex with hlt | ⟨heq, hv⟩
      · rw [lowBit_add j _ hinv.u_pos hlt]
      · rw [heq, lowBit_pow, show 2 ^ j + 2 ^ j = 2 ^ (j + 1) by omega, lowBit_pow]
        omega
    by_cases hc : lowBit (after n).u = (after n).v
    · rw [if_pos hc, if_pos (hiff.2 hc)]; simp [Nat.add_assoc]
    · rw [if_neg hc, if_neg (fun h => hc (hiff.1 h))]

/-! ## The 64-bit version -/

theorem toNat_after (n : Nat) (hn : n < 2 ^ 63) :
    (Luby64.after n).u.toNat = (after n).u ∧ (Luby64.after n).v.toNat = (after n).v := by
  induction n with
  | zero => decide
  | succ n ih =>
    obtain ⟨hu, hv⟩ := ih (by omega)
    have hinv := inv_after n
    have hule := u_le n
    have hlow := lowBit_le _ hinv.u_pos
    have hvle := hinv.le
    have hand : ((Luby64.after n).u &&& (-(Luby64.after n).u)).toNat = lowBit (after n).u := by
      rw [BitVec.toNat_and, BitVec.toNat_neg, hu, Nat.mod_eq_of_lt (by have := hinv.u_pos; omega)]
      obtain ⟨k, m, hk⟩ := exists_pow_mul_odd _ hinv.u_pos
      rw [hk] at hule ⊢
      rw [land_neg _ _ _ (by omega), if_neg (by omega), lowBit_eq]
    have hiff : ((Luby64.after n).u &&& (-(Luby64.after n).u) = (Luby64.after n).v) ↔
        lowBit (after n).u = (after n).v := by
      rw [← hand, ← hv]
      exact ⟨fun h => by rw [h], fun h => BitVec.eq_of_toNat_eq h⟩
    rw [after_succ]
    show (Luby64.advance (Luby64.after n)).2.u.toNat = _ ∧ (Luby64.advance (Luby64.after n)).2.v.toNat = _
    unfold Luby.advance Luby64.advance
    by_cases hc : lowBit (after n).u = (after n).v
    · rw [if_pos hc, if_pos (hiff.2 hc)]
      simp only [BitVec.toNat_add, hu]
      refine ⟨?_, rfl⟩
      exact Nat.mod_eq_of_lt (by show (after n).u + 1 < _; omega)
    · rw [if_neg hc, if_neg (fun h => hc (hiff.1 h))]
      simp only [BitVec.toNat_shiftLeft, hu, hv, true_and]
      rw [Nat.shiftLeft_eq]
      exact Nat.mod_eq_of_lt (by omega)

/-- Some term is at least as large as any bound. -/
theorem unbounded (B : Nat) : ∃ n, B ≤ (after n).v :=
  ⟨2 ^ (B + 1) - 2, by rw [after_pow]; exact Nat.le_of_lt Nat.lt_two_pow_self⟩

end Luby

end Starlit
