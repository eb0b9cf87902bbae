import Verif.Luby

/-!
# Property C27: the Luby sequence
-/

namespace Starlit

/-- The definition of the Luby sequence, with terms numbered from 1:
`t (2^k - 1) = 2^(k-1)`, and `t i = t (i - 2^(k-1) + 1)` for `2^(k-1) ≤ i < 2^k - 1`. -/
structure IsLuby (bound : Nat) (t : Nat → Nat) : Prop where
  peak : ∀ k, 1 ≤ k → 2 ^ k - 1 < bound → t (2 ^ k - 1) = 2 ^ (k - 1)
  copy : ∀ k i, 1 ≤ k → 2 ^ (k - 1) ≤ i → i < 2 ^ k - 1 → i < bound → t i = t (i - 2 ^ (k - 1) + 1)

/-- The definition determines the sequence. -/
theorem IsLuby.unique {b : Nat} {s t : Nat → Nat} (hs : IsLuby b s) (ht : IsLuby b t) (i : Nat)
    (hi : 1 ≤ i) (hb : i < b) : s i = t i := by
  induction i using Nat.strongRecOn with
  | ind i ih =>
    -- `k` is the bit length of `i`
    have hk : ∃ k, 1 ≤ k ∧ 2 ^ (k - 1) ≤ i ∧ i < 2 ^ k := by
      refine ⟨Nat.log2 i + 1, by omega, ?_, Nat.lt_log2_self⟩
      exact Nat.log2_self_le (by omega)
    obtain ⟨k, h1, h2, h3⟩ := hk
    by_cases he : i = 2 ^ k - 1
    · rw [he, hs.peak k h1 (by omega), ht.peak k h1 (by omega)]
    · rw [hs.copy k i h1 h2 (by omega) hb, ht.copy k i h1 h2 (by omega) hb]
      have h4 : 2 ≤ 2 ^ (k - 1) := by
        by_cases hk1 : k = 1
        · subst hk1; simp at h3 he; omega
        · calc 2 = 2 ^ 1 := rfl
            _ ≤ 2 ^ (k - 1) := Nat.pow_le_pow_right (by omega) (by omega)
      exact ih _ (by omega) (by omega) (by omega)

/-- The `i`-th result of `advance` on a fresh `LubySequence`, numbered from 1. -/
def lubyResult (i : Nat) : Nat := (Luby64.after (i - 1)).advance.1.toNat

/-- C27: the first `2^63` results of `advance` are the Luby sequence. -/
theorem C27_luby : IsLuby (2 ^ 63) lubyResult := by
  have hres : ∀ i, i < 2 ^ 63 → lubyResult i = (Luby.after (i - 1)).v := by
    intro i hi
    have := (Luby.toNat_after (i - 1) (by omega)).2
    unfold lubyResult Luby64.advance
    split <;> exact this
  constructor
  · intro k hk hb
    rw [hres _ hb]
    obtain ⟨j, rfl⟩ : ∃ j, k = j + 1 := ⟨k - 1, by omega⟩
    rw [show 2 ^ (j + 1) - 1 - 1 = 2 ^ (j + 1) - 2 by omega, Luby.after_pow]; rfl
  · intro k i hk h1 h2 hb
    obtain ⟨j, rfl⟩ : ∃ j, k = j + 2 := by
      refine ⟨k - 2, ?_⟩
      by_cases hk1 : k = 1
      · subst hk1; simp at h1 h2; omega
      · omega
    have e : 2 ^ (j + 2) = 2 * 2 ^ (j + 1) := pow_succ' 2 (j + 1)
    rw [show j + 2 - 1 = j + 1 by omega] at h1 ⊢
    have hp : 2 ≤ 2 ^ (j + 1) := by
      have := Nat.two_pow_pos j
      rw [pow_succ]; omega
    rw [hres _ hb, hres _ (by omega)]
    have := Luby.after_shift j (i - 2 ^ (j + 1)) (by omega)
    rw [show 2 ^ (j + 1) - 1 + (i - 2 ^ (j + 1)) = i - 1 by omega] at this
    rw [this, show i - 2 ^ (j + 1) + 1 - 1 = i - 2 ^ (j + 1) by omega]

/-- The terms of the unit test (`/repo/starlit/src/state/luby.rs:37-51`). -/
example : (List.range 15).map (fun i => lubyResult (i + 1)) =
    [1, 1, 2, 1, 1, 2, 4, 1, 1, 2, 1, 1, 2, 4, 8] := by decide +kernel

end Starlit
