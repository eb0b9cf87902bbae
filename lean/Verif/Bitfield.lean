import Verif.Base

/-!
# Derived bit fields and the reduction score

Model of the accessors generated by `#[derive(Bitfield)]`
(`/repo/starlit-macros/src/bitfield.rs:54-143`) for a field of an unsigned type with `W` bits, and
of `Score` (`/repo/starlit/src/search/reduce.rs:7-17`).  The access type is `usize` (64 bits, values
are `Nat` below `2^64`).
-/

namespace Starlit

namespace Bitfield
variable {W : Nat}

/-- `mask_value` (`/repo/starlit-macros/src/bitfield.rs:92`): a `u128`. -/
def maskValue (width : Nat) : Nat := (2 ^ 128 - 1) >>> (128 - width)

/-- `mask` (`/repo/starlit-macros/src/bitfield.rs:93`): cast to the type of the field. -/
def mask (W width : Nat) : BitVec W := BitVec.ofNat W (maskValue width)

/-- The generated getter (`/repo/starlit-macros/src/bitfield.rs:95-115`). -/
def get (offset width : Nat) (x : BitVec W) : Nat :=
  if width = 1 then (if x &&& (1#W <<< offset) ≠ 0#W then 1 else 0)
  else ((x >>> offset) &&& mask W width).toNat % 2 ^ 64

/-- The generated setter with `clamp` (`/repo/starlit-macros/src/bitfield.rs:116-127`). -/
def setClamp (offset width : Nat) (x : BitVec W) (value : Nat) : BitVec W :=
  let value := min value (maskValue width % 2 ^ 64)
  (x &&& ~~~ (mask W width <<< offset)) ||| (BitVec.ofNat W value <<< offset)

/-- The generated setter without `clamp` (`/repo/starlit-macros/src/bitfield.rs:128-139`). -/
def set (offset width : Nat) (x : BitVec W) (value : Nat) : BitVec W :=
  (x &&& ~~~ (mask W width <<< offset)) ||| ((BitVec.ofNat W value &&& mask W width) <<< offset)

/-- The offset of the `k`-th field (`/repo/starlit-macros/src/bitfield.rs:52,142`). -/
def offset (widths : List Nat) (k : Nat) : Nat := (widths.take k).sum

/-- The check that the fields fit, evaluated at compile time
(`/repo/starlit-macros/src/bitfield.rs:58,145-152`). -/
def Fits (W : Nat) (widths : List Nat) : Prop :=
  (∀ w ∈ widths, 1 ≤ w ∧ w < 128) ∧ widths.sum ≤ W

end Bitfield

namespace Score

/-- `Score::set_len` (`/repo/starlit/src/search/reduce.rs:12`). -/
def setLen (s : BitVec 32) (v : Nat) : BitVec 32 := Bitfield.setClamp 0 24 s v
/-- `Score::set_glue` (`/repo/starlit/src/search/reduce.rs:13`). -/
def setGlue (s : BitVec 32) (v : Nat) : BitVec 32 := Bitfield.set 24 6 s v
/-- `Score::set_inv_used` (`/repo/starlit/src/search/reduce.rs:14`). -/
def setInvUsed (s : BitVec 32) (v : Nat) : BitVec 32 := Bitfield.set 30 2 s v

/-- The score of a clause (`/repo/starlit/src/search/reduce.rs:57-60`).  `!used` is the complement
of a `usize`. -/
def ofClause (used glue len : Nat) : BitVec 32 :=
  setLen (setGlue (setInvUsed 0#32 (2 ^ 64 - 1 - used)) glue) len

end Score

/-! ## Lemmas -/

namespace Bitfield
variable {W : Nat}

theorem maskValue_eq {w : Nat} (h1 : w ≤ 128) : maskValue w = 2 ^ w - 1 := by
  unfold maskValue
  rw [Nat.shiftRight_eq_div_pow]
  have e : (2 : Nat) ^ 128 = 2 ^ w * 2 ^ (128 - w) := by rw [← Nat.pow_add]; congr 1; omega
  have p := Nat.two_pow_pos (128 - w)
  have q := Nat.two_pow_pos w
  rw [e]
  have : 2 ^ w * 2 ^ (128 - w) - 1 = (2 ^ w - 1) * 2 ^ (128 - w) + (2 ^ (128 - w) - 1) := by
    rw [Nat.sub_mul, Nat.one_mul]
    have : 2 ^ (128 - w) ≤ 2 ^ w * 2 ^ (128 - w) := Nat.le_mul_of_pos_left _ q
    omega
  rw [this, Nat.mul_comm, Nat.mul_add_div p, Nat.div_eq_of_lt (by omega)]
  omega

theorem getLsbD_mask {w i : Nat} (h : w ≤ 128) (hW : w ≤ W) :
    (mask W w).getLsbD i = decide (i < w) := by
  unfold mask
  rw [maskValue_eq h, BitVec.getLsbD_ofNat, Nat.testBit_two_pow_sub_one]
  by_cases hi : i < w
  · simp [hi]; omega
  · simp [hi]

theorem getLsbD_one (o i : Nat) (hi : i < W) : (1#W <<< o).getLsbD i = decide (i = o) := by
  rw [BitVec.getLsbD_shiftLeft]
  by_cases h2 : i < o
  · simp [hi, h2]; omega
  · simp only [hi, h2, decide_true, decide_false, Bool.not_false, Bool.true_and,
      BitVec.getLsbD_one]
    by_cases h3 : i = o
    · subst h3; simp; omega
    · simp [h3]; omega

/-- The getter extracts `width` bits from `offset`. -/
theorem get_eq {o w : Nat} (h0 : 1 ≤ w) (h : w ≤ 64) (hW : o + w ≤ W) (x : BitVec W) :
    get o w x = x.toNat / 2 ^ o % 2 ^ w := by
  unfold get
  by_cases h1 : w = 1
  · rw [if_pos h1]; subst h1
    have hb : x.toNat / 2 ^ o % 2 = if x.getLsbD o then 1 else 0 := by
      rw [BitVec.getLsbD, Nat.testBit_eq_decide_div_mod_eq]
      have := Nat.mod_two_eq_zero_or_one (x.toNat / 2 ^ o)
      by_cases hh : x.toNat / 2 ^ o % 2 = 1 <;> simp [hh]; omega
    rw [show (2 : Nat) ^ 1 = 2 from rfl, hb]
    have : x &&& (1#W <<< o) = 0#W ↔ x.getLsbD o = false := by
      constructor
      · intro e
        have := congrArg (fun y => y.getLsbD o) e
        rw [BitVec.getLsbD_and, getLsbD_one o o (by omega)] at this
        simpa using this
      · intro e
        apply BitVec.eq_of_getLsbD_eq
        intro i hi
        rw [BitVec.getLsbD_and, getLsbD_one o i hi]
        by_cases ei : i = o
        · subst ei; simp [e]
        · simp [ei]
    by_cases hx : x.getLsbD o = true
    · rw [if_pos (by rw [Ne, this]; simp [hx]), if_pos hx]
    · rw [if_neg (by rw [Ne, this]; simpa using hx), if_neg hx]
  · rw [if_neg h1, BitVec.toNat_and, BitVec.toNat_ushiftRight]
    unfold mask
    rw [maskValue_eq (by omega), BitVec.toNat_ofNat, Nat.mod_eq_of_lt (a := 2 ^ w - 1),
      Nat.and_two_pow_sub_one_eq_mod, Nat.shiftRight_eq_div_pow]
    · apply Nat.mod_eq_of_lt
      exact Nat.lt_of_lt_of_le (Nat.mod_lt _ (Nat.two_pow_pos w))
        (Nat.pow_le_pow_right (by decide) h)
    · have := Nat.two_pow_pos w
      have : 2 ^ w ≤ 2 ^ W := Nat.pow_le_pow_right (by decide) (by omega)
      omega

theorem get_testBit {o w : Nat} (h0 : 1 ≤ w) (h : w ≤ 64) (hW : o + w ≤ W) (x : BitVec W)
    (i : Nat) : (get o w x).testBit i = (decide (i < w) && x.getLsbD (o + i)) := by
  rw [get_eq h0 h hW, Nat.testBit_mod_two_pow, ← Nat.shiftRight_eq_div_pow, Nat.testBit_shiftRight]
  rfl

theorem getLsbD_set {o w : Nat} (h : w ≤ 64) (hW : o + w ≤ W) (x : BitVec W) (v i : Nat) :
    (set o w x v).getLsbD i =
      if o ≤ i ∧ i < o + w then v.testBit (i - o) else x.getLsbD i := by
  unfold set
  by_cases hi : i < W
  · rw [BitVec.getLsbD_or, BitVec.getLsbD_and, BitVec.getLsbD_not, BitVec.getLsbD_shiftLeft,
      BitVec.getLsbD_shiftLeft, BitVec.getLsbD_and, getLsbD_mask (by omega) (by omega),
      BitVec.getLsbD_ofNat]
    by_cases h1 : o ≤ i
    · have h1' : ¬ i < o := by omega
      by_cases h2 : i < o + w
      · have h3 : i - o < w := by omega
        have h4 : i - o < W := by omega
        simp [h1, h1', h2, h3, h4, hi]
      · have h3 : ¬ i - o < w := by omega
        simp [h1', h2, h3, hi]
    · have h1' : i < o := by omega
      simp [h1, h1', hi]
  · rw [BitVec.getLsbD_of_ge _ _ (by omega), BitVec.getLsbD_of_ge _ _ (by omega)]
    have : ¬ (o ≤ i ∧ i < o + w) := by omega
    simp [this]

theorem getLsbD_setClamp {o w : Nat} (h : w ≤ 64) (hW : o + w ≤ W) (x : BitVec W) (v i : Nat) :
    (setClamp o w x v).getLsbD i =
      if o ≤ i ∧ i < o + w then (min v (2 ^ w - 1)).testBit (i - o) else x.getLsbD i := by
  unfold setClamp
  have hm : maskValue w % 2 ^ 64 = 2 ^ w - 1 := by
    rw [maskValue_eq (by omega)]
    apply Nat.mod_eq_of_lt
    have := Nat.two_pow_pos w
    have : 2 ^ w ≤ 2 ^ 64 := Nat.pow_le_pow_right (by decide) h
    omega
  simp only [hm]
  by_cases hi : i < W
  · rw [BitVec.getLsbD_or, BitVec.getLsbD_and, BitVec.getLsbD_not, BitVec.getLsbD_shiftLeft,
      BitVec.getLsbD_shiftLeft, getLsbD_mask (by omega) (by omega), BitVec.getLsbD_ofNat]
    by_cases h1 : o ≤ i
    · have h1' : ¬ i < o := by omega
      by_cases h2 : i < o + w
      · have h3 : i - o < w := by omega
        have h4 : i - o < W := by omega
        simp [h1, h1', h2, h3, h4, hi]
      · have h3 : ¬ i - o < w := by omega
        have : (min v (2 ^ w - 1)).testBit (i - o) = false := by
          apply Nat.testBit_lt_two_pow
          have : min v (2 ^ w - 1) < 2 ^ w := by
            have := Nat.two_pow_pos w; omega
          exact Nat.lt_of_lt_of_le this (Nat.pow_le_pow_right (by decide) (by omega))
        simp [h1', h2, h3, hi, this]
    · have h1' : i < o := by omega
      simp [h1, h1', hi]
  · rw [BitVec.getLsbD_of_ge _ _ (by omega), BitVec.getLsbD_of_ge _ _ (by omega)]
    have : ¬ (o ≤ i ∧ i < o + w) := by omega
    simp [this]

theorem get_set_self {o w : Nat} (h0 : 1 ≤ w) (h : w ≤ 64) (hW : o + w ≤ W) (x : BitVec W)
    (v : Nat) : get o w (set o w x v) = v % 2 ^ w := by
  apply Nat.eq_of_testBit_eq
  intro i
  rw [get_testBit h0 h hW, getLsbD_set h hW, Nat.testBit_mod_two_pow]
  by_cases hi : i < w
  · simp [hi]
  · simp [hi]

theorem get_setClamp_self {o w : Nat} (h0 : 1 ≤ w) (h : w ≤ 64) (hW : o + w ≤ W) (x : BitVec W)
    (v : Nat) : get o w (setClamp o w x v) = min v (2 ^ w - 1) := by
  have hlt : min v (2 ^ w - 1) < 2 ^ w := by have := Nat.two_pow_pos w; omega
  apply Nat.eq_of_testBit_eq
  intro i
  rw [get_testBit h0 h hW, getLsbD_setClamp h hW]
  by_cases hi : i < w
  · simp [hi]
  · rw [Nat.testBit_lt_two_pow (Nat.lt_of_lt_of_le hlt (Nat.pow_le_pow_right (by decide)
      (by omega : w ≤ i)))]
    simp [hi]

theorem get_set_other {o w o' w' : Nat} (h : w ≤ 64) (hW : o + w ≤ W) (h0' : 1 ≤ w') (h' : w' ≤ 64)
    (hW' : o' + w' ≤ W) (hd : o + w ≤ o' ∨ o' + w' ≤ o) (x : BitVec W) (v : Nat) :
    get o' w' (set o w x v) = get o' w' x := by
  apply Nat.eq_of_testBit_eq
  intro i
  rw [get_testBit h0' h' hW', get_testBit h0' h' hW', getLsbD_set h hW]
  by_cases hi : i < w'
  · rw [if_neg (by omega)]
  · simp [hi]

theorem get_setClamp_other {o w o' w' : Nat} (h : w ≤ 64) (hW : o + w ≤ W) (h0' : 1 ≤ w')
    (h' : w' ≤ 64) (hW' : o' + w' ≤ W) (hd : o + w ≤ o' ∨ o' + w' ≤ o) (x : BitVec W) (v : Nat) :
    get o' w' (setClamp o w x v) = get o' w' x := by
  apply Nat.eq_of_testBit_eq
  intro i
  rw [get_testBit h0' h' hW', get_testBit h0' h' hW', getLsbD_setClamp h hW]
  by_cases hi : i < w'
  · rw [if_neg (by omega)]
  · simp [hi]

end Bitfield

namespace Score

theorem ofClause_toNat (used glue len : Nat) (hu : used < 4) (hg : glue < 64) :
    (ofClause used glue len).toNat =
      min len (2 ^ 24 - 1) + 2 ^ 24 * glue + 2 ^ 30 * (3 - used) := by
  have h1 : Bitfield.get 0 24 (ofClause used glue len) = min len (2 ^ 24 - 1) :=
    Bitfield.get_setClamp_self (by decide) (by decide) (by decide) _ _
  have h2 : Bitfield.get 24 6 (ofClause used glue len) = glue % 2 ^ 6 := by
    unfold ofClause setLen
    rw [Bitfield.get_setClamp_other (by decide) (by decide) (by decide) (by decide) (by decide)
      (by decide)]
    exact Bitfield.get_set_self (by decide) (by decide) (by decide) _ _
  have h3 : Bitfield.get 30 2 (ofClause used glue len) = (2 ^ 64 - 1 - used) % 2 ^ 2 := by
    unfold ofClause setLen setGlue
    rw [Bitfield.get_setClamp_other (by decide) (by decide) (by decide) (by decide) (by decide)
      (by decide), Bitfield.get_set_other (by decide) (by decide) (by decide) (by decide)
      (by decide) (by decide)]
    exact Bitfield.get_set_self (by decide) (by decide) (by decide) _ _
  rw [Bitfield.get_eq (by decide) (by decide) (by decide)] at h1 h2 h3
  have := (ofClause used glue len).isLt
  omega

end Score

end Starlit
