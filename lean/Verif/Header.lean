import Verif.Lit

/-!
# Clause header words

Model of `HeaderWord` (`/repo/starlit/src/clause_arena.rs:22-76`) and `LongHeader`
(`/repo/starlit/src/prop/long.rs`).
-/

namespace Starlit

/-- `HEADER_MASK` (`/repo/starlit/src/clause_arena.rs:29`). -/
def HEADER_MASK : BitVec 32 := BitVec.allOnes 32 >>> 1

/-- `LEN_MARKER` (`/repo/starlit/src/clause_arena.rs:30`). -/
def LEN_MARKER : BitVec 32 := ~~~ HEADER_MASK

namespace HeaderWord

/-- `HeaderWord::new` (`/repo/starlit/src/clause_arena.rs:34-38`). A header word is modelled by its
`data : u32`. -/
def new (data : BitVec 32) : BitVec 32 := data &&& HEADER_MASK

/-- `HeaderWord::bit` (`/repo/starlit/src/clause_arena.rs:41-44`).  The assertion on the const
parameter is a compile-time constant; it holds for all uses (see `LongHeader`). -/
def bit (b : Nat) (d : BitVec 32) : Bool := (d &&& (1#32 <<< b)) != 0#32

/-- `HeaderWord::set_bit` (`/repo/starlit/src/clause_arena.rs:47-50`). -/
def setBit (b : Nat) (d : BitVec 32) (value : Bool) : BitVec 32 :=
  (d &&& ~~~ (1#32 <<< b)) ||| ((if value then 1#32 else 0#32) <<< b)

/-- `HeaderWord::field` (`/repo/starlit/src/clause_arena.rs:53-56`). -/
def field (start width : Nat) (d : BitVec 32) : BitVec 32 :=
  (d >>> start) &&& ((1#32 <<< width) - 1#32)

/-- `HeaderWord::set_field` (`/repo/starlit/src/clause_arena.rs:62-69`). -/
def setField (start width : Nat) (d : BitVec 32) (value : BitVec 32) : BitVec 32 :=
  let value := if value > (1#32 <<< width) - 1#32 then (1#32 <<< width) - 1#32 else value
  (d &&& ~~~ (((1#32 <<< width) - 1#32) <<< start)) ||| (value <<< start)

end HeaderWord

/-- `LongHeader` (`/repo/starlit/src/prop/long.rs:19-21`): `[HeaderWord; 2]`. -/
structure LongHeader where
  w0 : BitVec 32
  w1 : BitVec 32
deriving DecidableEq, Repr

/-- `REDUNDANT_BIT` (`/repo/starlit/src/prop/long.rs:8`). -/
def REDUNDANT_BIT : Nat := 0
/-- `PROTECTED_BIT` (`/repo/starlit/src/prop/long.rs:9`). -/
def PROTECTED_BIT : Nat := REDUNDANT_BIT + 1
/-- `GLUE_START` (`/repo/starlit/src/prop/long.rs:11`). -/
def GLUE_START : Nat := PROTECTED_BIT + 1
/-- `GLUE_WIDTH` (`/repo/starlit/src/prop/long.rs:12`). -/
def GLUE_WIDTH : Nat := 6
/-- `USED_START` (`/repo/starlit/src/prop/long.rs:13`). -/
def USED_START : Nat := GLUE_START + GLUE_WIDTH
/-- `USED_WIDTH` (`/repo/starlit/src/prop/long.rs:14`). -/
def USED_WIDTH : Nat := 2

namespace LongHeader

/-- `LongHeader::default()` (`/repo/starlit/src/prop/long.rs:17`). -/
def default : LongHeader := ⟨0#32, 0#32⟩

/-- `redundant` (`/repo/starlit/src/prop/long.rs:53-55`). -/
def redundant (h : LongHeader) : Bool := HeaderWord.bit REDUNDANT_BIT h.w0

/-- `set_redundant` (`/repo/starlit/src/prop/long.rs:58-60`). -/
def setRedundant (h : LongHeader) (v : Bool) : LongHeader :=
  { h with w0 := HeaderWord.setBit REDUNDANT_BIT h.w0 v }

/-- `protected` (`/repo/starlit/src/prop/long.rs:63-65`). -/
def prot (h : LongHeader) : Bool := HeaderWord.bit PROTECTED_BIT h.w0

/-- `set_protected` (`/repo/starlit/src/prop/long.rs:68-70`). -/
def setProt (h : LongHeader) (v : Bool) : LongHeader :=
  { h with w0 := HeaderWord.setBit PROTECTED_BIT h.w0 v }

/-- `glue` (`/repo/starlit/src/prop/long.rs:75-77`). -/
def glue (h : LongHeader) : Nat := (HeaderWord.field GLUE_START GLUE_WIDTH h.w0).toNat

/-- `set_glue` (`/repo/starlit/src/prop/long.rs:82-84`); the cast `as u32` truncates. -/
def setGlue (h : LongHeader) (glue : Nat) : LongHeader :=
  { h with w0 := HeaderWord.setField GLUE_START GLUE_WIDTH h.w0 (BitVec.ofNat 32 glue) }

/-- `used` (`/repo/starlit/src/prop/long.rs:90-92`). -/
def used (h : LongHeader) : Nat := (HeaderWord.field USED_START USED_WIDTH h.w0).toNat

/-- `set_used` (`/repo/starlit/src/prop/long.rs:98-100`); the cast `as u32` truncates. -/
def setUsed (h : LongHeader) (used : Nat) : LongHeader :=
  { h with w0 := HeaderWord.setField USED_START USED_WIDTH h.w0 (BitVec.ofNat 32 used) }

/-- `search_pos` (`/repo/starlit/src/prop/long.rs:109-111`). -/
def searchPos (h : LongHeader) : Nat := h.w1.toNat

/-- `set_search_pos` (`/repo/starlit/src/prop/long.rs:117-119`); the cast `as LitIdx` truncates. -/
def setSearchPos (h : LongHeader) (pos : Nat) : LongHeader :=
  { h with w1 := HeaderWord.new (BitVec.ofNat 32 pos) }

/-- `new_input_clause` (`/repo/starlit/src/prop/long.rs:38-40`). -/
def newInputClause : LongHeader := default

/-- `new_learned_clause` (`/repo/starlit/src/prop/long.rs:43-50`). -/
def newLearnedClause : LongHeader := (default.setRedundant true).setUsed 1

/-- `ClauseHeader::shrink_clause` for `LongHeader` (`/repo/starlit/src/prop/long.rs:29-33`). -/
def shrinkClause (h : LongHeader) (_oldLen newLen : Nat) : LongHeader :=
  if h.searchPos ≥ newLen then h.setSearchPos 0 else h

/-- Both words have their most significant bit unset. -/
def WF (h : LongHeader) : Prop := h.w0.toNat < 2 ^ 31 ∧ h.w1.toNat < 2 ^ 31

end LongHeader

/-! ## Bit arithmetic -/

namespace HeaderWord

theorem getLsbD_one_shl (b i : Nat) : (1#32 <<< b).getLsbD i = (decide (i = b) && decide (i < 32)) := by
  rw [BitVec.getLsbD_shiftLeft]
  by_cases h1 : i < 32
  · by_cases h2 : i < b
    · simp [h1, h2]; omega
    · simp only [h1, h2, decide_true, decide_false, Bool.not_false, Bool.true_and, Bool.and_true,
        BitVec.getLsbD_one]
      by_cases h3 : i = b
      · simp [h3]
      · simp [h3]; omega
  · simp [h1]

theorem mask_toNat {w : Nat} (h : w < 32) : ((1#32 <<< w) - 1#32).toNat = 2 ^ w - 1 := by
  have h1 : (1#32 <<< w).toNat = 2 ^ w := by
    rw [BitVec.toNat_shiftLeft]
    simp only [BitVec.toNat_ofNat, Nat.reducePow, Nat.one_mod, Nat.shiftLeft_eq, Nat.one_mul]
    exact Nat.mod_eq_of_lt (Nat.pow_lt_pow_right (by decide) h)
  have h2 : 0 < 2 ^ w := Nat.two_pow_pos w
  have h3 : 2 ^ w < 2 ^ 32 := Nat.pow_lt_pow_right (by decide) h
  rw [BitVec.toNat_sub, h1]
  simp only [BitVec.toNat_ofNat, Nat.reducePow, Nat.one_mod] at *
  omega

theorem getLsbD_mask {w i : Nat} (h : w < 32) :
    ((1#32 <<< w) - 1#32).getLsbD i = decide (i < w) := by
  rw [BitVec.getLsbD, mask_toNat h, Nat.testBit_two_pow_sub_one]

theorem bit_eq {b : Nat} (d : BitVec 32) : bit b d = d.getLsbD b := by
  by_cases hb : b < 32
  · by_cases h : d.getLsbD b = true
    · simp only [bit, h, bne_iff_ne]
      intro e
      have := congrArg (fun x => x.getLsbD b) e
      simp only [BitVec.getLsbD_and, h, getLsbD_one_shl, hb] at this
      simp at this
    · have h' : d.getLsbD b = false := by simpa using h
      rw [h']
      simp only [bit, bne_eq_false_iff_eq]
      apply BitVec.eq_of_getLsbD_eq
      intro i hi
      rw [BitVec.getLsbD_and, getLsbD_one_shl]
      by_cases e : i = b
      · subst e; simp [h']
      · simp [e]
  · have h0 : d.getLsbD b = false := BitVec.getLsbD_of_ge d b (by omega)
    rw [h0]
    simp only [bit, bne_eq_false_iff_eq]
    apply BitVec.eq_of_getLsbD_eq
    intro i hi
    rw [BitVec.getLsbD_and, getLsbD_one_shl]
    have : i ≠ b := by omega
    simp [this]

theorem getLsbD_setBit {b : Nat} (hb : b < 32) (d : BitVec 32) (v : Bool) (i : Nat) :
    (setBit b d v).getLsbD i = if i = b then v else d.getLsbD i := by
  unfold setBit
  by_cases hi : i < 32
  · rw [BitVec.getLsbD_or, BitVec.getLsbD_and, BitVec.getLsbD_not, getLsbD_one_shl]
    cases v
    · by_cases e : i = b
      · subst e; simp [hb]
      · simp [e, hi]
    · simp only [if_true, getLsbD_one_shl]
      by_cases e : i = b
      · subst e; simp [hb]
      · simp [e, hi]
  · rw [BitVec.getLsbD_of_ge _ _ (by omega), BitVec.getLsbD_of_ge _ _ (by omega)]
    have : i ≠ b := by omega
    simp [this]

/-- The value actually stored by `setField`. -/
theorem clamp_toNat {w : Nat} (h : w < 32) (v : BitVec 32) :
    (if v > (1#32 <<< w) - 1#32 then (1#32 <<< w) - 1#32 else v).toNat = min v.toNat (2 ^ w - 1) := by
  have := mask_toNat h
  by_cases hv : v > (1#32 <<< w) - 1#32
  · rw [if_pos hv, this]
    have hv : ((1#32 <<< w) - 1#32).toNat < v.toNat := by simpa [BitVec.lt_def] using hv
    omega
  · rw [if_neg hv]
    have hv : ¬ ((1#32 <<< w) - 1#32).toNat < v.toNat := by simpa [BitVec.lt_def] using hv
    omega

theorem getLsbD_setField {s w : Nat} (h : s + w ≤ 31) (d v : BitVec 32) (i : Nat) :
    (setField s w d v).getLsbD i =
      if s ≤ i ∧ i < s + w then (min v.toNat (2 ^ w - 1)).testBit (i - s) else d.getLsbD i := by
  unfold setField
  have hw : w < 32 := by omega
  have hc := clamp_toNat hw v
  generalize (if v > (1#32 <<< w) - 1#32 then (1#32 <<< w) - 1#32 else v) = c at hc
  by_cases hi : i < 32
  · rw [BitVec.getLsbD_or, BitVec.getLsbD_and, BitVec.getLsbD_not, BitVec.getLsbD_shiftLeft,
      BitVec.getLsbD_shiftLeft, getLsbD_mask hw]
    have hcb : c.getLsbD (i - s) = (min v.toNat (2 ^ w - 1)).testBit (i - s) := by
      rw [BitVec.getLsbD, hc]
    rw [hcb]
    by_cases h1 : s ≤ i
    · have h1' : ¬ i < s := by omega
      by_cases h2 : i < s + w
      · have h3 : i - s < w := by omega
        simp [h1, h1', h2, h3, hi]
      · have h3 : ¬ i - s < w := by omega
        have : (min v.toNat (2 ^ w - 1)).testBit (i - s) = false := by
          apply Nat.testBit_lt_two_pow
          have : min v.toNat (2 ^ w - 1) < 2 ^ w := by
            have := Nat.two_pow_pos w; omega
          exact Nat.lt_of_lt_of_le this (Nat.pow_le_pow_right (by decide) (by omega))
        simp [h1', h2, h3, hi, this]
    · have h1' : i < s := by omega
      simp [h1, h1', hi]
  · rw [BitVec.getLsbD_of_ge _ _ (by omega), BitVec.getLsbD_of_ge _ _ (by omega)]
    have : ¬ (s ≤ i ∧ i < s + w) := by omega
    simp [this]

theorem field_toNat {s w : Nat} (hw : w < 32) (d : BitVec 32) :
    (field s w d).toNat = d.toNat / 2 ^ s % 2 ^ w := by
  unfold field
  rw [BitVec.toNat_and, mask_toNat hw, BitVec.toNat_ushiftRight, Nat.and_two_pow_sub_one_eq_mod,
    Nat.shiftRight_eq_div_pow]

theorem getLsbD_field {s w : Nat} (hw : w < 32) (d : BitVec 32) (i : Nat) :
    (field s w d).getLsbD i = (d.getLsbD (s + i) && decide (i < w)) := by
  unfold field
  rw [BitVec.getLsbD_and, getLsbD_mask hw, BitVec.getLsbD_ushiftRight]

/-- Reading back the field that was written gives the clamped value. -/
theorem field_setField {s w : Nat} (h : s + w ≤ 31) (d v : BitVec 32) :
    (field s w (setField s w d v)).toNat = min v.toNat (2 ^ w - 1) := by
  apply Nat.eq_of_testBit_eq
  intro i
  show (field s w (setField s w d v)).getLsbD i = _
  rw [getLsbD_field (by omega), getLsbD_setField h]
  by_cases hi : i < w
  · have : s ≤ s + i ∧ s + i < s + w := by omega
    simp [hi, this]
  · have : (min v.toNat (2 ^ w - 1)).testBit i = false := by
      apply Nat.testBit_lt_two_pow
      have : min v.toNat (2 ^ w - 1) < 2 ^ w := by
        have := Nat.two_pow_pos w; omega
      exact Nat.lt_of_lt_of_le this (Nat.pow_le_pow_right (by decide) (by omega))
    simp [hi, this]

/-- A field only depends on its own bits. -/
theorem field_congr {s w : Nat} (hw : w < 32) {d e : BitVec 32}
    (h : ∀ i, s ≤ i → i < s + w → d.getLsbD i = e.getLsbD i) : field s w d = field s w e := by
  apply BitVec.eq_of_getLsbD_eq
  intro i _
  rw [getLsbD_field hw, getLsbD_field hw]
  by_cases hi : i < w
  · rw [h (s + i) (by omega) (by omega)]
  · simp [hi]

theorem lt_iff_msb (d : BitVec 32) : d.toNat < 2 ^ 31 ↔ d.getLsbD 31 = false := by
  have h1 := d.msb_eq_getLsbD_last
  have h2 := d.msb_eq_decide
  rw [h1] at h2
  simp only [Nat.reduceSub] at h2
  rw [h2]; simp

theorem HEADER_MASK_toNat : HEADER_MASK.toNat = 2 ^ 31 - 1 := by decide
theorem LEN_MARKER_toNat : LEN_MARKER.toNat = 2 ^ 31 := by decide

theorem and_HEADER_MASK (d : BitVec 32) : (d &&& HEADER_MASK).toNat = d.toNat % 2 ^ 31 := by
  rw [BitVec.toNat_and, HEADER_MASK_toNat, Nat.and_two_pow_sub_one_eq_mod]

theorem new_toNat (d : BitVec 32) : (new d).toNat = d.toNat % 2 ^ 31 := and_HEADER_MASK d

theorem getLsbD_LEN_MARKER (i : Nat) : LEN_MARKER.getLsbD i = decide (i = 31) := by
  rw [BitVec.getLsbD, LEN_MARKER_toNat, Nat.testBit_two_pow]
  simp [eq_comm]

theorem and_LEN_MARKER (d : BitVec 32) : d &&& LEN_MARKER = 0#32 ↔ d.toNat < 2 ^ 31 := by
  rw [lt_iff_msb]
  constructor
  · intro h
    have := congrArg (fun x => x.getLsbD 31) h
    simp only [BitVec.getLsbD_and, getLsbD_LEN_MARKER, decide_true, Bool.and_true] at this
    rw [this]; rfl
  · intro h
    apply BitVec.eq_of_getLsbD_eq
    intro i _
    rw [BitVec.getLsbD_and, getLsbD_LEN_MARKER]
    by_cases e : i = 31
    · subst e; rw [h]; rfl
    · simp [e]

theorem or_LEN_MARKER {n : Nat} (h : n < 2 ^ 31) :
    (BitVec.ofNat 32 n ||| LEN_MARKER).toNat = 2 ^ 31 + n := by
  rw [BitVec.toNat_or, LEN_MARKER_toNat, BitVec.toNat_ofNat, Nat.mod_eq_of_lt (by omega)]
  have := Nat.shiftLeft_add_eq_or_of_lt h 1
  rw [Nat.or_comm, show (2 : Nat) ^ 31 = 1 <<< 31 by decide, ← this]

end HeaderWord

end Starlit
