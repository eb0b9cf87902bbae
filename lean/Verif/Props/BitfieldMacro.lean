import Verif.BitfieldMacro

/-!
# C77: what the derive macro for bit fields generates

The specification: a word is a number, and the bits `[o, o + w)` of a number `x` are
`x / 2^o % 2^w`.
-/

namespace Starlit
namespace Bitfield

/-- The number in the bits `[o, o + w)`. -/
def part (x o w : Nat) : Nat := x / 2 ^ o % 2 ^ w

/-- The largest number that an access type holds. -/
def Ty.max : Ty → Int
  | .bool => 1
  | .u k => 2 ^ k - 1
  | .i k => 2 ^ (k - 1) - 1

theorem part_testBit (x o w i : Nat) : (part x o w).testBit i = (decide (i < w) && x.testBit (o + i)) := by
  unfold part
  rw [Nat.testBit_mod_two_pow, ← Nat.shiftRight_eq_div_pow, Nat.testBit_shiftRight]

theorem part_lt (x o w : Nat) : part x o w < 2 ^ w := Nat.mod_lt _ (Nat.two_pow_pos w)

section
variable {W : Nat} {items : List Item} {as : List Accessor} {a b : Accessor} {x y x' : BitVec W}

/-! ## Layout -/

/-- The accessors of entries that start at an offset. -/
def accs : Nat → List Item → List Accessor
  | _, [] => []
  | o, it :: its => (match it.access with
    | some t => [⟨o, it.width, it.clamp, t⟩]
    | none => []) ++ accs (o + it.width) its

/-- What the loop returns. -/
theorem layout_spec : ∀ (items : List Item) (o e : Nat) (as : List Accessor),
    layout o items = .ok (e, as) ↔ (∀ it ∈ items, 1 ≤ it.width ∧ it.width < 128) ∧
      e = o + (items.map (·.width)).sum ∧ as = accs o items := by
  intro items
  induction items with
  | nil => intro o e as; simp [layout, accs, eq_comm]
  | cons it its ih =>
    intro o e as
    unfold layout accs
    by_cases hw : 1 ≤ it.width ∧ it.width < 128
    · rw [if_neg (by simp [hw])]
      constructor
      · intro h
        cases hl : layout (o + it.width) its with
        | error x => rw [hl] at h; cases h
        | ok r =>
          obtain ⟨e1, as1⟩ := r
          obtain ⟨k1, k2, k3⟩ := (ih _ _ _).1 hl
          rw [hl] at h
          simp only [bind, Except.bind] at h
          refine ⟨fun i hi => (List.mem_cons.1 hi).elim (· ▸ hw) (k1 i), ?_⟩
          cases ha : it.access with
          | none => rw [ha] at h; cases h; exact ⟨by simp [k2, Nat.add_assoc], by simp [k3]⟩
          | some t => rw [ha] at h; cases h; exact ⟨by simp [k2, Nat.add_assoc], by simp [k3]⟩
      · rintro ⟨k1, k2, k3⟩
        rw [(ih _ _ _).2 ⟨fun i hi => k1 i (.tail _ hi), rfl, rfl⟩]
        simp only [bind, Except.bind]
        cases ha : it.access with
        | none => rw [ha] at k3; simp [k2, k3, Nat.add_assoc]
        | some t => rw [ha] at k3; simp [k2, k3, Nat.add_assoc]
    · rw [if_pos hw]
      constructor
      · intro h; cases h
      · rintro ⟨k1, -⟩; exact absurd (k1 it (.head _)) hw

theorem mem_accs : ∀ (items : List Item) (o : Nat) (a : Accessor), a ∈ accs o items ↔
    ∃ l it r, items = l ++ it :: r ∧ a.offset = o + (l.map (·.width)).sum ∧ a.width = it.width ∧
      a.clamp = it.clamp ∧ it.access = some a.ty := by
  intro items
  induction items with
  | nil => intro o a; simp [accs]
  | cons it its ih =>
    intro o a
    unfold accs
    rw [List.mem_append, ih]
    constructor
    · rintro (h | ⟨l, i, r, rfl, h1, h2⟩)
      · refine ⟨[], it, its, rfl, ?_⟩
        cases ha : it.access with
        | none => rw [ha] at h; simp at h
        | some t => rw [ha] at h; simp at h; subst h; simp
      · exact ⟨it :: l, i, r, rfl, by simp [h1, Nat.add_assoc], h2⟩
    · rintro ⟨l, i, r, e, h1, h2, h3, h4⟩
      cases l with
      | nil =>
        obtain ⟨rfl, rfl⟩ := List.cons.inj e
        left
        rw [h4]
        obtain ⟨a1, a2, a3, a4⟩ := a
        simp at h1 h2 h3
        simp [h1, h2, h3]
      | cons j l =>
        obtain ⟨rfl, rfl⟩ := List.cons.inj e
        exact .inr ⟨l, i, r, rfl, by simpa [Nat.add_assoc] using h1, h2, h3, h4⟩

theorem accs_pairwise : ∀ (items : List Item) (o : Nat),
    (accs o items).Pairwise fun a b => a.offset + a.width ≤ b.offset := by
  intro items
  induction items with
  | nil => intro o; exact .nil
  | cons it its ih =>
    intro o
    unfold accs
    cases ha : it.access with
    | none => exact ih _
    | some t =>
      refine List.Pairwise.cons ?_ (ih _)
      intro b hb
      obtain ⟨l, i, r, -, h1, -⟩ := (mem_accs _ _ _).1 hb
      simp only; omega

theorem derive_eq : derive W items = .ok as ↔ (∀ it ∈ items, 1 ≤ it.width ∧ it.width < 128) ∧
    (items.map (·.width)).sum ≤ W ∧ as = accs 0 items ∧ as.all Accessor.typed = true := by
  unfold derive
  cases hl : layout 0 items with
  | error x =>
    constructor
    · intro h; cases h
    · rintro ⟨k, -⟩
      rw [(layout_spec _ _ _ _).2 ⟨k, rfl, rfl⟩] at hl; cases hl
  | ok r =>
    obtain ⟨e, as1⟩ := r
    obtain ⟨k1, k2, k3⟩ := (layout_spec _ _ _ _).1 hl
    simp only [bind, Except.bind]
    by_cases hc : e > 0 ∧ ¬ e - 1 < W
    · rw [if_pos hc]
      constructor
      · intro h; cases h
      · rintro ⟨-, k, -⟩; omega
    · rw [if_neg hc]
      by_cases ht : as1.all Accessor.typed = true
      · rw [if_pos ht]
        constructor
        · intro h; cases h; exact ⟨k1, by omega, k3, ht⟩
        · rintro ⟨-, -, k, -⟩; rw [k, k3]
      · rw [if_neg ht]
        constructor
        · intro h; cases h
        · rintro ⟨-, -, k, k'⟩; rw [k, ← k3] at k'; exact absurd k' ht

theorem derive_typed (h : derive W items = .ok as) (ha : a ∈ as) : a.typed = true :=
  List.all_eq_true.1 (derive_eq.1 h).2.2.2 a ha

theorem width_lt (h : derive W items = .ok as) (ha : a ∈ as) : a.width < 128 := by
  obtain ⟨h1, -, rfl, -⟩ := derive_eq.1 h
  obtain ⟨l, it, r, rfl, -, k2, -⟩ := (mem_accs _ _ _).1 ha
  have := h1 it (by simp)
  omega

theorem disjoint : ∀ {as : List Accessor}, (as.Pairwise fun a b => a.offset + a.width ≤ b.offset) →
    a ∈ as → b ∈ as → a ≠ b → a.offset + a.width ≤ b.offset ∨ b.offset + b.width ≤ a.offset := by
  intro as
  induction as with
  | nil => intro _ ha; simp at ha
  | cons c as ih =>
    intro h ha hb hne
    obtain ⟨h1, h2⟩ := List.pairwise_cons.1 h
    rcases List.mem_cons.1 ha with ea | ha' <;> rcases List.mem_cons.1 hb with eb | hb'
    · exact absurd (ea.trans eb.symm) hne
    · rw [ea]; exact .inl (h1 _ hb')
    · rw [eb]; exact .inr (h1 _ ha')
    · exact ih h2 ha' hb' hne

/-- **C77** (rejected declarations).  A declaration compiles iff every width is between 1 and 127, the
widths add up to at most the number of bits of the field, and `bool` is used for single bits without
`clamp` only. -/
theorem C77_accepted (W : Nat) (items : List Item) :
    (∃ as, derive W items = .ok as) ↔ (∀ it ∈ items, 1 ≤ it.width ∧ it.width < 128) ∧
      (items.map (·.width)).sum ≤ W ∧
      ∀ it ∈ items, it.access = some .bool → it.width = 1 ∧ it.clamp = false := by
  have key : (accs 0 items).all Accessor.typed = true ↔
      ∀ it ∈ items, it.access = some .bool → it.width = 1 ∧ it.clamp = false := by
    rw [List.all_eq_true]
    constructor
    · intro h it hi hb
      obtain ⟨l, r, rfl⟩ := List.append_of_mem hi
      have := h ⟨0 + (l.map (·.width)).sum, it.width, it.clamp, .bool⟩
        ((mem_accs _ _ _).2 ⟨l, it, r, rfl, rfl, rfl, rfl, hb⟩)
      simpa [Accessor.typed] using this
    · intro h a ha
      obtain ⟨l, it, r, rfl, -, h2, h3, h4⟩ := (mem_accs _ _ _).1 ha
      unfold Accessor.typed
      by_cases hb : a.ty = .bool
      · obtain ⟨k1, k2⟩ := h it (by simp) (by rw [h4, hb])
        simp [h2, h3, k1, k2]
      · simp [hb]
  constructor
  · rintro ⟨as, h⟩
    obtain ⟨h1, h2, rfl, h4⟩ := derive_eq.1 h
    exact ⟨h1, h2, key.1 h4⟩
  · rintro ⟨h1, h2, h3⟩
    exact ⟨_, derive_eq.2 ⟨h1, h2, rfl, key.2 h3⟩⟩

/-- **C77** (layout).  The accessors are those of the entries with an access type, in their order, and
each is at the sum of the widths of all the entries before its own. -/
theorem C77_layout (h : derive W items = .ok as) (a : Accessor) :
    a ∈ as ↔ ∃ l it r, items = l ++ it :: r ∧ a.offset = (l.map (·.width)).sum ∧ a.width = it.width ∧
      a.clamp = it.clamp ∧ it.access = some a.ty := by
  obtain ⟨-, -, rfl, -⟩ := derive_eq.1 h
  simpa using mem_accs items 0 a

/-- **C77** (disjoint).  The bits of the accessors lie inside the field, and an accessor's bits are
before the bits of the accessors after it. -/
theorem C77_disjoint (h : derive W items = .ok as) :
    (∀ a ∈ as, 1 ≤ a.width ∧ a.offset + a.width ≤ W) ∧ as.Pairwise fun a b => a.offset + a.width ≤ b.offset := by
  obtain ⟨h1, h2, rfl, -⟩ := derive_eq.1 h
  refine ⟨fun a ha => ?_, accs_pairwise _ _⟩
  obtain ⟨l, it, r, rfl, k1, k2, -⟩ := (mem_accs _ _ _).1 ha
  have := h1 it (by simp)
  simp at h2
  omega

/-! ## Accessors -/

theorem two_pow_sub_one_mod (w k : Nat) : (2 ^ w - 1) % 2 ^ k = 2 ^ min w k - 1 := by
  apply Nat.eq_of_testBit_eq
  intro i
  rw [Nat.testBit_mod_two_pow, Nat.testBit_two_pow_sub_one, Nat.testBit_two_pow_sub_one]
  by_cases h1 : i < k <;> by_cases h2 : i < w <;> simp [h1, h2, Nat.lt_min] <;> omega

/-- The bits that a getter reads. -/
theorem Accessor.get_eq (a : Accessor) (h0 : 1 ≤ a.width) (h : a.width < 128) (hW : a.offset + a.width ≤ W)
    (x : BitVec W) : a.get x = Ty.ofNat (part x.toNat a.offset a.width) a.ty := by
  unfold Accessor.get
  by_cases h1 : a.width = 1
  · rw [if_pos h1, h1]
    congr 1
    have hg := Bitfield.get_eq (o := a.offset) (w := 1) (by decide) (by decide) (by omega) x
    unfold Bitfield.get at hg
    rw [if_pos rfl] at hg
    exact hg
  · rw [if_neg h1, BitVec.toNat_and, BitVec.toNat_ushiftRight]
    unfold mask
    rw [maskValue_eq (by omega), BitVec.toNat_ofNat, Nat.mod_eq_of_lt (a := 2 ^ a.width - 1),
      Nat.and_two_pow_sub_one_eq_mod, Nat.shiftRight_eq_div_pow]
    · rfl
    · have := Nat.two_pow_pos a.width
      have : 2 ^ a.width ≤ 2 ^ W := Nat.pow_le_pow_right (by decide) (by omega)
      omega

theorem Ty.num_ofNat {t : Ty} {n : Nat} (h : (n : Int) ≤ t.max) : t.num (Ty.ofNat n t) = n := by
  cases t with
  | bool =>
    have : n = 0 ∨ n = 1 := by simp only [Ty.max] at h; omega
    rcases this with rfl | rfl <;> rfl
  | u k =>
    simp only [Ty.num, Ty.ofNat, Ty.max] at h ⊢
    rw [BitVec.toNat_ofNat, Nat.mod_eq_of_lt]
    have : ((2 ^ k : Nat) : Int) = 2 ^ k := by simp
    omega
  | i k =>
    simp only [Ty.num, Ty.ofNat, Ty.max] at h ⊢
    rw [BitVec.toInt_ofNat']
    have e1 : ((2 ^ (k - 1) : Nat) : Int) = 2 ^ (k - 1) := by simp
    cases k with
    | zero => simp at h; have : n = 0 := by omega
              subst this; rfl
    | succ k =>
      simp only [Nat.add_sub_cancel] at h e1
      have e2 : 2 ^ (k + 1) = 2 * 2 ^ k := by rw [Nat.pow_succ, Nat.mul_comm]
      apply Int.bmod_eq_of_le <;> omega

theorem Ty.num_inj {t : Ty} {v v' : t.Val} (h : t.num v = t.num v') : v = v' := by
  cases t with
  | bool =>
    revert v v'
    show ∀ v v' : Bool, (Bool.toNat v : Int) = Bool.toNat v' → v = v'
    decide
  | u k =>
    exact BitVec.eq_of_toNat_eq (Int.ofNat.inj h)
  | i k => exact BitVec.eq_of_toInt_eq h

theorem Ty.num_le_max {t : Ty} (v : t.Val) : t.num v ≤ t.max := by
  cases t with
  | bool =>
    revert v
    show ∀ v : Bool, (Bool.toNat v : Int) ≤ 1
    decide
  | u k =>
    have := BitVec.isLt (w := k) v
    have e : ((2 ^ k : Nat) : Int) = 2 ^ k := by simp
    simp only [Ty.num, Ty.max]; omega
  | i k =>
    have e1 : ((2 ^ (k - 1) : Nat) : Int) = 2 ^ (k - 1) := by simp
    simp only [Ty.num, Ty.max]
    cases k with
    | zero => have : v = (0#0 : BitVec 0) := BitVec.eq_nil v
              subst this; decide
    | succ k =>
      have := BitVec.two_mul_toInt_lt (w := k + 1) (x := v)
      simp only [Nat.add_sub_cancel] at e1 ⊢
      have e2 : (2 : Int) ^ (k + 1) = 2 * 2 ^ k := by rw [Int.pow_succ, Int.mul_comm]
      omega

theorem getLsbD_insert {o w : Nat} (h : w < 128) (hW : o + w ≤ W) (x V : BitVec W)
    (hV : ∀ i, w ≤ i → V.getLsbD i = false) (i : Nat) :
    ((x &&& ~~~ (mask W w <<< o)) ||| (V <<< o)).getLsbD i =
      if o ≤ i ∧ i < o + w then V.getLsbD (i - o) else x.getLsbD i := by
  by_cases hi : i < W
  · rw [BitVec.getLsbD_or, BitVec.getLsbD_and, BitVec.getLsbD_not, BitVec.getLsbD_shiftLeft,
      BitVec.getLsbD_shiftLeft, getLsbD_mask (by omega) (by omega)]
    by_cases h1 : o ≤ i
    · have h1' : ¬ i < o := by omega
      by_cases h2 : i < o + w
      · have h3 : i - o < w := by omega
        simp [h1, h1', h2, h3, hi]
      · have h3 : ¬ i - o < w := by omega
        simp [h1', h2, h3, hi, hV (i - o) (by omega)]
    · have h1' : i < o := by omega
      simp [h1, h1', hi]
  · have : ¬ (o ≤ i ∧ i < o + w) := by omega
    rw [if_neg this, BitVec.getLsbD_of_ge _ _ (by omega), BitVec.getLsbD_of_ge _ _ (by omega)]

theorem part_insert {o w : Nat} {x' V : BitVec W} (hV : ∀ i, w ≤ i → V.getLsbD i = false)
    (h : ∀ i, x'.getLsbD i = if o ≤ i ∧ i < o + w then V.getLsbD (i - o) else x.getLsbD i) :
    part x'.toNat o w = V.toNat := by
  apply Nat.eq_of_testBit_eq
  intro i
  rw [part_testBit, BitVec.testBit_toNat, BitVec.testBit_toNat, h]
  by_cases hi : i < w
  · rw [if_pos (by omega), Nat.add_sub_cancel_left]; simp [hi]
  · rw [hV i (by omega)]; simp [hi]

/-- The largest value that the setter with `clamp` lets through. -/
theorem clamp_bound {t : Ty} {w : Nat} (hb : t ≠ .bool) (hw : w < 128) :
    ((∃ k, 0 < k ∧ t = .i k ∧ k ≤ w) → t.num (Ty.ofNat (maskValue w) t) = -1) ∧
    ((¬ ∃ k, 0 < k ∧ t = .i k ∧ k ≤ w) → t.num (Ty.ofNat (maskValue w) t) = min (2 ^ w - 1) t.max) := by
  rw [maskValue_eq (by omega)]
  have ew : ((2 ^ w : Nat) : Int) = 2 ^ w := by simp
  have pw := Nat.two_pow_pos w
  cases t with
  | bool => exact absurd rfl hb
  | u k =>
    refine ⟨(by rintro ⟨k', -, h, -⟩; cases h), fun _ => ?_⟩
    simp only [Ty.num, Ty.ofNat, Ty.max]
    rw [BitVec.toNat_ofNat, two_pow_sub_one_mod]
    have ek : ((2 ^ k : Nat) : Int) = 2 ^ k := by simp
    have pk := Nat.two_pow_pos k
    rcases Nat.le_total w k with h | h
    · have := Nat.pow_le_pow_right (n := 2) (by decide) h
      rw [Nat.min_eq_left h]; omega
    · have := Nat.pow_le_pow_right (n := 2) (by decide) h
      rw [Nat.min_eq_right h]; omega
  | i k =>
    by_cases hk : 0 < k ∧ k ≤ w
    · refine ⟨fun _ => ?_, fun hn => absurd ⟨k, hk.1, rfl, hk.2⟩ hn⟩
      simp only [Ty.num, Ty.ofNat]
      rw [BitVec.toInt_ofNat']
      obtain ⟨d, rfl⟩ : ∃ d, w = k + d := ⟨w - k, by omega⟩
      have pd := Nat.two_pow_pos d
      have e : (((2 ^ (k + d) - 1 : Nat) : Int)) = -1 + ((2 ^ k : Nat) : Int) * ((2 ^ d : Nat) : Int) := by
        rw [← Int.natCast_mul, ← Nat.pow_add]; omega
      rw [e, Int.add_mul_bmod_self_left]
      obtain ⟨k, rfl⟩ : ∃ j, k = j + 1 := ⟨k - 1, by omega⟩
      have e2 : 2 ^ (k + 1) = 2 * 2 ^ k := by rw [Nat.pow_succ, Nat.mul_comm]
      have := Nat.two_pow_pos k
      apply Int.bmod_eq_of_le <;> omega
    · refine ⟨(by rintro ⟨k', h1, h2, h3⟩; cases h2; exact absurd ⟨h1, h3⟩ hk), fun _ => ?_⟩
      cases k with
      | zero =>
        have : Ty.ofNat (2 ^ w - 1) (.i 0) = (0#0 : BitVec 0) := BitVec.eq_nil _
        rw [this]
        simp only [Ty.num, Ty.max]
        have : BitVec.toInt (0#0) = 0 := by decide
        rw [this]; simp; omega
      | succ k =>
        have hlt : w ≤ k := by omega
        have := Nat.pow_le_pow_right (n := 2) (by decide) hlt
        have ek : ((2 ^ k : Nat) : Int) = 2 ^ k := by simp
        rw [Ty.num_ofNat] <;> simp only [Ty.max, Nat.add_sub_cancel] <;> omega

/-- **C77** (getters).  A getter returns the number in its bits if the access type can hold it; an
unsigned type that is too small gets the low bits. -/
theorem C77_get (h : derive W items = .ok as) (ha : a ∈ as) (x : BitVec W) :
    ((part x.toNat a.offset a.width : Int) ≤ a.ty.max → a.ty.num (a.get x) = part x.toNat a.offset a.width) ∧
    ∀ k, a.ty = .u k → a.ty.num (a.get x) = part x.toNat a.offset (min a.width k) := by
  obtain ⟨hw, hW⟩ := (C77_disjoint h).1 a ha
  have hw' := width_lt h ha
  rw [Accessor.get_eq a hw hw' hW]
  refine ⟨Ty.num_ofNat, fun k hk => ?_⟩
  rw [hk]
  simp only [Ty.num, Ty.ofNat]
  rw [BitVec.toNat_ofNat]
  congr 1
  unfold part
  apply Nat.eq_of_testBit_eq
  intro i
  rw [Nat.testBit_mod_two_pow, Nat.testBit_mod_two_pow, Nat.testBit_mod_two_pow]
  by_cases h1 : i < k <;> by_cases h2 : i < a.width <;> simp [h1, h2, Nat.lt_min]

/-- What a setter does to the word. -/
theorem Accessor.set_eq (h : derive W items = .ok as) (ha : a ∈ as) {v : a.ty.Val} (e : a.set x v = .ok x') :
    ∃ V : BitVec W, (∀ i, a.width ≤ i → V.getLsbD i = false) ∧ (V.toNat : Int) =
      (if a.clamp then max 0 (min (a.ty.num v) (2 ^ a.width - 1)) else a.ty.num v % 2 ^ a.width) ∧
      ∀ i, x'.getLsbD i = if a.offset ≤ i ∧ i < a.offset + a.width then V.getLsbD (i - a.offset)
        else x.getLsbD i := by
  obtain ⟨hw, hW⟩ := (C77_disjoint h).1 a ha
  have hw' := width_lt h ha
  have ew : ((2 ^ a.width : Nat) : Int) = 2 ^ a.width := by simp
  have pw := Nat.two_pow_pos a.width
  have hle : 2 ^ a.width ≤ 2 ^ W := Nat.pow_le_pow_right (by decide) (by omega)
  unfold Accessor.set at e
  by_cases hc : a.clamp = true
  · rw [if_pos hc] at e ⊢
    have hb : a.ty ≠ .bool := fun hb => by
      have := derive_typed h ha
      simp [Accessor.typed, hb, hc] at this
    simp only at e
    by_cases hi : ∃ k, 0 < k ∧ a.ty = .i k ∧ k ≤ a.width
    · rw [(clamp_bound hb hw').1 hi, if_pos (by decide)] at e; cases e
    · rw [(clamp_bound hb hw').2 hi] at e
      split at e
      · cases e
      · have hm := Ty.num_le_max v
        have ev : max 0 (min (a.ty.num v) (min (2 ^ a.width - 1) a.ty.max)) =
            max 0 (min (a.ty.num v) (2 ^ a.width - 1)) := by omega
        rw [ev] at e
        obtain ⟨m, em⟩ : ∃ m : Nat, (m : Int) = max 0 (min (a.ty.num v) (2 ^ a.width - 1)) :=
          ⟨(max 0 (min (a.ty.num v) (2 ^ a.width - 1))).toNat, by omega⟩
        have hml : m < 2 ^ a.width := by omega
        rw [← em, BitVec.ofInt_natCast] at e
        have hV : ∀ i, a.width ≤ i → (BitVec.ofNat W m).getLsbD i = false := by
          intro i hi
          rw [BitVec.getLsbD_ofNat, Nat.testBit_lt_two_pow
            (Nat.lt_of_lt_of_le hml (Nat.pow_le_pow_right (by decide) hi)), Bool.and_false]
        refine ⟨BitVec.ofNat W m, hV, ?_, ?_⟩
        · rw [BitVec.toNat_ofNat, Nat.mod_eq_of_lt (by omega), em]
        · cases e
          exact getLsbD_insert hw' hW x _ hV
  · rw [if_neg hc] at e ⊢
    have hV : ∀ i, a.width ≤ i → (BitVec.ofInt W (a.ty.num v) &&& mask W a.width).getLsbD i = false := by
      intro i hi
      rw [BitVec.getLsbD_and, getLsbD_mask (by omega) (by omega)]
      simp; omega
    refine ⟨_, hV, ?_, ?_⟩
    · rw [BitVec.toNat_and]
      unfold mask
      rw [maskValue_eq (by omega), BitVec.toNat_ofNat, Nat.mod_eq_of_lt (a := 2 ^ a.width - 1) (by omega),
        Nat.and_two_pow_sub_one_eq_mod, BitVec.toNat_ofInt, Int.natCast_emod, Int.toNat_of_nonneg, ew]
      · apply Int.emod_emod_of_dvd
        have : (2 ^ a.width : Nat) ∣ 2 ^ W := Nat.pow_dvd_pow 2 (by omega)
        have := Int.natCast_dvd_natCast.2 this
        simpa using this
      · apply Int.emod_nonneg
        have := Nat.two_pow_pos W
        omega
    · cases e
      exact getLsbD_insert hw' hW x _ hV

/-- **C77** (setters).  Whenever a setter returns, its bits hold the value modulo the number of values
of the bits, or with `clamp` the nearest value that fits, and no other bit of the word has changed. -/
theorem C77_set (h : derive W items = .ok as) (ha : a ∈ as) {v : a.ty.Val} (e : a.set x v = .ok x') :
    (part x'.toNat a.offset a.width : Int) =
      (if a.clamp then max 0 (min (a.ty.num v) (2 ^ a.width - 1)) else a.ty.num v % 2 ^ a.width) ∧
    ∀ i, ¬ (a.offset ≤ i ∧ i < a.offset + a.width) → x'.getLsbD i = x.getLsbD i := by
  obtain ⟨V, h1, h2, h3⟩ := Accessor.set_eq h ha e
  rw [part_insert h1 h3, h2]
  exact ⟨rfl, fun i hi => by rw [h3, if_neg hi]⟩

/-- **C77** (panics).  A setter panics iff it clamps to a signed type that has at most as many bits as
the entry, and then it does for every value. -/
theorem C77_panic (h : derive W items = .ok as) (ha : a ∈ as) (x : BitVec W) (v : a.ty.Val) :
    (∃ x', a.set x v = .ok x') ↔ ¬ (a.clamp = true ∧ ∃ k, 0 < k ∧ a.ty = .i k ∧ k ≤ a.width) := by
  have hw' := width_lt h ha
  unfold Accessor.set
  by_cases hc : a.clamp = true
  · rw [if_pos hc]
    have hb : a.ty ≠ .bool := fun hb => by
      have := derive_typed h ha
      simp [Accessor.typed, hb, hc] at this
    simp only
    by_cases hi : ∃ k, 0 < k ∧ a.ty = .i k ∧ k ≤ a.width
    · rw [(clamp_bound hb hw').1 hi, if_pos (by decide)]
      constructor
      · rintro ⟨x', e⟩; cases e
      · intro hn; exact absurd ⟨hc, hi⟩ hn
    · rw [(clamp_bound hb hw').2 hi, if_neg]
      · exact ⟨fun _ hn => hi hn.2, fun _ => ⟨_, rfl⟩⟩
      · have pw := Nat.two_pow_pos a.width
        have ew : ((2 ^ a.width : Nat) : Int) = 2 ^ a.width := by simp
        have : 0 ≤ a.ty.max := by
          cases a.ty with
          | bool => decide
          | u k => have := Nat.two_pow_pos k
                   have e : ((2 ^ k : Nat) : Int) = 2 ^ k := by simp
                   simp only [Ty.max]; omega
          | i k => have := Nat.two_pow_pos (k - 1)
                   have e : ((2 ^ (k - 1) : Nat) : Int) = 2 ^ (k - 1) := by simp
                   simp only [Ty.max]; omega
        omega
  · rw [if_neg hc]
    exact ⟨fun _ hn => hc hn.1, fun _ => ⟨_, rfl⟩⟩

/-- **C77** (round trip).  Reading an entry after writing a value that fits gives that value, and reading
another entry gives what it was before. -/
theorem C77_roundtrip (h : derive W items = .ok as) (ha : a ∈ as) (hb : b ∈ as) {v : a.ty.Val}
    (e : a.set x v = .ok x') :
    (0 ≤ a.ty.num v → a.ty.num v < 2 ^ a.width → a.get x' = v) ∧ (a ≠ b → b.get x' = b.get x) := by
  obtain ⟨k1, k2⟩ := C77_set h ha e
  constructor
  · intro h0 h1
    have hv : (part x'.toNat a.offset a.width : Int) = a.ty.num v := by
      rw [k1]
      split
      · omega
      · exact Int.emod_eq_of_lt h0 h1
    exact Ty.num_inj (by rw [(C77_get h ha x').1 (by rw [hv]; exact Ty.num_le_max v), hv])
  · intro hne
    obtain ⟨hw, hW⟩ := (C77_disjoint h).1 b hb
    rw [Accessor.get_eq b hw (width_lt h hb) hW, Accessor.get_eq b hw (width_lt h hb) hW]
    congr 1
    apply Nat.eq_of_testBit_eq
    intro i
    rw [part_testBit, part_testBit, BitVec.testBit_toNat, BitVec.testBit_toNat]
    by_cases hi : i < b.width
    · rw [k2]
      have hd : a.offset + a.width ≤ b.offset ∨ b.offset + b.width ≤ a.offset :=
        disjoint (C77_disjoint h).2 ha hb hne
      omega
    · simp [hi]

/-! ## Order -/

theorem div_pow_add (x o w : Nat) : x / 2 ^ (o + w) = x / 2 ^ o / 2 ^ w := by
  rw [Nat.pow_add, Nat.div_div_eq_div_mul]

theorem parts_eq : ∀ (items : List Item) (o x y : Nat), (∀ it ∈ items, it.access ≠ none) →
    x / 2 ^ (o + (items.map (·.width)).sum) = y / 2 ^ (o + (items.map (·.width)).sum) →
    ((∀ b ∈ accs o items, part x b.offset b.width = part y b.offset b.width) ↔ x / 2 ^ o = y / 2 ^ o) := by
  intro items
  induction items with
  | nil => intro o x y _ h; simpa [accs] using h
  | cons it its ih =>
    intro o x y hall h
    obtain ⟨t, ht⟩ := Option.ne_none_iff_exists'.1 (hall it (.head _))
    have ih := ih (o + it.width) x y (fun i hi => hall i (.tail _ hi)) (by simpa [Nat.add_assoc] using h)
    have e : accs o (it :: its) = ⟨o, it.width, it.clamp, t⟩ :: accs (o + it.width) its := by
      simp [accs, ht]
    rw [e, List.forall_mem_cons, ih, div_pow_add, div_pow_add]
    unfold part
    simp only
    constructor
    · rintro ⟨h1, h2⟩
      rw [← Nat.div_add_mod (x / 2 ^ o) (2 ^ it.width), ← Nat.div_add_mod (y / 2 ^ o) (2 ^ it.width), h1, h2]
    · intro h'; rw [h']; exact ⟨rfl, rfl⟩

theorem parts_lt : ∀ (items : List Item) (o x y : Nat), (∀ it ∈ items, it.access ≠ none) →
    x / 2 ^ (o + (items.map (·.width)).sum) = y / 2 ^ (o + (items.map (·.width)).sum) →
    (x / 2 ^ o < y / 2 ^ o ↔ ∃ l a r, accs o items = l ++ a :: r ∧
      part x a.offset a.width < part y a.offset a.width ∧
      ∀ b ∈ r, part x b.offset b.width = part y b.offset b.width) := by
  intro items
  induction items with
  | nil => intro o x y _ h; simp at h; simp [accs, h]
  | cons it its ih =>
    intro o x y hall h
    obtain ⟨t, ht⟩ := Option.ne_none_iff_exists'.1 (hall it (.head _))
    have h' : x / 2 ^ (o + it.width + (its.map (·.width)).sum) =
        y / 2 ^ (o + it.width + (its.map (·.width)).sum) := by simpa [Nat.add_assoc] using h
    have ih := ih (o + it.width) x y (fun i hi => hall i (.tail _ hi)) h'
    have pe := parts_eq its (o + it.width) x y (fun i hi => hall i (.tail _ hi)) h'
    have e : accs o (it :: its) = ⟨o, it.width, it.clamp, t⟩ :: accs (o + it.width) its := by
      simp [accs, ht]
    have split : x / 2 ^ o < y / 2 ^ o ↔ x / 2 ^ (o + it.width) < y / 2 ^ (o + it.width) ∨
        x / 2 ^ (o + it.width) = y / 2 ^ (o + it.width) ∧ part x o it.width < part y o it.width := by
      rw [div_pow_add, div_pow_add]
      unfold part
      generalize x / 2 ^ o = X
      generalize y / 2 ^ o = Y
      have p := Nat.two_pow_pos it.width
      generalize 2 ^ it.width = m at p
      have e1 := Nat.div_add_mod X m
      have e2 := Nat.div_add_mod Y m
      have l1 := Nat.mod_lt X p
      have l2 := Nat.mod_lt Y p
      constructor
      · intro hlt
        have := Nat.div_le_div_right (c := m) (Nat.le_of_lt hlt)
        rcases Nat.lt_or_eq_of_le this with h3 | h3
        · exact .inl h3
        · rw [h3] at e1; exact .inr ⟨h3, by omega⟩
      · rintro (h3 | ⟨h3, h4⟩)
        · exact Nat.lt_of_not_le fun hle => absurd (Nat.div_le_div_right (c := m) hle) (by omega)
        · rw [h3] at e1; omega
    rw [split, e]
    constructor
    · rintro (h1 | ⟨h1, h2⟩)
      · obtain ⟨l, a, r, k1, k2⟩ := ih.1 h1
        exact ⟨_ :: l, a, r, by rw [k1]; rfl, k2⟩
      · exact ⟨[], _, _, rfl, h2, pe.2 h1⟩
    · rintro ⟨l, a, r, k1, k2, k3⟩
      cases l with
      | nil =>
        obtain ⟨rfl, rfl⟩ := List.cons.inj k1
        exact .inr ⟨pe.1 k3, k2⟩
      | cons c l =>
        obtain ⟨-, k1⟩ := List.cons.inj k1
        exact .inl (ih.2 ⟨l, a, r, k1, k2, k3⟩)

/-- **C77** (order).  If every entry has an accessor, then the order of words that agree above the
entries is the lexicographic order of the entries from the last to the first. -/
theorem C77_order (h : derive W items = .ok as) (hall : ∀ it ∈ items, it.access ≠ none)
    (hxy : ∀ i, (items.map (·.width)).sum ≤ i → x.getLsbD i = y.getLsbD i) :
    x < y ↔ ∃ l a r, as = l ++ a :: r ∧
      part x.toNat a.offset a.width < part y.toNat a.offset a.width ∧
      ∀ b ∈ r, part x.toNat b.offset b.width = part y.toNat b.offset b.width := by
  obtain ⟨h1, h2, rfl, -⟩ := derive_eq.1 h
  have := parts_lt items 0 x.toNat y.toNat hall (by
    rw [Nat.zero_add]
    apply Nat.eq_of_testBit_eq
    intro i
    rw [← Nat.shiftRight_eq_div_pow, ← Nat.shiftRight_eq_div_pow, Nat.testBit_shiftRight,
      Nat.testBit_shiftRight, BitVec.testBit_toNat, BitVec.testBit_toNat]
    exact hxy _ (by omega))
  rw [← this, BitVec.lt_def]
  simp

end

/-- **C77** (the score).  The setters of `Score` are those that the macro generates for its
declaration. -/
theorem C77_score :
    derive 32 Score.decl = .ok [⟨0, 24, true, .u 64⟩, ⟨24, 6, false, .u 64⟩, ⟨30, 2, false, .u 64⟩] ∧
    ∀ (s : BitVec 32) (v : BitVec 64),
      Accessor.set ⟨0, 24, true, .u 64⟩ s v = .ok (Score.setLen s v.toNat) ∧
      Accessor.set ⟨24, 6, false, .u 64⟩ s v = .ok (Score.setGlue s v.toNat) ∧
      Accessor.set ⟨30, 2, false, .u 64⟩ s v = .ok (Score.setInvUsed s v.toNat) := by
  refine ⟨by rfl, fun s v => ⟨?_, ?_, ?_⟩⟩
  · unfold Accessor.set Score.setLen setClamp
    have hb := (clamp_bound (t := .u 64) (w := 24) (by decide) (by decide)).2
      (by rintro ⟨k, -, h, -⟩; cases h)
    simp only [hb]
    have e2 : maskValue 24 % 2 ^ 64 = 2 ^ 24 - 1 := by rw [maskValue_eq (by decide)]
    rw [if_pos trivial, if_neg (by decide), e2]
    have e3 : max 0 (min (Ty.num (.u 64) v) (min (2 ^ 24 - 1) (Ty.max (.u 64)))) =
        ((min v.toNat (2 ^ 24 - 1) : Nat) : Int) := by
      simp only [Ty.num, Ty.max]
      omega
    rw [e3, BitVec.ofInt_natCast]
    rfl
  · unfold Accessor.set Score.setGlue Bitfield.set
    rw [if_neg (by decide)]
    simp only [Ty.num, BitVec.ofInt_natCast]
    rfl
  · unfold Accessor.set Score.setInvUsed Bitfield.set
    rw [if_neg (by decide)]
    simp only [Ty.num, BitVec.ofInt_natCast]
    rfl

/-- **C77** (clamping to a signed type).  Not every generated setter that clamps keeps a value that fits
its bits: for `8 clamp => x: i8` in a `u8` even writing 0 panics. -/
theorem C77_clamp_false : ¬ ∀ (W : Nat) (items : List Item) (as : List Accessor) (a : Accessor)
    (x : BitVec W) (v : a.ty.Val), derive W items = .ok as → a ∈ as → 0 ≤ a.ty.num v →
    a.ty.num v < 2 ^ a.width → ∃ x', a.set x v = .ok x' := by
  intro h
  have hd : derive 8 [⟨8, true, some (.i 8)⟩] = .ok [⟨0, 8, true, .i 8⟩] := rfl
  have ha : (⟨0, 8, true, .i 8⟩ : Accessor) ∈ [(⟨0, 8, true, .i 8⟩ : Accessor)] := .head _
  exact (C77_panic hd ha 0#8 (0#8 : BitVec 8)).1
    (h 8 _ _ ⟨0, 8, true, .i 8⟩ 0#8 (0#8 : BitVec 8) hd ha (by decide) (by decide)) ⟨rfl, 8, by decide, rfl, by decide⟩

/-- A declaration with a single bit, skipped bits and a clamped entry: what it compiles to, a word of
which two entries are read, and a write that is clamped and keeps the other bits. -/
theorem C77_example :
    derive 16 [⟨1, false, some .bool⟩, ⟨3, false, none⟩, ⟨4, true, some (.u 8)⟩, ⟨8, false, some (.i 32)⟩] =
      .ok [⟨0, 1, false, .bool⟩, ⟨4, 4, true, .u 8⟩, ⟨8, 8, false, .i 32⟩] ∧
    Ty.num .bool (Accessor.get ⟨0, 1, false, .bool⟩ 0xAB5F#16) = 1 ∧
    Ty.num (.i 32) (Accessor.get ⟨8, 8, false, .i 32⟩ 0xAB5F#16) = 0xAB ∧
    Accessor.set ⟨4, 4, true, .u 8⟩ 0xAB5F#16 (100#8 : BitVec 8) = .ok 0xABFF#16 ∧
    Accessor.set ⟨8, 8, false, .i 32⟩ 0xAB5F#16 (-1#32 : BitVec 32) = .ok 0xFF5F#16 ∧
    derive 16 [⟨9, false, none⟩, ⟨8, false, some (.u 8)⟩] = .error .overflow ∧
    derive 16 [⟨2, false, some .bool⟩] = .error .types ∧ derive 16 [⟨0, false, none⟩] = .error .width := by
  refine ⟨by rfl, by decide, by decide, by decide, by decide, by rfl, by rfl, by rfl⟩

end Bitfield
end Starlit
