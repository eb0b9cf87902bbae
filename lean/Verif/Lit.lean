import Verif.Base

/-!
# Literals and variables

Model of `/repo/starlit/src/lit.rs` at machine width: a literal is a 32-bit code.
-/

namespace Starlit

/-- `MAX_INDEX = LitIdx::MAX >> 2` (`/repo/starlit/src/lit.rs:88`). -/
def MAX_INDEX : Nat := (2 ^ 32 - 1) >>> 2

/-- `MAX_CODE = 2 * MAX_INDEX + 1` (`/repo/starlit/src/lit.rs:213`). -/
def MAX_CODE : Nat := 2 * MAX_INDEX + 1

/-- `MAX_DIMACS = MAX_INDEX + 1` (`/repo/starlit/src/lit.rs:97`). -/
def MAX_DIMACS : Int := MAX_INDEX + 1

theorem MAX_INDEX_eq : MAX_INDEX = 2 ^ 30 - 1 := by decide
theorem MAX_CODE_eq : MAX_CODE = 2 ^ 31 - 1 := by decide

/-- `struct Var { index: LitIdx }` (`/repo/starlit/src/lit.rs:41-43`). -/
structure Var where
  idx32 : BitVec 32
deriving DecidableEq, Repr

/-- `struct Lit { code: LitIdx }` (`/repo/starlit/src/lit.rs:203-205`). -/
structure Lit where
  code32 : BitVec 32
deriving DecidableEq, Repr

instance : Inhabited Lit := ⟨⟨0#32⟩⟩

namespace Var

/-- `Var::from_index` (`/repo/starlit/src/lit.rs:113-118`). -/
def fromIndex (index : Nat) : M Var := do
  assertM (decide (index ≤ MAX_INDEX))
  pure ⟨BitVec.ofNat 32 index⟩

/-- `Var::from_dimacs` (`/repo/starlit/src/lit.rs:104-107`). -/
def fromDimacs (number : Int) : M Var := do
  assertM (decide (0 < number))
  fromIndex (number - 1).toNat

/-- `Var::index` (`/repo/starlit/src/lit.rs:135-137`). -/
def index (v : Var) : Nat := v.idx32.toNat

/-- `Var::dimacs` (`/repo/starlit/src/lit.rs:141-143`): 32-bit addition, then widening. -/
def dimacs (v : Var) : Int := ((v.idx32 + 1#32).toNat : Int)

/-- The documented range of a `Var` (`/repo/starlit/src/lit.rs:26-39`). -/
def Valid (v : Var) : Prop := v.index ≤ MAX_INDEX

instance (v : Var) : Decidable v.Valid := inferInstanceAs (Decidable (_ ≤ _))

end Var

/-- `isize::abs` in a release build: wraps at `isize::MIN`. -/
def isizeAbs (n : Int) : Int := if n = -(2 ^ 63) then n else n.natAbs

namespace Lit

/-- `Lit::from_var` (`/repo/starlit/src/lit.rs:220-224`). -/
def fromVar (v : Var) (positive : Bool) : Lit :=
  ⟨(v.idx32 <<< 1) ||| (if positive then 1#32 else 0#32)⟩

/-- `Lit::from_index` (`/repo/starlit/src/lit.rs:230-232`). -/
def fromIndex (index : Nat) (positive : Bool) : M Lit := do
  let v ← Var.fromIndex index
  pure (fromVar v positive)

/-- `Lit::from_code` (`/repo/starlit/src/lit.rs:250-255`). -/
def fromCode (code : Nat) : M Lit := do
  assertM (decide (code ≤ MAX_CODE))
  pure ⟨BitVec.ofNat 32 code⟩

/-- `Lit::from_dimacs` (`/repo/starlit/src/lit.rs:276-278`). -/
def fromDimacs (number : Int) : M Lit := do
  let v ← Var.fromDimacs (isizeAbs number)
  pure (fromVar v (decide (0 < number)))

/-- `Lit::code` (`/repo/starlit/src/lit.rs:282-284`). -/
def code (l : Lit) : Nat := l.code32.toNat

/-- `Lit::var` (`/repo/starlit/src/lit.rs:288-292`). -/
def var (l : Lit) : Var := ⟨l.code32 >>> 1⟩

/-- `Lit::index` (`/repo/starlit/src/lit.rs:296-298`). -/
def index (l : Lit) : Nat := l.var.index

/-- `Lit::is_positive` (`/repo/starlit/src/lit.rs:302-304`). -/
def isPositive (l : Lit) : Bool := l.code32 &&& 1#32 != 0#32

/-- `Lit::is_negative` (`/repo/starlit/src/lit.rs:308-310`). -/
def isNegative (l : Lit) : Bool := l.code32 &&& 1#32 == 0#32

/-- `Lit::dimacs` (`/repo/starlit/src/lit.rs:314-316`). -/
def dimacs (l : Lit) : Int := l.var.dimacs * (if l.isPositive then 1 else -1)

/-- `Lit::select_other` (`/repo/starlit/src/lit.rs:323-328`), release build. -/
def selectOther (l a b : Lit) : Lit := ⟨l.code32 ^^^ a.code32 ^^^ b.code32⟩

/-- `impl Not for Lit` (`/repo/starlit/src/lit.rs:366-375`). -/
def neg (l : Lit) : Lit := ⟨l.code32 ^^^ 1#32⟩

/-- `impl BitXor<bool> for Lit` (`/repo/starlit/src/lit.rs:377-386`). -/
def xorBool (l : Lit) (b : Bool) : Lit := ⟨l.code32 ^^^ (if b then 1#32 else 0#32)⟩

/-- The documented range of a `Lit` (`/repo/starlit/src/lit.rs:200, 207-213`). -/
def Valid (l : Lit) : Prop := l.code ≤ MAX_CODE

instance (l : Lit) : Decidable l.Valid := inferInstanceAs (Decidable (_ ≤ _))

end Lit

/-! ## Arithmetic characterisation -/

theorem Nat.xor_one_div (n : Nat) : (n ^^^ 1) / 2 = n / 2 := by
  rw [Nat.xor_div_two]; simp

theorem Nat.xor_one_mod (n : Nat) : (n ^^^ 1) % 2 = (n + 1) % 2 := by
  have h := Nat.xor_mod_two_pow (n := 1) (a := n) (b := 1)
  simp only [Nat.pow_one] at h
  rw [h]
  rcases Nat.mod_two_eq_zero_or_one n with h | h <;> rw [h] <;> simp <;> omega

namespace Lit

theorem ext_code {a b : Lit} (h : a.code = b.code) : a = b := by
  cases a; cases b; simp only [code] at h; congr 1; exact BitVec.eq_of_toNat_eq h

theorem index_eq (l : Lit) : l.index = l.code / 2 := by
  simp [index, var, Var.index, code, Nat.shiftRight_eq_div_pow]

theorem isPositive_eq (l : Lit) : l.isPositive = decide (l.code % 2 = 1) := by
  have h : (l.code32 &&& 1#32).toNat = l.code % 2 := by
    simp [code, Nat.and_one_is_mod]
  unfold isPositive
  have h2 := Nat.mod_two_eq_zero_or_one l.code
  rcases h2 with h2 | h2
  · have : l.code32 &&& 1#32 = 0#32 := BitVec.eq_of_toNat_eq (by rw [h, h2]; rfl)
    simp [this, h2]
  · have : l.code32 &&& 1#32 = 1#32 := BitVec.eq_of_toNat_eq (by rw [h, h2]; rfl)
    simp [this, h2]

theorem isNegative_eq (l : Lit) : l.isNegative = !l.isPositive := by
  simp [isNegative, isPositive, bne]

theorem neg_code (l : Lit) : l.neg.code = l.code ^^^ 1 := by simp [neg, code]

@[simp] theorem neg_neg (l : Lit) : l.neg.neg = l := by
  cases l with
  | mk c => simp [neg, BitVec.xor_assoc]

@[simp] theorem index_neg (l : Lit) : l.neg.index = l.index := by
  rw [index_eq, index_eq, neg_code, Nat.xor_one_div]

@[simp] theorem isPositive_neg (l : Lit) : l.neg.isPositive = !l.isPositive := by
  rw [isPositive_eq, isPositive_eq, neg_code, Nat.xor_one_mod]
  rcases Nat.mod_two_eq_zero_or_one l.code with h | h
  · have : (l.code + 1) % 2 = 1 := by omega
    simp [h, this]
  · have : (l.code + 1) % 2 = 0 := by omega
    simp [h, this]

theorem ext_index {a b : Lit} (h : a.index = b.index) (hp : a.isPositive = b.isPositive) :
    a = b := by
  apply ext_code
  rw [index_eq, index_eq] at h
  rw [isPositive_eq, isPositive_eq] at hp
  have := Nat.mod_two_eq_zero_or_one a.code
  have := Nat.mod_two_eq_zero_or_one b.code
  have : (a.code % 2 = 1) ↔ (b.code % 2 = 1) := by simpa using hp
  omega

theorem neg_ne (l : Lit) : l.neg ≠ l := by
  intro h
  have := congrArg isPositive h
  simp at this

theorem ne_neg (l : Lit) : l ≠ l.neg := fun h => neg_ne l h.symm

@[simp] theorem neg_inj {a b : Lit} : a.neg = b.neg ↔ a = b :=
  ⟨fun h => by rw [← neg_neg a, h, neg_neg], fun h => by rw [h]⟩

theorem neg_eq_iff {a b : Lit} : a.neg = b ↔ a = b.neg :=
  ⟨fun h => by rw [← h, neg_neg], fun h => by rw [h, neg_neg]⟩

/-- Two literals of the same variable are equal or complementary. -/
theorem eq_or_eq_neg {a b : Lit} (h : a.index = b.index) : a = b ∨ a = b.neg := by
  by_cases hp : a.isPositive = b.isPositive
  · exact Or.inl (ext_index h hp)
  · refine Or.inr (ext_index (by simpa using h) ?_)
    cases ha : a.isPositive <;> cases hb : b.isPositive <;> simp_all

theorem var_eq_iff {a b : Lit} : a.var = b.var ↔ a.index = b.index := by
  constructor
  · intro h; simp [index, h]
  · intro h
    unfold index Var.index at h
    have := BitVec.eq_of_toNat_eq h
    cases ha : a.var; cases hb : b.var; simp_all

theorem Valid.neg {l : Lit} (h : l.Valid) : l.neg.Valid := by
  unfold Valid at *
  rw [neg_code]
  rw [MAX_CODE_eq] at *
  have h1 := Nat.xor_one_div l.code
  omega

theorem valid_iff_index {l : Lit} : l.Valid ↔ l.index ≤ MAX_INDEX := by
  unfold Valid
  rw [index_eq, MAX_CODE_eq, MAX_INDEX_eq]; omega

theorem selectOther_left (l b : Lit) : l.selectOther l b = b := by
  cases l; cases b; simp [selectOther]

theorem selectOther_right (l a : Lit) : l.selectOther a l = a := by
  cases l with
  | mk c => cases a with
    | mk d =>
      simp only [selectOther, Lit.mk.injEq]
      rw [BitVec.xor_comm c d, BitVec.xor_assoc]; simp

theorem fromVar_code {v : Var} (h : v.index < 2 ^ 31) (p : Bool) :
    (fromVar v p).code = 2 * v.index + p.toNat := by
  unfold fromVar code
  simp only [Var.index] at *
  have hs : (v.idx32 <<< 1).toNat = 2 * v.idx32.toNat := by
    simp [BitVec.toNat_shiftLeft, Nat.shiftLeft_eq]; omega
  rw [BitVec.toNat_or, hs]
  cases p
  · simp
  · have : 2 * v.idx32.toNat = v.idx32.toNat <<< 1 := by rw [Nat.shiftLeft_eq]; omega
    simp only [if_pos, Bool.toNat_true]
    rw [this]
    have := Nat.shiftLeft_add_eq_or_of_lt (i := 1) (b := 1) (by decide) v.idx32.toNat
    simpa using this.symm

theorem fromVar_index {v : Var} (h : v.index < 2 ^ 31) (p : Bool) :
    (fromVar v p).index = v.index := by
  rw [index_eq, fromVar_code h]; cases p <;> simp <;> omega

theorem fromVar_isPositive {v : Var} (h : v.index < 2 ^ 31) (p : Bool) :
    (fromVar v p).isPositive = p := by
  rw [isPositive_eq, fromVar_code h]; cases p <;> simp <;> omega

theorem xorBool_eq (l : Lit) (b : Bool) : l.xorBool b = if b then l.neg else l := by
  cases b <;> simp [xorBool, neg]

theorem code_lt_of_index_lt {l : Lit} {n : Nat} (h : l.index < n) : l.code < n * 2 := by
  rw [index_eq] at h; omega

theorem index_lt_of_code_lt {l : Lit} {n : Nat} (h : l.code < n * 2) : l.index < n := by
  rw [index_eq]; omega

end Lit

end Starlit
