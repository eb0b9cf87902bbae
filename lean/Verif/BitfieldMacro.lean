import Verif.Bitfield

/-!
# The derive macro for bit fields

Model of `derive_bitfield` (`/repo/starlit-macros/src/bitfield.rs:11-160`) for one annotated field of
an unsigned type with `W` bits: the layout it computes, the declarations it and the compiler reject,
and the accessors it generates for every access type.

Simplifications: names, visibilities and documentation comments are left out; widths and offsets are
numbers without the bound of `u32` (the sum of the widths stays below `2^32` for every declaration
with less than 33 million entries); the type of the annotated field is unsigned.
-/

namespace Starlit
namespace Bitfield

/-- The type after the colon of an entry (`/repo/starlit-macros/src/bitfield.rs:268`): `bool` or an
unsigned or signed integer type with the given number of bits. -/
inductive Ty where
  | bool
  | u (bits : Nat)
  | i (bits : Nat)
deriving DecidableEq, Repr

/-- The values of an access type. -/
def Ty.Val : Ty → Type
  | .bool => Bool
  | .u k => BitVec k
  | .i k => BitVec k

/-- The number that a value stands for. -/
def Ty.num : (t : Ty) → t.Val → Int
  | .bool, b => Bool.toNat b
  | .u _, v => BitVec.toNat v
  | .i _, v => BitVec.toInt v

/-- `… as #ty` for an unsigned integer (`/repo/starlit-macros/src/bitfield.rs:111,121`): conversions
of integers wrap around.  Conversions of integers to `bool` do not compile and are excluded by
`Accessor.typed`; `bool as #ty` (line 101) converts 0 and 1. -/
def Ty.ofNat (n : Nat) : (t : Ty) → t.Val
  | .bool => n != 0
  | .u k => BitVec.ofNat k n
  | .i k => BitVec.ofNat k n

/-- An entry of the attribute (`/repo/starlit-macros/src/bitfield.rs:185-190`); without an access the
bits are skipped. -/
structure Item where
  width : Nat
  clamp : Bool
  access : Option Ty
deriving DecidableEq, Repr

/-- A generated pair of a getter and a setter. -/
structure Accessor where
  offset : Nat
  width : Nat
  clamp : Bool
  ty : Ty
deriving DecidableEq, Repr

/-- The ways in which a declaration can fail to compile. -/
inductive Rejected where
  /-- The width is not in `1..128` (`/repo/starlit-macros/src/bitfield.rs:58-63`). -/
  | width
  /-- The entries do not fit into the field: the shift of the constant overflows
  (`/repo/starlit-macros/src/bitfield.rs:145-152`). -/
  | overflow
  /-- The generated code has a type error. -/
  | types
deriving DecidableEq, Repr

/-- The loop over the entries (`/repo/starlit-macros/src/bitfield.rs:52-143`): the generated
accessors and the offset after the last entry. -/
def layout : Nat → List Item → Except Rejected (Nat × List Accessor)
  | offset, [] => .ok (offset, [])
  | offset, it :: its =>
    if ¬ (1 ≤ it.width ∧ it.width < 128) then .error .width
    else do
      let (e, as) ← layout (offset + it.width) its
      match it.access with
      | some t => .ok (e, ⟨offset, it.width, it.clamp, t⟩ :: as)
      | none => .ok (e, as)

/-- Whether the generated code has the right types: `… as bool` needs a `bool`, which only the getter
of a single bit has (`/repo/starlit-macros/src/bitfield.rs:95-115`), and `clamp(0, …)` needs an
integer (line 121). -/
def Accessor.typed (a : Accessor) : Bool := a.ty ≠ .bool || (a.width == 1 && !a.clamp)

/-- The whole macro for one annotated field of `W` bits (`/repo/starlit-macros/src/bitfield.rs:48-153`)
together with the checks of the compiler. -/
def derive (W : Nat) (items : List Item) : Except Rejected (List Accessor) := do
  let (e, as) ← layout 0 items
  if e > 0 ∧ ¬ e - 1 < W then .error .overflow
  else if as.all Accessor.typed then .ok as
  else .error .types

namespace Accessor
variable {W : Nat}

/-- The generated getter (`/repo/starlit-macros/src/bitfield.rs:95-115`). -/
def get (a : Accessor) (x : BitVec W) : a.ty.Val :=
  if a.width = 1 then Ty.ofNat (if x &&& (1#W <<< a.offset) ≠ 0#W then 1 else 0) a.ty
  else Ty.ofNat ((x >>> a.offset) &&& mask W a.width).toNat a.ty

/-- The generated setter (`/repo/starlit-macros/src/bitfield.rs:116-139`).  The conversion of the value
to the type of the field wraps around.  `Ord::clamp` panics if the upper bound is below the lower
bound. -/
def set (a : Accessor) (x : BitVec W) (value : a.ty.Val) : M (BitVec W) :=
  if a.clamp then
    let hi := a.ty.num (Ty.ofNat (maskValue a.width) a.ty)
    if hi < 0 then throw .panic
    else
      let value := max 0 (min (a.ty.num value) hi)
      pure ((x &&& ~~~ (mask W a.width <<< a.offset)) ||| (BitVec.ofInt W value <<< a.offset))
  else
    pure ((x &&& ~~~ (mask W a.width <<< a.offset)) |||
      ((BitVec.ofInt W (a.ty.num value) &&& mask W a.width) <<< a.offset))

end Accessor

end Bitfield

/-- The declaration of `Score` (`/repo/starlit/src/search/reduce.rs:8-17`); `usize` has 64 bits. -/
def Score.decl : List Bitfield.Item :=
  [⟨24, true, some (.u 64)⟩, ⟨6, false, some (.u 64)⟩, ⟨2, false, some (.u 64)⟩]

end Starlit
