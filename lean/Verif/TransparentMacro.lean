import Mathlib.Algebra.Order.Group.Nat
import Mathlib.Algebra.Order.Ring.Nat
import Mathlib.Data.List.Basic

/-!
# `#[derive(Transparent)]`

The macro `/repo/starlit-macros/src/transparent.rs:7-97` as a function from struct declarations to storage
types, and the conversions of `/repo/starlit/src/util/transparent.rs:10-129`.

A Rust type is modelled by its size, its alignment and the byte strings that are valid values of it; bytes may be
uninitialised (padding).  Simplifications: generic structs are modelled by their instances, and structs with `where`
clauses are left out (the generated code repeats the word `where` and is not accepted by the compiler); lifetimes
and aliasing are not modelled.
-/

namespace Starlit.Transparent

/-- The contents of memory; `none` is an uninitialised byte. -/
abbrev Bytes := List (Option UInt8)

/-- A sized type: its layout and its valid values.  The alignment is `2 ^ alignLog`. -/
structure RTy where
  size : Nat
  alignLog : Nat
  valid : Bytes → Prop
  length : ∀ b, valid b → b.length = size

/-- The bytes of a part of a value. -/
def slice (b : Bytes) (o n : Nat) : Bytes := (b.drop o).take n

/-- `LitIdx`, which is `u32` (`/repo/starlit/src/lit.rs:11`). -/
def litIdx : RTy where
  size := 4
  alignLog := 2
  valid b := b.length = 4 ∧ none ∉ b
  length _ h := h.1

/-- `()`, the storage type of a struct without fields (`/repo/starlit-macros/src/transparent.rs:50`). -/
def unit : RTy where
  size := 0
  alignLog := 0
  valid b := b = []
  length _ h := by rw [h]; rfl

/-- `[T; n]`. -/
def arr (T : RTy) (n : Nat) : RTy where
  size := n * T.size
  alignLog := T.alignLog
  valid b := b.length = n * T.size ∧ ∀ i < n, T.valid (slice b (i * T.size) T.size)
  length _ h := h.1

/-- The next multiple. -/
def roundUp (o a : Nat) : Nat := (o + (a - 1)) / a * a

/-- The offsets of fields in a `#[repr(C)]` struct: each field starts at the next multiple of its alignment. -/
def offsets : Nat → List RTy → List (Nat × RTy)
  | _, [] => []
  | o, f :: fs => (roundUp o (2 ^ f.alignLog), f) :: offsets (roundUp o (2 ^ f.alignLog) + f.size) fs

/-- Where the last field ends. -/
def fieldsEnd : Nat → List RTy → Nat
  | o, [] => o
  | o, f :: fs => fieldsEnd (roundUp o (2 ^ f.alignLog) + f.size) fs

/-- The alignment of a struct is the largest alignment of a field. -/
def maxAlign (fs : List RTy) : Nat := (fs.map RTy.alignLog).foldr max 0

/-- A `#[repr(C)]` struct.  A `#[repr(transparent)]` struct, in which all fields but one have size zero and
alignment one, has the same layout. -/
def structC (fs : List RTy) : RTy where
  size := roundUp (fieldsEnd 0 fs) (2 ^ maxAlign fs)
  alignLog := maxAlign fs
  valid b := b.length = roundUp (fieldsEnd 0 fs) (2 ^ maxAlign fs) ∧
    ∀ x ∈ offsets 0 fs, x.2.valid (slice b x.1 x.2.size)
  length _ h := h.1

/-- A word in the arguments of an attribute `repr`. -/
inductive Repr
  | transparent | c | other
  deriving DecidableEq

/-- The three sorts of items that `derive` can be applied to. -/
inductive Kind
  | struct | enum | union
  deriving DecidableEq

/-- A declaration: its sort, the arguments of each of its `repr` attributes, and the types of its fields. -/
structure Decl where
  kind : Kind
  attrs : List (List Repr)
  fields : List RTy

/-- The errors of the macro. -/
inductive Rejected
  | kind | repr | missing
  deriving DecidableEq

/-- `check_repr_args` (`/repo/starlit-macros/src/transparent.rs:80-97`). -/
def checkRepr (acc : Bool) : List Repr → Except Rejected Bool
  | [] => .ok acc
  | .other :: _ => .error .repr
  | _ :: as => checkRepr true as

/-- The loop over the attributes (`/repo/starlit-macros/src/transparent.rs:29-33`). -/
def checkAttrs (acc : Bool) : List (List Repr) → Except Rejected Bool
  | [] => .ok acc
  | a :: as => do
    let b ← checkRepr false a
    checkAttrs (acc || b) as

/-- `derive_transparent` (`/repo/starlit-macros/src/transparent.rs:7-78`): the type `Storage`. -/
def derive (d : Decl) : Except Rejected RTy :=
  match d.kind with
  | .enum => .error .kind
  | .union => .error .kind
  | .struct => do
    if ← checkAttrs false d.attrs then
      match d.fields with
      | [] => pure unit
      | f :: _ => pure f
    else throw .missing

/-- The layout of the declared type. -/
def Decl.ty (d : Decl) : RTy := structC d.fields

/-- The compiler accepts the generated code: `transmute` (`/repo/starlit-macros/src/transparent.rs:68-75`) is an error
for types of different sizes. -/
def Compiles (d : Decl) (S : RTy) : Prop := d.ty.size = S.size

instance (d : Decl) (S : RTy) : Decidable (Compiles d S) := inferInstanceAs (Decidable (_ = _))

/-- The bytes of the memory from an address on. -/
def read (mem : Nat → Option UInt8) (a n : Nat) : Bytes := (List.range n).map fun i => mem (a + i)

/-- A reference to the address `a` is valid as a `&T` or `&mut T`. -/
def RefOk (mem : Nat → Option UInt8) (T : RTy) (a : Nat) : Prop :=
  2 ^ T.alignLog ∣ a ∧ T.valid (read mem a T.size)

/-- The address `a` and the length `n` are valid as a `&[T]` or `&mut [T]`. -/
def SliceOk (mem : Nat → Option UInt8) (T : RTy) (a n : Nat) : Prop :=
  2 ^ T.alignLog ∣ a ∧ ∀ i < n, T.valid (read mem (a + i * T.size) T.size)

/-- `HeaderWord` (`/repo/starlit/src/clause_arena.rs:23-27`); `Var` (`/repo/starlit/src/lit.rs:39-43`) and `Lit`
(`/repo/starlit/src/lit.rs:201-205`) are declared in the same way. -/
def headerWord : Decl := ⟨.struct, [[.transparent]], [litIdx]⟩

/-- `LongHeader` (`/repo/starlit/src/prop/long.rs:17-21`). -/
def longHeader : Decl := ⟨.struct, [[.transparent]], [arr headerWord.ty 2]⟩

/-- `EmptyClauseHeader` (`/repo/starlit/src/clause_arena.rs:79-81`). -/
def emptyClauseHeader : Decl := ⟨.struct, [[.c]], [arr headerWord.ty 0]⟩

end Starlit.Transparent
