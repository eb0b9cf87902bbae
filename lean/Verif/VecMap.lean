import Verif.Lit

/-!
# `VecMap` and its keys

Model of `/repo/starlit/src/util/vec_map.rs`: a `Vec` used as a map from a key type that has a
canonical mapping to indices, and the double ended iterator over the keys.  The rest of the model
uses plain lists and `idx`/`upd` for these maps; this file models the generic interface itself.
-/

namespace Starlit

/-- The traits `VecMapKey` and `VecMapIndex<Self>`
(`/repo/starlit/src/util/vec_map.rs:85-102`): the index of a key, and the key of an index, which
may panic. -/
class VecMapKey (K : Type) where
  /-- `vec_map_index` (`/repo/starlit/src/util/vec_map.rs:101`). -/
  index : K → Nat
  /-- `vec_map_key_from_index` (`/repo/starlit/src/util/vec_map.rs:91`). -/
  fromIndex : Nat → M K

/-- The trait `VecMapIndex<Key>` for a second type of keys
(`/repo/starlit/src/util/vec_map.rs:94-102`). -/
class VecMapIndex (I : Type) (K : outParam Type) where
  /-- `vec_map_index` (`/repo/starlit/src/util/vec_map.rs:101`). -/
  index : I → Nat

/-- `impl VecMapKey for usize` (`/repo/starlit/src/util/vec_map.rs:104-115`). -/
instance : VecMapKey Nat where
  index i := i
  fromIndex i := pure i

/-- `impl VecMapKey for Var` (`/repo/starlit/src/lit.rs:146-158`). -/
instance : VecMapKey Var where
  index := Var.index
  fromIndex := Var.fromIndex

/-- `impl VecMapKey for Lit` (`/repo/starlit/src/lit.rs:331-343`). -/
instance : VecMapKey Lit where
  index := Lit.code
  fromIndex := Lit.fromCode

/-- `impl VecMapIndex<Var> for Lit` (`/repo/starlit/src/lit.rs:345-350`). -/
instance : VecMapIndex Lit Var where
  index := Lit.index

/-- `struct DecisionLevel(pub LitIdx)` (`/repo/starlit/src/prop/trail.rs:16-18`) at machine
width. -/
structure DecisionLevel32 where
  val : BitVec 32
deriving DecidableEq, Repr

/-- `struct TrailIndex(pub LitIdx)` (`/repo/starlit/src/prop/trail.rs:50-52`) at machine width. -/
structure TrailIndex32 where
  val : BitVec 32
deriving DecidableEq, Repr

/-- `impl VecMapKey for DecisionLevel` (`/repo/starlit/src/prop/trail.rs:31-43`): `index as _`
truncates to 32 bits. -/
instance : VecMapKey DecisionLevel32 where
  index l := l.val.toNat
  fromIndex i := pure ⟨BitVec.ofNat 32 i⟩

/-- `impl VecMapKey for TrailIndex` (`/repo/starlit/src/prop/trail.rs:69-81`): `index as _`
truncates to 32 bits. -/
instance : VecMapKey TrailIndex32 where
  index l := l.val.toNat
  fromIndex i := pure ⟨BitVec.ofNat 32 i⟩

/-- `std::ops::Range<usize>` as an iterator, the `Inner` of `VecMapKeys` in `keys`
(`/repo/starlit/src/util/vec_map.rs:12-16`). -/
structure Range where
  start : Nat
  stop : Nat
deriving DecidableEq, Repr

namespace Range

/-- `next` of `Range<usize>` in the standard library. -/
def next (r : Range) : Option Nat × Range :=
  if r.start < r.stop then (some r.start, ⟨r.start + 1, r.stop⟩) else (none, r)

/-- `next_back` of `Range<usize>` in the standard library. -/
def nextBack (r : Range) : Option Nat × Range :=
  if r.start < r.stop then (some (r.stop - 1), ⟨r.start, r.stop - 1⟩) else (none, r)

/-- `nth` of `Range<usize>` in the standard library; the checked addition there is an addition of
natural numbers here, which exceeds `stop` whenever the machine addition overflows. -/
def nth (r : Range) (n : Nat) : Option Nat × Range :=
  if r.start + n < r.stop then (some (r.start + n), ⟨r.start + n + 1, r.stop⟩)
  else (none, ⟨r.stop, r.stop⟩)

/-- `nth_back` of `Range<usize>` in the standard library; the checked subtraction there fails
exactly when `n > stop`. -/
def nthBack (r : Range) (n : Nat) : Option Nat × Range :=
  if n ≤ r.stop ∧ r.start < r.stop - n then
    (some (r.stop - n - 1), ⟨r.start, r.stop - n - 1⟩)
  else (none, ⟨r.start, r.start⟩)

/-- `size_hint`, `count` and `len` of `Range<usize>` in the standard library. -/
def len (r : Range) : Nat := if r.start < r.stop then r.stop - r.start else 0

/-- `last` of `Range<usize>` in the standard library, which is `next_back`. -/
def last (r : Range) : Option Nat := r.nextBack.1

end Range

/-- `Option::map(Key::vec_map_key_from_index)` for a function that may panic. -/
def mapKey {K : Type} [VecMapKey K] : Option Nat → M (Option K)
  | none => pure none
  | some i => do
    let k ← VecMapKey.fromIndex i
    pure (some k)

/-- `struct VecMapKeys<Key, Range<usize>>` (`/repo/starlit/src/util/vec_map.rs:18-26`). -/
structure VecMapKeys (K : Type) where
  inner : Range

/-- `VecMap::keys` (`/repo/starlit/src/util/vec_map.rs:13-15`) for a map with values `vals`. -/
def VecMap.keys (K : Type) {V : Type} (vals : List V) : VecMapKeys K := ⟨⟨0, vals.length⟩⟩

/-- `Index::index` of `VecMap` (`/repo/starlit/src/util/vec_map.rs:168-175`) with a key. -/
def VecMap.get {K V : Type} [VecMapKey K] (vals : List V) (k : K) : M V :=
  idx vals (VecMapKey.index k)

/-- `IndexMut::index_mut` of `VecMap` (`/repo/starlit/src/util/vec_map.rs:177-182`) with a key,
followed by an assignment. -/
def VecMap.set {K V : Type} [VecMapKey K] (vals : List V) (k : K) (x : V) : M (List V) :=
  upd vals (VecMapKey.index k) x

/-- `Index::index` of `VecMap` (`/repo/starlit/src/util/vec_map.rs:168-175`) with a second type of
keys. -/
def VecMap.getVia {I K V : Type} [VecMapIndex I K] (vals : List V) (k : I) : M V :=
  idx vals (VecMapIndex.index k)

namespace VecMapKeys

variable {K : Type} [VecMapKey K]

/-- `next` (`/repo/starlit/src/util/vec_map.rs:35-38`). -/
def next (it : VecMapKeys K) : M (Option K × VecMapKeys K) := do
  let r := it.inner.next
  let k ← mapKey r.1
  pure (k, ⟨r.2⟩)

/-- `next_back` (`/repo/starlit/src/util/vec_map.rs:66-69`). -/
def nextBack (it : VecMapKeys K) : M (Option K × VecMapKeys K) := do
  let r := it.inner.nextBack
  let k ← mapKey r.1
  pure (k, ⟨r.2⟩)

/-- `nth` (`/repo/starlit/src/util/vec_map.rs:55-58`). -/
def nth (it : VecMapKeys K) (n : Nat) : M (Option K × VecMapKeys K) := do
  let r := it.inner.nth n
  let k ← mapKey r.1
  pure (k, ⟨r.2⟩)

/-- `nth_back` (`/repo/starlit/src/util/vec_map.rs:71-74`). -/
def nthBack (it : VecMapKeys K) (n : Nat) : M (Option K × VecMapKeys K) := do
  let r := it.inner.nthBack n
  let k ← mapKey r.1
  pure (k, ⟨r.2⟩)

/-- `last` (`/repo/starlit/src/util/vec_map.rs:50-53`). -/
def last (it : VecMapKeys K) : M (Option K) := mapKey it.inner.last

/-- `count`, `len` and both parts of `size_hint` (`/repo/starlit/src/util/vec_map.rs:40-48,
82-85`). -/
def len (it : VecMapKeys K) : Nat := it.inner.len

end VecMapKeys

end Starlit
