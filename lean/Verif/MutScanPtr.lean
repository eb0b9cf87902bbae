import Verif.MutScan

/-!
# Scanning a vector, with addresses

Model of `MutScan` (`/repo/starlit/src/util/mut_scan.rs`) in which the three pointers are addresses and the size of an item is a
parameter: `ptr.add(n)` adds `n` times the size, and `offset_from` divides by it.  `Verif/MutScan.lean` has
offsets instead, which is the same for sizes other than zero only.
-/

namespace Starlit

/-- `MutScan` (`/repo/starlit/src/util/mut_scan.rs:73-78`) with addresses; `base` is the address of the buffer. -/
structure PtrScan (T : Type) where
  vec : RawVec T
  base : Nat
  endp : Nat
  read : Nat
  write : Nat

namespace PtrScan
variable {T : Type}

/-- `end.offset_from(start)`, which panics for types of size zero (`core::ptr`, called in
`/repo/starlit/src/util/mut_scan.rs:120`, `125`); the distance has to be a multiple of the size. -/
def offsetFrom (size a b : Nat) : M Nat :=
  if size = 0 then throw .panic
  else if b ≤ a ∧ size ∣ a - b then pure ((a - b) / size)
  else throw .ub

/-- The number of the cell at an address. -/
def cell (size : Nat) (s : PtrScan T) (p : Nat) : M Nat :=
  if s.base ≤ p ∧ size ∣ p - s.base then pure ((p - s.base) / size) else throw .ub

/-- `MutScan::new` (`/repo/starlit/src/util/mut_scan.rs:82-96`); `as_mut_ptr_range` ends `len` items after the start. -/
def new (size base : Nat) (vec : RawVec T) : PtrScan T :=
  { vec := { vec with len := 0 }, base := base, endp := base + size * vec.len, read := base, write := base }

/-- `MutScan::next` (`/repo/starlit/src/util/mut_scan.rs:101-113`). -/
def next (size : Nat) (s : PtrScan T) : M (Option (PtrScan T × T)) :=
  if s.read = s.endp then pure none
  else do
    let i ← s.cell size s.read
    match s.vec.mem[i]? with
    | some (some item) =>
      pure (some ({ s with vec := { s.vec with mem := s.vec.mem.set i none }, read := s.read + size }, item))
    | _ => throw .ub

/-- `MutScanItem::keep` (`/repo/starlit/src/util/mut_scan.rs:160-166`). -/
def keep (size : Nat) (s : PtrScan T) (item : T) : M (PtrScan T) := do
  let i ← s.cell size s.write
  match s.vec.mem[i]? with
  | some none =>
    pure { s with vec := { s.vec with mem := s.vec.mem.set i (some item) }, write := s.write + size }
  | _ => throw .ub

/-- `Drop::drop` for `MutScan` (`/repo/starlit/src/util/mut_scan.rs:116-130`). -/
def drop (size : Nat) (s : PtrScan T) : M (RawVec T) := do
  let suffixLen ← offsetFrom size s.endp s.read
  let r ← s.cell size s.read
  let w ← s.cell size s.write
  let mem ← MutScan.copy s.vec.mem r w suffixLen
  let finalLen ← offsetFrom size (s.write + suffixLen * size) s.base
  pure { mem, len := finalLen }

end PtrScan

end Starlit
