import Verif.Base

/-!
# Scanning a vector with mutation and removal

Model of `MutScan` (`/repo/starlit/src/util/mut_scan.rs`) at the level of the buffer: a memory cell
is `some x` when it holds an initialised item and `none` when it is uninitialised or was moved out
of.  Reading a cell that is not initialised, overwriting one that still is, and leaving the buffer
are `Err.ub`.
-/

namespace Starlit

/-- `Vec<T>` as buffer and length: the model of the `vec` field of `MutScan`. -/
structure RawVec (T : Type) where
  mem : List (Option T)
  len : Nat
deriving DecidableEq

/-- `MutScan` (`/repo/starlit/src/util/mut_scan.rs:73-78`).  The three pointers are offsets from the
start of the buffer. -/
structure MutScan (T : Type) where
  vec : RawVec T
  endp : Nat
  read : Nat
  write : Nat

namespace RawVec
variable {T : Type}

/-- A vector with the given items and spare capacity. -/
def ofList (items : List T) (spare : Nat) : RawVec T :=
  ⟨items.map some ++ List.replicate spare none, items.length⟩

/-- All cells of the list are initialised: their contents. -/
def contents : List (Option T) → M (List T)
  | [] => pure []
  | some x :: r => (x :: ·) <$> contents r
  | none :: _ => throw .ub

/-- The items of a vector; `Err.ub` if one of the first `len` cells is not initialised. -/
def toList (v : RawVec T) : M (List T) :=
  if v.len ≤ v.mem.length then contents (v.mem.take v.len) else throw .ub

end RawVec

namespace MutScan
variable {T : Type}

/-- `MutScan::new` (`/repo/starlit/src/util/mut_scan.rs:82-96`). -/
def new (vec : RawVec T) : MutScan T :=
  { vec := { vec with len := 0 }, endp := vec.len, read := 0, write := 0 }

/-- `MutScan::next` (`/repo/starlit/src/util/mut_scan.rs:101-113`).  The item is moved out of the
buffer; the wrapper `MutScanItem` is the pair of the new scan and the item. -/
def next (s : MutScan T) : M (Option (MutScan T × T)) :=
  if s.read = s.endp then pure none
  else match s.vec.mem[s.read]? with
    | some (some item) =>
      pure (some ({ s with vec := { s.vec with mem := s.vec.mem.set s.read none },
                           read := s.read + 1 }, item))
    | _ => throw .ub

/-- `MutScanItem::keep` (`/repo/starlit/src/util/mut_scan.rs:160-166`), called with the possibly
modified item (`DerefMut`, lines 150-155). -/
def keep (s : MutScan T) (item : T) : M (MutScan T) :=
  match s.vec.mem[s.write]? with
  | some none =>
    pure { s with vec := { s.vec with mem := s.vec.mem.set s.write (some item) },
                  write := s.write + 1 }
  | _ => throw .ub

/-- `MutScanItem::remove` (`/repo/starlit/src/util/mut_scan.rs:170-172`), and dropping the
`MutScanItem`. -/
def remove (s : MutScan T) (item : T) : MutScan T × T := (s, item)

/-- `std::ptr::copy(src, dst, n)` followed by forgetting the source cells, as used in line 121 of
`/repo/starlit/src/util/mut_scan.rs`. -/
def copy (mem : List (Option T)) (src dst n : Nat) : M (List (Option T)) :=
  if src + n ≤ mem.length ∧ dst + n ≤ mem.length then
    let items := (mem.drop src).take n
    let moved := mem.take src ++ List.replicate n none ++ mem.drop (src + n)
    if items.all Option.isSome ∧ ((moved.drop dst).take n).all Option.isNone then
      pure (moved.take dst ++ items ++ moved.drop (dst + n))
    else throw .ub
  else throw .ub

/-- `Drop::drop` for `MutScan` (`/repo/starlit/src/util/mut_scan.rs:116-130`); returns the scanned
vector. -/
def drop (s : MutScan T) : M (RawVec T) := do
  let suffixLen := s.endp - s.read
  let mem ← copy s.vec.mem s.read s.write suffixLen
  pure { mem, len := s.write + suffixLen }

end MutScan

end Starlit
