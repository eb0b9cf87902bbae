import Verif.Base
import Mathlib.Order.Defs.LinearOrder

/-!
# Addressable max heap (`/repo/starlit/src/heap.rs`)

The loops `move_towards_root` and `move_towards_leaves` are recursive functions with fuel; the fuel
passed is always enough (proved in `Verif/HeapLemmas.lean`).  The `Key` type is erased to its index.
-/

namespace Starlit

/-- `v.swap(i, j)` of a slice: panics when out of bounds. -/
def swapAt {α : Type} (v : List α) (i j : Nat) : M (List α) := do
  let x ← idx v i
  let y ← idx v j
  pure ((v.set i y).set j x)

/-- `MaxHeap` (`/repo/starlit/src/heap.rs:15-21`). The `u32` entries are natural numbers. -/
structure Heap (V : Type) where
  values : List V
  heapPos : List Nat
  heap : List Nat
deriving DecidableEq, Repr

namespace Heap

variable {V : Type} [LinearOrder V]

/-- `!0` as a `LitIdx`. -/
def NONE : Nat := 2 ^ 32 - 1

/-- `Default` (`/repo/starlit/src/heap.rs:23-32`). -/
def empty : Heap V := ⟨[], [], []⟩

/-- The part of the macro `swap!` that changes the heap (`/repo/starlit/src/heap.rs:34-41`). -/
def swap (h : Heap V) (a b : Nat) : M (Heap V) := do
  let heap ← swapAt h.heap a b
  let x ← idx heap a
  let y ← idx heap b
  let heapPos ← swapAt h.heapPos x y
  pure { h with heap, heapPos }

/-- The value of the index stored at a heap position. -/
def valueAt (h : Heap V) (pos : Nat) : M V := do
  let x ← idx h.heap pos
  idx h.values x

/-- The loop of `move_towards_root` (`/repo/starlit/src/heap.rs:178-185`). -/
def rootLoop (value : V) : Nat → Heap V → Nat → M (Heap V)
  | 0, h, pos => if pos = 0 then pure h else throw .fuel
  | fuel + 1, h, pos =>
    if pos > 0 then do
      let parent := (pos - 1) / 2
      let pv ← h.valueAt parent
      if pv < value then do
        let h ← h.swap pos parent
        rootLoop value fuel h parent
      else pure h
    else pure h

/-- `move_towards_root` (`/repo/starlit/src/heap.rs:176-186`). -/
def moveTowardsRoot (h : Heap V) (pos : Nat) : M (Heap V) := do
  let value ← h.valueAt pos
  rootLoop value pos h pos

/-- The body of the loop of `move_towards_leaves`: the position called `smallest_pos`
(`/repo/starlit/src/heap.rs:195-213`). -/
def pickChild (value : V) (h : Heap V) (pos : Nat) : M Nat := do
  let left := pos * 2 + 1
  let (spos, svalue) ←
    if left < h.heap.length then do
      let lv ← h.valueAt left
      if value < lv then pure (left, lv) else pure (pos, value)
    else pure (pos, value)
  let right := pos * 2 + 2
  if right < h.heap.length then do
    let rv ← h.valueAt right
    if svalue < rv then pure right else pure spos
  else pure spos

/-- The loop of `move_towards_leaves` (`/repo/starlit/src/heap.rs:194-220`). -/
def leavesLoop (value : V) : Nat → Heap V → Nat → M (Heap V)
  | 0, _, _ => throw .fuel
  | fuel + 1, h, pos => do
    let spos ← pickChild value h pos
    if spos = pos then pure h
    else do
      let h ← h.swap pos spos
      leavesLoop value fuel h spos

/-- `move_towards_leaves` (`/repo/starlit/src/heap.rs:191-221`). -/
def moveTowardsLeaves (h : Heap V) (pos : Nat) : M (Heap V) := do
  let value ← h.valueAt pos
  leavesLoop value h.heap.length h pos

/-- `is_enqueued` (`/repo/starlit/src/heap.rs:89-91`). -/
def isEnqueued (h : Heap V) (index : Nat) : M Bool := do
  let pos ← idx h.heapPos index
  pure (decide (pos < h.heap.length))

/-- Removal of the last heap entry after it was swapped there: lines 114-115 and 166-167 of
`/repo/starlit/src/heap.rs`. -/
def popLast (h : Heap V) (index : Nat) : M (Heap V) := do
  let heapPos ← upd h.heapPos index NONE
  pure { h with heapPos, heap := h.heap.dropLast }

/-- `dequeue_usize` (`/repo/starlit/src/heap.rs:101-123`). -/
def dequeue (h : Heap V) (index : Nat) : M (Heap V) := do
  let pos ← idx h.heapPos index
  if pos ≥ h.heap.length then pure h
  else do
    let other := h.heap.length - 1
    if other = pos then h.popLast index
    else do
      -- after `swap!(self, other_pos, pos)` the variable `other_pos` is the old `pos`
      let h ← h.swap other pos
      let h ← h.popLast index
      let ov ← h.valueAt pos
      let iv ← idx h.values index
      if iv < ov then h.moveTowardsLeaves pos else h.moveTowardsRoot pos

/-- `enqueue_usize` (`/repo/starlit/src/heap.rs:133-144`). -/
def enqueue (h : Heap V) (index : Nat) : M (Heap V) := do
  let pos ← idx h.heapPos index
  if pos < h.heap.length then pure h
  else do
    let pos := h.heap.length
    let heapPos ← upd h.heapPos index (pos % 2 ^ 32)
    moveTowardsRoot { h with heap := h.heap ++ [index % 2 ^ 32], heapPos } pos

/-- `pop_max` (`/repo/starlit/src/heap.rs:147-173`). -/
def popMax (h : Heap V) : M (Option Nat × Heap V) :=
  match h.heap with
  | [] => pure (none, h)
  | index :: _ => do
    let other := h.heap.length - 1
    let h ←
      if other = 0 then h.popLast index
      else do
        -- after `swap!(self, other_pos, pos)` the variable `other_pos` is 0
        let h ← h.swap other 0
        let h ← h.popLast index
        h.moveTowardsLeaves 0
    pure (some index, h)

/-- Dequeues the indices `i, i+1, …, i+k-1` (`/repo/starlit/src/heap.rs:58-60`). -/
def dequeueRange (h : Heap V) (i : Nat) : Nat → M (Heap V)
  | 0 => pure h
  | k + 1 => do
    let h ← h.dequeue i
    h.dequeueRange (i + 1) k

/-- `Vec::resize`. -/
def resizeList {α : Type} (v : List α) (len : Nat) (x : α) : List α :=
  v.take len ++ List.replicate (len - v.length) x

/-- `resize` (`/repo/starlit/src/heap.rs:51-65`). -/
def resize (h : Heap V) (len : Nat) (value : V) : M (Heap V) := do
  assertM (decide (len ≤ 2 ^ 32))
  let h ← if len < h.values.length then h.dequeueRange len (h.values.length - len) else pure h
  pure { h with
    values := resizeList h.values len value
    heapPos := resizeList h.heapPos len NONE }

/-- Enqueues the indices `i, …, i+k-1` (`/repo/starlit/src/heap.rs:77-79`). -/
def enqueueRange (h : Heap V) (i : Nat) : Nat → M (Heap V)
  | 0 => pure h
  | k + 1 => do
    let h ← h.enqueue i
    h.enqueueRange (i + 1) k

/-- `resize_enqueued` (`/repo/starlit/src/heap.rs:71-80`). -/
def resizeEnqueued (h : Heap V) (len : Nat) (value : V) : M (Heap V) := do
  let old := h.values.length
  let h ← h.resize len value
  h.enqueueRange old (len - old)

/-- `increase_usize` (`/repo/starlit/src/heap.rs:232-239`). -/
def increase (h : Heap V) (index : Nat) (f : V → V) : M (Heap V) := do
  let v ← idx h.values index
  let values ← upd h.values index (f v)
  let h := { h with values }
  let pos ← idx h.heapPos index
  if pos < h.heap.length then h.moveTowardsRoot pos else pure h

/-- `apply_monotone` (`/repo/starlit/src/heap.rs:245-249`). -/
def applyMonotone (h : Heap V) (f : V → V) : Heap V := { h with values := h.values.map f }

/-- `Index::index` (`/repo/starlit/src/heap.rs:258-260`). -/
def get (h : Heap V) (index : Nat) : M V := idx h.values index

end Heap

end Starlit
