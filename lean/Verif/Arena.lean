import Verif.Header

/-!
# Clause arena

Model of `/repo/starlit/src/clause_arena.rs:97-610`.  The buffer is a list of 32-bit words.  The
constant `HEADER_LEN` is the parameter `hl`; a header is the list of its `hl` words.  A
`ClauseRef { id: u32 }` is modelled by the natural number `id`; casts to `u32` are explicit `% 2^32`.
`usize` arithmetic is unbounded; a subtraction that is not guarded by a comparison comes with the overflow
check of a debug build (`debugM`).

`&mut [Lit]` / `&mut Header` borrows are modelled by a read followed by a write-back of the whole
slice.
-/

namespace Starlit

/-- A word of the arena (`LitIdx`). -/
abbrev Word := BitVec 32

/-- `struct ClauseArena` (`/repo/starlit/src/clause_arena.rs:98-123`). -/
structure Arena where
  buffer : List Word
  garbage : Nat
deriving DecidableEq, Repr

/-- `buffer.get_unchecked(start..).get_unchecked(..len)` (or a pointer to `len` words): undefined
behaviour when out of bounds. -/
def sliceU (buf : List Word) (start len : Nat) : M (List Word) :=
  if start + len ≤ buf.length then pure ((buf.drop start).take len) else throw .ub

/-- Overwriting the words starting at `start` through an unchecked slice. -/
def writeU (buf : List Word) (start : Nat) (ws : List Word) : M (List Word) :=
  if start + ws.length ≤ buf.length then
    pure (buf.take start ++ ws ++ buf.drop (start + ws.length)) else throw .ub

namespace Arena

/-- `Default::default()` (`/repo/starlit/src/clause_arena.rs:125-133`). -/
def empty : Arena := ⟨[], 0⟩

/-- The length word written for a clause of `n` literals. -/
def lenWord (n : Nat) : Word := BitVec.ofNat 32 n ||| LEN_MARKER

/-- `add_clause` (`/repo/starlit/src/clause_arena.rs:150-173`).  `none` is
`Err(ArenaSpaceExhausted)`. The header length is the length of `header`. -/
def addClause (a : Arena) (header : List Word) (lits : List Lit) : M (Option (Arena × Nat)) := do
  assertM (!lits.isEmpty)
  let id := a.buffer.length
  if id > 2 ^ 32 - 1 ∨ lits.length > HEADER_MASK.toNat then
    pure none
  else
    pure (some
      ({ a with buffer := a.buffer ++ header ++ [lenWord lits.length] ++ lits.map Lit.code32 },
       id % 2 ^ 32))

/-- `clause_len` (`/repo/starlit/src/clause_arena.rs:182-190`). -/
def clauseLen (hl : Nat) (a : Arena) (c : Nat) : M Nat := do
  let w ← idx a.buffer (c + hl)
  if w &&& LEN_MARKER = 0#32 then throw .panic
  pure (w &&& HEADER_MASK).toNat

/-- `lits_unchecked_with_len` (`/repo/starlit/src/clause_arena.rs:200-208`). -/
def litsUncheckedWithLen (hl : Nat) (a : Arena) (c len : Nat) : M (List Lit) := do
  let ws ← sliceU a.buffer (c + hl + 1) len
  pure (ws.map Lit.mk)

/-- `lits` (`/repo/starlit/src/clause_arena.rs:236-239`). -/
def lits (hl : Nat) (a : Arena) (c : Nat) : M (List Lit) := do
  let len ← clauseLen hl a c
  litsUncheckedWithLen hl a c len

/-- Write-back of the slice returned by `lits_mut` / `lits_unchecked_with_len_mut`
(`/repo/starlit/src/clause_arena.rs:218-230, 245-248`); a slice keeps its length. -/
def writeLits (hl : Nat) (a : Arena) (c : Nat) (ls : List Lit) : M Arena := do
  let b ← writeU a.buffer (c + hl + 1) (ls.map Lit.code32)
  pure { a with buffer := b }

/-- `header_unchecked` (`/repo/starlit/src/clause_arena.rs:257-264`). -/
def headerUnchecked (hl : Nat) (a : Arena) (c : Nat) : M (List Word) := sliceU a.buffer c hl

/-- `header` (`/repo/starlit/src/clause_arena.rs:286-292`). -/
def header (hl : Nat) (a : Arena) (c : Nat) : M (List Word) := do
  let _ ← clauseLen hl a c
  headerUnchecked hl a c

/-- Write-back of the header returned by `header_unchecked_mut`
(`/repo/starlit/src/clause_arena.rs:273-280`). -/
def writeHeaderUnchecked (a : Arena) (c : Nat) (h : List Word) : M Arena := do
  let b ← writeU a.buffer c h
  pure { a with buffer := b }

/-- `header_mut` (`/repo/starlit/src/clause_arena.rs:298-304`), with the caller's change `f` of the
header. -/
def modifyHeader (hl : Nat) (a : Arena) (c : Nat) (f : List Word → List Word) : M Arena := do
  let _ ← clauseLen hl a c
  let h ← headerUnchecked hl a c
  writeHeaderUnchecked a c (f h)

/-- `header_and_lits` (`/repo/starlit/src/clause_arena.rs:371-374` and 315-335). -/
def headerAndLits (hl : Nat) (a : Arena) (c : Nat) : M (List Word × List Lit) := do
  let len ← clauseLen hl a c
  let h ← headerUnchecked hl a c
  let ls ← litsUncheckedWithLen hl a c len
  pure (h, ls)

/-- `lits_mut` (`/repo/starlit/src/clause_arena.rs:245-248`), with the caller's change `f` of the
literals (which keeps their number). -/
def modifyLits (hl : Nat) (a : Arena) (c : Nat) (f : List Lit → List Lit) : M Arena := do
  let len ← clauseLen hl a c
  let ls ← litsUncheckedWithLen hl a c len
  writeLits hl a c (f ls)

/-- The loop of `find_clause` (`/repo/starlit/src/clause_arena.rs:389-404`). -/
def findLoop (hl : Nat) (buf : List Word) : Nat → Nat → M (Option Nat)
  | 0, _ => throw .fuel
  | fuel + 1, pos =>
    match buf[pos]? with
    | none => pure none
    | some word =>
      if word &&& LEN_MARKER ≠ 0#32 then
        if word = LEN_MARKER then do
          let d ← idx buf (pos + 1)
          findLoop hl buf fuel (pos + (d.toNat + hl + 1))
        else do
          debugM (decide (hl ≤ pos))
          pure (some ((pos - hl) % 2 ^ 32))
      else findLoop hl buf fuel (pos + 1)

/-- `find_clause` (`/repo/starlit/src/clause_arena.rs:386-405`). -/
def findClause (hl : Nat) (a : Arena) (start : Nat) : M (Option Nat) :=
  findLoop hl a.buffer (a.buffer.length + 1) (start + hl)

/-- `next_clause` (`/repo/starlit/src/clause_arena.rs:424-431`); returns the new iterator value. -/
def nextClause (hl : Nat) (a : Arena) (c : Option Nat) : M (Option Nat) := do
  let start ← match c with
    | none => pure 0
    | some c => do
      let len ← clauseLen hl a c
      pure (c + len + hl + 1)
  findClause hl a start

/-- `shrink_clause` (`/repo/starlit/src/clause_arena.rs:436-454`). `shr` is
`ClauseHeader::shrink_clause` on header words. -/
def shrinkClause (hl : Nat) (shr : List Word → Nat → Nat → List Word) (a : Arena) (c newLen : Nat) :
    M Arena := do
  assertM (newLen != 0)
  let len ← clauseLen hl a c
  assertM (decide (newLen ≤ len))
  let b ← writeU a.buffer (c + hl) [LEN_MARKER ||| BitVec.ofNat 32 newLen]
  let a : Arena := ⟨b, a.garbage + (len - newLen)⟩
  let h ← headerUnchecked hl a c
  writeHeaderUnchecked a c (shr h len newLen)

/-- `delete_clause` (`/repo/starlit/src/clause_arena.rs:460-474`). -/
def deleteClause (hl : Nat) (a : Arena) (c : Nat) : M Arena := do
  let len ← clauseLen hl a c
  let g := a.garbage + (len + hl + 1)
  if len > 0 then
    let b ← writeU a.buffer (c + hl) [LEN_MARKER]
    let b ← writeU b (c + hl + 1) [BitVec.ofNat 32 len]
    pure ⟨b, g⟩
  else pure ⟨a.buffer, g⟩

/-- `struct GcMapGap` (`/repo/starlit/src/clause_arena.rs:602-610`); the `u32` fields as naturals. -/
structure Gap where
  start : Nat
  stop : Nat
  shift : Nat
deriving DecidableEq, Repr

/-- `[T]::copy_within(read..read + n, write)`: panics when out of bounds. -/
def copyWithin (buf : List Word) (read n write : Nat) : M (List Word) := do
  assertM (decide (read + n ≤ buf.length))
  assertM (decide (write + n ≤ buf.length))
  pure (buf.take write ++ (buf.drop read).take n ++ buf.drop (write + n))

/-- The loop of `collect_garbage` (`/repo/starlit/src/clause_arena.rs:490-505`); returns buffer,
write offset, expected read offset and gaps. -/
def gcLoop (hl : Nat) : Nat → List Word → Option Nat → Nat → Nat → List Gap →
    M (List Word × Nat × Nat × List Gap)
  | 0, _, _, _, _, _ => throw .fuel
  | fuel + 1, buf, read, write, expected, gaps =>
    match read with
    | none => pure (buf, write, expected, gaps)
    | some clause => do
      let read' ← nextClause hl ⟨buf, 0⟩ (some clause)
      let len ← clauseLen hl ⟨buf, 0⟩ clause
      let storage := len + hl + 1
      debugM (clause == expected || decide (write ≤ clause))
      let gaps' := if clause ≠ expected then
        gaps ++ [⟨expected % 2 ^ 32, clause % 2 ^ 32, (clause - write) % 2 ^ 32⟩] else gaps
      let buf' ← copyWithin buf clause storage write
      gcLoop hl fuel buf' read' (write + storage) (clause + storage) gaps'

/-- `collect_garbage` (`/repo/starlit/src/clause_arena.rs:480-522`). -/
def collectGarbage (hl : Nat) (a : Arena) : M (Arena × List Gap) := do
  let read ← nextClause hl a none
  let (buf, write, expected, gaps) ← gcLoop hl (a.buffer.length + 1) a.buffer read 0 0 []
  let readOffset := buf.length
  debugM (readOffset == expected || decide (write ≤ readOffset))
  let gaps' := if readOffset ≠ expected then
    gaps ++ [⟨expected % 2 ^ 32, readOffset % 2 ^ 32, (readOffset - write) % 2 ^ 32⟩] else gaps
  pure (⟨buf.take write, 0⟩, gaps')

/-- `should_collect_garbage` (`/repo/starlit/src/clause_arena.rs:525-527`). -/
def shouldCollectGarbage (a : Arena) : Bool := decide (a.garbage * 2 ≥ a.buffer.length)

/-- `utilization` (`/repo/starlit/src/clause_arena.rs:530-536`): `(allocated, used)`.  The
subtraction of `usize` values wraps in a release build; it is modelled by an explicit wrap at
`2^64`. -/
def utilization (a : Arena) : Nat × Nat :=
  (a.buffer.length, (a.buffer.length + 2 ^ 64 - a.garbage % 2 ^ 64) % 2 ^ 64)

/-- The loop of `[T]::binary_search_by` of the Rust standard library, for a comparison that answers
`Greater` when `gap.start > id` and `Less` otherwise (it never answers `Equal`).  The standard
library only promises the insertion index for a sorted slice; this is its implementation. -/
def searchLoop (gaps : List Gap) (id : Nat) : Nat → Nat → Nat → M Nat
  | 0, _, _ => throw .fuel
  | fuel + 1, left, right =>
    if left < right then do
      let mid := left + (right - left) / 2
      let g ← idx gaps mid
      if g.start > id then searchLoop gaps id fuel left mid
      else searchLoop gaps id fuel (mid + 1) right
    else pure left

/-- `ClauseRefGcMap::update` (`/repo/starlit/src/clause_arena.rs:564-596`).  `index.wrapping_sub(1)`
of zero is out of range for `get`. -/
def gapsUpdate (gaps : List Gap) (c : Nat) : M (Option Nat) := do
  let index ← searchLoop gaps c (gaps.length + 1) 0 gaps.length
  match (if index = 0 then none else gaps[index - 1]?) with
  | some g => do
    debugM (decide (g.start ≤ c))
    if g.stop > c then pure none
    else do
      debugM (decide (g.shift ≤ c))
      pure (some ((c + 2 ^ 32 - g.shift) % 2 ^ 32))
  | none => pure (some c)

end Arena

end Starlit
