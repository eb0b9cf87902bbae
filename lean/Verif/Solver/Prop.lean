import Verif.PartialAssignment
import Verif.Header
import Verif.Arena
import Verif.Heap
import Verif.Drat

/-!
# Propagation state

Model of `/repo/starlit/src/prop.rs`, `prop/trail.rs`, `prop/watch.rs`, `prop/binary.rs` and
`prop/unit_prop.rs`, using the models of the partial assignment, the clause arena and the clause
headers.

Simplifications, used throughout the solver model:

* statistics counters (`u64`, `usize`) are natural numbers; where the code subtracts, the model
  fails with `Err.panic` instead of wrapping around;
* trail indices and decision levels (`u32`) are natural numbers; a trail of `2^32 - 1` or more steps
  is outside of the model (`Err.tooBig`);
* logging is left out.
-/

namespace Starlit

/-- `Reason` (`/repo/starlit/src/prop/trail.rs:85-94`). -/
inductive Reason where
  | decision
  | unit
  | binary (l : Lit)
  | long (c : Nat)
deriving DecidableEq, Repr

/-- `Step` (`/repo/starlit/src/prop/trail.rs:111-124`). -/
structure Step where
  lit : Lit
  level : Nat
  reason : Reason
deriving DecidableEq, Repr

/-- `TrailIndex::UNASSIGNED` (`/repo/starlit/src/prop/trail.rs:60`). -/
def UNASSIGNED : Nat := 2 ^ 32 - 1

/-- `Trail` (`/repo/starlit/src/prop/trail.rs:129-145`). -/
structure Trail where
  trailIndex : List Nat
  steps : List Step
  propagated : Nat
  decisions : List Nat
deriving DecidableEq, Repr

/-- `Watch` (`/repo/starlit/src/prop/watch.rs:14-29`). -/
structure Watch where
  clause : Nat
  blocking : Lit
deriving DecidableEq, Repr

/-- `Watches` (`/repo/starlit/src/prop/watch.rs:41-44`). -/
structure Watches where
  byLit : List (List Watch)
  enabled : Bool
deriving DecidableEq, Repr

/-- `Prop` (`/repo/starlit/src/prop.rs:24-31`). -/
structure PropState where
  unsat : Bool
  values : PartialAssignment
  /-- `BinaryClauses::by_lit` (`/repo/starlit/src/prop/binary.rs:6-8`). -/
  binary : List (List Lit)
  /-- `LongClauses = ClauseArena<LongHeader>` (`/repo/starlit/src/prop/long.rs:24`). -/
  long : Arena
  watches : Watches
  trail : Trail
deriving DecidableEq, Repr

/-- `PropStats` (`/repo/starlit/src/prop.rs:44-50`). -/
structure PropStats where
  propagations : Nat
  fixedVars : Nat
deriving DecidableEq, Repr

/-- `FormulaStats` (`/repo/starlit/src/prop.rs:54-66`). -/
structure FormulaStats where
  binary : Nat
  irredundant : Nat
  redundant : Nat
  vars : Nat
deriving DecidableEq, Repr

/-- `SearchStats` (`/repo/starlit/src/search.rs:132-141`). -/
structure SearchStats where
  decisions : Nat
  conflicts : Nat
  restarts : Nat
  reductions : Nat
deriving DecidableEq, Repr

/-- `Ctx` (`/repo/starlit/src/context.rs:13-17`) and `Stats` (`/repo/starlit/src/stats.rs:11-15`)
without the logger.  The proof writer is modelled by the list of calls made to it (see
`Verif/Drat.lean` for what the two writers do with these calls). -/
structure Ctx where
  prop : PropStats
  search : SearchStats
  formula : FormulaStats
  proof : Option (List ProofStep)
deriving DecidableEq, Repr

/-- `Ctx::default()` (`/repo/starlit/src/context.rs:11`). -/
def Ctx.default : Ctx := ⟨⟨0, 0⟩, ⟨0, 0, 0, 0⟩, ⟨0, 0, 0, 0⟩, none⟩

/-- `if let Some(proof) = &mut ctx.proof { … }`: a call to the proof writer. -/
def Ctx.logProof (ctx : Ctx) (s : ProofStep) : Ctx :=
  { ctx with proof := ctx.proof.map (· ++ [s]) }

/-! ## Headers of long clauses -/

/-- The header words of a `LongHeader` (`/repo/starlit/src/prop/long.rs:19-21`). -/
def LongHeader.words (h : LongHeader) : List (BitVec 32) := [h.w0, h.w1]

/-- Reading a `LongHeader` from its words (`Transparent`,
`/repo/starlit/src/util/transparent.rs`). -/
def LongHeader.ofWords (ws : List (BitVec 32)) : LongHeader := ⟨ws.getD 0 0, ws.getD 1 0⟩

namespace Long
open Arena

/-- `HEADER_LEN` of `LongHeader` (`/repo/starlit/src/clause_arena.rs`). -/
def hl : Nat := 2

/-- `add_clause` for `LongClauses`. -/
def add (a : Arena) (h : LongHeader) (ls : List Lit) : M (Option (Arena × Nat)) :=
  addClause a h.words ls

/-- `lits` for `LongClauses`. -/
def lits (a : Arena) (c : Nat) : M (List Lit) := Arena.lits hl a c

/-- `clause_len` for `LongClauses`. -/
def len (a : Arena) (c : Nat) : M Nat := clauseLen hl a c

/-- `header` for `LongClauses`. -/
def header (a : Arena) (c : Nat) : M LongHeader := do
  let ws ← Arena.header hl a c
  pure (.ofWords ws)

/-- `header_mut` for `LongClauses`, followed by a modification. -/
def modHeader (a : Arena) (c : Nat) (f : LongHeader → LongHeader) : M Arena :=
  modifyHeader hl a c (fun ws => (f (.ofWords ws)).words)

/-- `header_and_lits_mut` for `LongClauses`: the values read. -/
def headerAndLits (a : Arena) (c : Nat) : M (LongHeader × List Lit) := do
  let (ws, ls) ← Arena.headerAndLits hl a c
  pure (.ofWords ws, ls)

/-- Writing through the literal slice of `header_and_lits_mut`. -/
def setLits (a : Arena) (c : Nat) (ls : List Lit) : M Arena := modifyLits hl a c (fun _ => ls)

/-- `delete_clause` for `LongClauses`. -/
def delete (a : Arena) (c : Nat) : M Arena := deleteClause hl a c

/-- `next_clause` for `LongClauses`. -/
def next (a : Arena) (c : Option Nat) : M (Option Nat) := nextClause hl a c

end Long

/-! ## Trail -/

namespace Trail

/-- `Trail::default` (`/repo/starlit/src/prop/trail.rs:147-156`). -/
def default : Trail := ⟨[], [], 0, [0]⟩

/-- `decision_level` (`/repo/starlit/src/prop/trail.rs:166-168`); `decisions` is never empty. -/
def decisionLevel (t : Trail) : Nat := t.decisions.length - 1

/-- `trail_index` (`/repo/starlit/src/prop/trail.rs:180-184`) by variable index.  A debug build marks
the entries of unassigned variables (`292-296`) and panics here for an unassigned variable, a release
build returns some old index.  The model keeps the old index and fails unless the variable is assigned by
the step with this index, so where it succeeds both builds return the same. -/
def indexOf (t : Trail) (v : Nat) : M Nat := do
  let i ← idx t.trailIndex v
  debugM (t.steps[i]?.map (·.lit.index) == some v)
  pure i

theorem indexOf_ok {t : Trail} {v i : Nat} {s : Step} (h1 : t.trailIndex[v]? = some i)
    (h2 : t.steps[i]? = some s) (h3 : s.lit.index = v) : t.indexOf v = .ok i := by
  unfold indexOf
  rw [idx_ok h1, bind_ok, debugM_ok (by simp [h2, h3]), bind_ok]; rfl

theorem indexOf_eq_ok {t : Trail} {v i : Nat} (h : t.indexOf v = .ok i) : t.trailIndex[v]? = some i := by
  unfold indexOf at h
  obtain ⟨j, e, h⟩ := bind_eq_ok.1 h
  obtain ⟨_, _, h⟩ := bind_eq_ok.1 h
  cases h
  exact idx_eq_ok.1 e

/-- `step_for_var` (`/repo/starlit/src/prop/trail.rs:191-193`). -/
def stepForVar (t : Trail) (v : Nat) : M Step := do
  let i ← t.indexOf v
  idx t.steps i

/-- `fixed_var_count` (`/repo/starlit/src/prop/trail.rs:223-228`). -/
def fixedVarCount (t : Trail) : Nat :=
  match t.decisions[1]? with
  | some i => i
  | none => t.steps.length

/-- The loop of `update_clause_references` (`/repo/starlit/src/prop/trail.rs:197-201`). -/
def updateSteps (gaps : List Arena.Gap) : List Step → M (List Step)
  | [] => pure []
  | s :: ss => do
    let s' ← match s.reason with
      | .long c => do
        match ← Arena.gapsUpdate gaps c with
        | some c' => pure { s with reason := .long c' }
        | none => throw .panic
      | _ => pure s
    let ss' ← updateSteps gaps ss
    pure (s' :: ss')

end Trail

namespace PropState

/-- `Prop::default()` (`/repo/starlit/src/prop.rs:22`). -/
def default : PropState :=
  { unsat := false, values := .empty, binary := [], long := .empty,
    watches := ⟨[], true⟩, trail := .default }

/-- `resize` (`/repo/starlit/src/prop.rs:33-40`, `prop/binary.rs:28-32`, `prop/watch.rs:122-126`,
`prop/trail.rs:158-162`). -/
def resize (p : PropState) (n : Nat) : PropState :=
  { p with
    values := p.values.resize n
    binary := Heap.resizeList p.binary (n * 2) []
    watches := { p.watches with byLit := Heap.resizeList p.watches.byLit (n * 2) [] }
    trail := { p.trail with trailIndex := Heap.resizeList p.trail.trailIndex n UNASSIGNED } }

/-- `assign_raw` / `assign` (`/repo/starlit/src/prop/trail.rs:232-242`) without the debug assertion.
Trails of `2^32 - 1` or more steps are outside of the model. -/
def assignUnit (p : PropState) (s : Step) : M PropState :=
  if p.trail.steps.length < UNASSIGNED then do
    let ti ← upd p.trail.trailIndex s.lit.index p.trail.steps.length
    let values ← p.values.assign s.lit
    pure { p with
      values := values
      trail := { p.trail with trailIndex := ti, steps := p.trail.steps ++ [s] } }
  else throw .tooBig

/-- `assign_raw` / `assign` (`/repo/starlit/src/prop/trail.rs:232-242`). -/
def assign (p : PropState) (s : Step) : M PropState := do
  debugM (!(← p.values.isAssigned s.lit.index))
  p.assignUnit s

/-- `assign_decision` (`/repo/starlit/src/prop/trail.rs:245-255`). -/
def assignDecision (p : PropState) (l : Lit) : M PropState :=
  let p := { p with
    trail := { p.trail with decisions := p.trail.decisions ++ [p.trail.steps.length] } }
  p.assign ⟨l, p.trail.decisionLevel, .decision⟩

/-- `Reason::lits` (`/repo/starlit/src/prop/trail.rs:98-107`).  Slicing `[1..]` panics for an empty
slice. -/
def reasonLits (p : PropState) : Reason → M (List Lit)
  | .decision => pure []
  | .unit => pure []
  | .binary l => pure [l]
  | .long c => do
    match ← Long.lits p.long c with
    | [] => throw .panic
    | _ :: ls => pure ls

end PropState

/-! ## Watch lists -/

namespace Watches

/-- `push_watch` (`/repo/starlit/src/prop/watch.rs:89-92`). -/
def push (w : Watches) (l : Lit) (x : Watch) : M Watches := do
  debugM w.enabled
  let ws ← idx w.byLit l.code
  let b ← upd w.byLit l.code (ws ++ [x])
  pure { w with byLit := b }

/-- `watch_clause` (`/repo/starlit/src/prop/watch.rs:59-72`). -/
def watchClause (w : Watches) (c : Nat) (a b : Lit) : M Watches :=
  if w.enabled then do
    let w ← w.push a ⟨c, b⟩
    w.push b ⟨c, a⟩
  else pure w

/-- The loop over one watch list of `update_clause_references`
(`/repo/starlit/src/prop/watch.rs:98-106`); `MutScan` keeps what is passed to `keep` (property
C32). -/
def updateList (gaps : List Arena.Gap) : List Watch → M (List Watch)
  | [] => pure []
  | w :: ws => do
    let r ← Arena.gapsUpdate gaps w.clause
    let ws' ← updateList gaps ws
    match r with
    | some c => pure ({ w with clause := c } :: ws')
    | none => pure ws'

/-- `update_clause_references` (`/repo/starlit/src/prop/watch.rs:95-108`). -/
def updateAll (gaps : List Arena.Gap) : List (List Watch) → M (List (List Watch))
  | [] => pure []
  | l :: ls => do
    let l' ← updateList gaps l
    let ls' ← updateAll gaps ls
    pure (l' :: ls')

/-- `clear` (`/repo/starlit/src/prop/watch.rs:113-119`). -/
def clear (w : Watches) : Watches := { w with byLit := w.byLit.map (fun _ => []) }

end Watches

/-- The loop of `rebuild_watch_lists` (`/repo/starlit/src/prop/watch.rs:143-149`), with fuel for the
number of remaining clauses. -/
def rebuildLoop (a : Arena) : Nat → Watches → Option Nat → M Watches
  | 0, _, _ => throw .fuel
  | fuel + 1, w, it => do
    match ← Long.next a it with
    | none => pure w
    | some c => do
      let ls ← Long.lits a c
      let l0 ← idx ls 0
      let l1 ← idx ls 1
      let w ← w.watchClause c l0 l1
      rebuildLoop a fuel w (some c)

/-- `enable_watch_lists` (`/repo/starlit/src/prop/watch.rs:131-140`). -/
def enableWatchLists (p : PropState) (enabled : Bool) : M PropState :=
  if p.watches.enabled = enabled then pure p
  else
    let p := { p with watches := { p.watches with enabled := enabled } }
    if enabled then do
      let w ← rebuildLoop p.long (p.long.buffer.length + 1) p.watches none
      pure { p with watches := w }
    else do
      debugM (!p.watches.enabled)
      pure { p with watches := p.watches.clear }

/-! ## Adding clauses -/

/-- `BinaryClauses::add_clause` (`/repo/starlit/src/prop/binary.rs:12-18`). -/
def binaryAdd (bin : List (List Lit)) (a b : Lit) : M (List (List Lit)) := do
  let la ← idx bin a.code
  let bin ← upd bin a.code (la ++ [b])
  let lb ← idx bin b.code
  upd bin b.code (lb ++ [a])

/-- `AddedClause` (`/repo/starlit/src/prop.rs:69-80`). -/
inductive AddedClause where
  | empty
  | unit (l : Lit)
  | binary (a b : Lit)
  | long (c : Nat)
deriving DecidableEq, Repr

/-- `add_clause_verbatim` (`/repo/starlit/src/prop.rs:85-128`).  The debug assertion of `assign` is left out
here: it fails when a unit clause is added a second time (C53). -/
def addClauseVerbatim (ctx : Ctx) (p : PropState) (h : LongHeader) :
    List Lit → M (Ctx × PropState × AddedClause)
  | [] => pure (ctx, { p with unsat := true }, .empty)
  | [a] => do
    if ← p.values.isFalse a then
      pure (ctx, { p with unsat := true }, .empty)
    else do
      let p ← p.assignUnit ⟨a, 0, .unit⟩
      pure (ctx, p, .unit a)
  | [a, b] => do
    let ctx := { ctx with formula := { ctx.formula with binary := ctx.formula.binary + 1 } }
    let bin ← binaryAdd p.binary a b
    pure (ctx, { p with binary := bin }, .binary a b)
  | a :: b :: c :: ls => do
    let ctx := if h.redundant then
        { ctx with formula := { ctx.formula with redundant := ctx.formula.redundant + 1 } }
      else
        { ctx with formula := { ctx.formula with irredundant := ctx.formula.irredundant + 1 } }
    match ← Long.add p.long h (a :: b :: c :: ls) with
    | none => throw .arenaFull
    | some (long, r) => do
      let w ← p.watches.watchClause r a b
      pure (ctx, { p with long := long, watches := w }, .long r)

/-! ## Garbage collection -/

/-- `collect_garbage_now` (`/repo/starlit/src/prop.rs:157-168`).  The reference map of the arena
truncates offsets to 32 bits, so arenas of `2^32` or more words are outside of the model (see C19 in
`DESIGN.md`). -/
def collectGarbageNow (p : PropState) : M PropState :=
  if p.long.buffer.length < 2 ^ 32 then do
    let (a, gaps) ← Arena.collectGarbage Long.hl p.long
    let steps ← Trail.updateSteps gaps p.trail.steps
    debugM p.watches.enabled
    let byLit ← Watches.updateAll gaps p.watches.byLit
    pure { p with
      long := a
      trail := { p.trail with steps := steps }
      watches := { p.watches with byLit := byLit } }
  else throw .tooBig

/-- `collect_garbage` (`/repo/starlit/src/prop.rs:150-154`). -/
def collectGarbage (p : PropState) : M PropState :=
  if Arena.shouldCollectGarbage p.long then collectGarbageNow p else pure p

/-! ## Unit propagation -/

/-- `ConflictClause` (`/repo/starlit/src/prop.rs:132-137`). -/
inductive ConflictClause where
  | binary (a b : Lit)
  | long (c : Nat)
deriving DecidableEq, Repr

/-- `ConflictClause::lits` (`/repo/starlit/src/prop.rs:141-146`). -/
def ConflictClause.lits (p : PropState) : ConflictClause → M (List Lit)
  | .binary a b => pure [a, b]
  | .long c => Long.lits p.long c

/-- The loop of `propagate_binary_clauses` (`/repo/starlit/src/prop/unit_prop.rs:50-71`). -/
def propagateBinary (clauseLit : Lit) : List Lit → PropState →
    M (PropState × Option ConflictClause)
  | [], p => pure (p, none)
  | other :: rest, p => do
    if ← p.values.isTrue other then propagateBinary clauseLit rest p
    else if ← p.values.isFalse other then pure (p, some (.binary clauseLit other))
    else do
      let p ← p.assign ⟨other, p.trail.decisionLevel, .binary clauseLit⟩
      propagateBinary clauseLit rest p

/-- What the search for a non-false literal found
(`/repo/starlit/src/prop/unit_prop.rs:153-180`), with the final `search_pos`. -/
inductive SearchResult where
  | isTrue (l : Lit) (pos : Nat)
  | unassigned (l : Lit) (pos : Nat)
  | none (pos : Nat)
deriving DecidableEq, Repr

/-- The search loop `for _ in 0..search_len` (`/repo/starlit/src/prop/unit_prop.rs:153-180`); the
first argument is the number of remaining iterations. -/
def searchLit (values : PartialAssignment) (ls : List Lit) (searchLen : Nat) :
    Nat → Nat → M SearchResult
  | 0, pos => pure (.none pos)
  | k + 1, pos => do
    let l ← idx ls (2 + pos)
    if ← values.isFalse l then
      searchLit values ls searchLen k (if pos + 1 = searchLen then 0 else pos + 1)
    else if ← values.isTrue l then pure (.isTrue l pos)
    else pure (.unassigned l pos)

/-- What happens to the visited watch (`MutScan` item): kept with a blocking literal, removed, or
kept with the loop stopping at a conflict. -/
inductive VisitResult where
  | keep (w : Watch)
  | remove
  | conflict (w : Watch)
deriving DecidableEq, Repr

/-- The body of the loop of `propagate_long_clauses` for one watch
(`/repo/starlit/src/prop/unit_prop.rs:119-212`). -/
def visitWatch (watched : Lit) (w : Watch) (p : PropState) : M (PropState × VisitResult) := do
  if ← p.values.isTrue w.blocking then pure (p, .keep w)
  else do
    let (h, ls) ← Long.headerAndLits p.long w.clause
    if ls.length < 2 then pure (p, .remove)
    else do
      let l0 ← idx ls 0
      let l1 ← idx ls 1
      debugM (watched == l0 || watched == l1)
      let other := watched.selectOther l0 l1
      if ← p.values.isTrue other then pure (p, .keep { w with blocking := other })
      else do
        let searchLen := ls.length - 2
        match ← searchLit p.values ls searchLen searchLen h.searchPos with
        | .isTrue l pos => do
          let a ← Long.modHeader p.long w.clause (·.setSearchPos pos)
          pure ({ p with long := a }, .keep { w with blocking := l })
        | .unassigned l pos => do
          let ws ← p.watches.push l { w with blocking := other }
          let a ← Long.modHeader p.long w.clause (·.setSearchPos pos)
          let ls ← upd ls 0 l
          let ls ← upd ls 1 other
          let ls ← upd ls (2 + pos) watched
          let a ← Long.setLits a w.clause ls
          pure ({ p with long := a, watches := ws }, .remove)
        | .none pos => do
          let a ← Long.modHeader p.long w.clause (·.setSearchPos pos)
          let p := { p with long := a }
          if ← p.values.isFalse other then pure (p, .conflict w)
          else do
            let ls ← upd ls 0 other
            let ls ← upd ls 1 watched
            let a ← Long.setLits p.long w.clause ls
            let p := { p with long := a }
            let p ← p.assign ⟨other, p.trail.decisionLevel, .long w.clause⟩
            pure (p, .keep w)

/-- The loop of `propagate_long_clauses` (`/repo/starlit/src/prop/unit_prop.rs:84-215`) over the
taken watch list; `kept` are the watches passed to `keep` so far.  After a `break`, dropping the
`MutScan` keeps the remaining watches (property C32). -/
def propagateLongLoop (watched : Lit) : List Watch → List Watch → PropState →
    M (PropState × List Watch × Option ConflictClause)
  | [], kept, p => pure (p, kept, none)
  | w :: ws, kept, p => do
    let (p, r) ← visitWatch watched w p
    match r with
    | .keep w => propagateLongLoop watched ws (kept ++ [w]) p
    | .remove => propagateLongLoop watched ws kept p
    | .conflict w => pure (p, kept ++ w :: ws, some (.long w.clause))

/-- `propagate_long_clauses` (`/repo/starlit/src/prop/unit_prop.rs:78-220`), with `take` and
`restore` (`/repo/starlit/src/prop/watch.rs:76-86`). -/
def propagateLong (p : PropState) (l : Lit) : M (PropState × Option ConflictClause) := do
  let watched := l.neg
  debugM p.watches.enabled
  let ws ← idx p.watches.byLit watched.code
  let byLit ← upd p.watches.byLit watched.code []
  let (p, kept, r) ← propagateLongLoop watched ws []
    { p with watches := { p.watches with byLit := byLit } }
  debugM p.watches.enabled
  let now ← idx p.watches.byLit l.neg.code
  debugM now.isEmpty
  let byLit ← upd p.watches.byLit l.neg.code kept
  pure ({ p with watches := { p.watches with byLit := byLit } }, r)

/-- `propagate_literal` (`/repo/starlit/src/prop/unit_prop.rs:39-42`) and
`propagate_binary_clauses` (`46-74`). -/
def propagateLiteral (p : PropState) (l : Lit) : M (PropState × Option ConflictClause) := do
  let others ← idx p.binary l.neg.code
  match ← propagateBinary l.neg others p with
  | (p, some c) => pure (p, some c)
  | (p, none) => propagateLong p l

/-- The loop of `propagate` (`/repo/starlit/src/prop/unit_prop.rs:21-24`).  Every iteration but the
last advances `propagated`, which is bounded by the length of the trail, so `fuel` is a bound on the
final length. -/
def propagateLoop : Nat → PropState → M (PropState × Option ConflictClause)
  | 0, _ => throw .fuel
  | fuel + 1, p =>
    match p.trail.steps[p.trail.propagated]? with
    | none => pure (p, none)
    | some s => do
      match ← propagateLiteral p s.lit with
      | (p, some c) => pure (p, some c)
      | (p, none) => do
        debugM (decide (p.trail.propagated < p.trail.steps.length))
        propagateLoop fuel
          { p with trail := { p.trail with propagated := p.trail.propagated + 1 } }

/-- `propagate` (`/repo/starlit/src/prop/unit_prop.rs:16-35`).  The statistics are only updated when
there is no conflict.  `debugM` is the overflow check of the subtraction in line 26. -/
def propagate (ctx : Ctx) (p : PropState) : M (Ctx × PropState × Option ConflictClause) := do
  let p ← enableWatchLists p true
  let previous := p.trail.propagated
  let (p, r) ← propagateLoop (p.trail.steps.length + p.trail.trailIndex.length + 1) p
  match r with
  | some c => pure (ctx, p, some c)
  | none => do
    debugM (decide (previous ≤ p.trail.propagated))
    let ctx := { ctx with prop := { ctx.prop with
      propagations := ctx.prop.propagations + (p.trail.propagated - previous) } }
    let ctx := if p.trail.decisionLevel = 0 then
        { ctx with prop := { ctx.prop with fixedVars := p.trail.fixedVarCount } }
      else ctx
    pure (ctx, p, none)

end Starlit
