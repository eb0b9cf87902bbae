import Verif.Solver.Example

/-!
# The unit tests of the crate, run on the model

The tests of `/repo/starlit/src` (all but that of the Luby sequence, which is beside C27), evaluated by the kernel on the
model.  These are no proofs of properties: they check that the model computes what the authors of the code
expect.  Where a test compares sorted lists, the lists are compared up to order.
-/

namespace Starlit.UnitTests

open Example (lit)

/-- `clause!` (`/repo/starlit/src/clause_arena.rs:628-632`). -/
def clause (ls : List Int) : List Lit := ls.map lit

/-! ## The clause arena -/

/-- `TestHeader` has one word (`/repo/starlit/src/clause_arena.rs:615-625`). -/
abbrev hl : Nat := 1

/-- `TestHeader::shrink_clause`. -/
def shrinkHeader (_ : List Word) (_old new : Nat) : List Word := [BitVec.ofNat 32 new]

/-- The loops that add the input clauses. -/
def addAll : List (List Lit) → Arena → M (Arena × List Nat)
  | [], a => pure (a, [])
  | c :: cs, a => do
    match ← Arena.addClause a [0#32] c with
    | some (a, r) => do
      let (a, rs) ← addAll cs a
      pure (a, r :: rs)
    | none => throw .arenaFull

/-- The loops `while let Some(clause_ref) = long_clauses.next_clause(&mut current_clause)`. -/
def iterate (a : Arena) : Nat → Option Nat → M (List (Nat × List Lit))
  | 0, _ => throw .arenaFull
  | fuel + 1, c => do
    match ← Arena.nextClause hl a c with
    | none => pure []
    | some r => do
      let ls ← Arena.lits hl a r
      let (_, ls') ← Arena.headerAndLits hl a r
      assertM (decide (ls = ls'))
      let rest ← iterate a fuel (some r)
      pure ((r, ls) :: rest)

/-- `iter_clauses` (`/repo/starlit/src/clause_arena.rs:635-667`). -/
theorem iter_clauses : (do
    let input := [clause [1, 2, 3], clause [4, 5, 6, 7], clause [8, 9, 10, 11, 12]]
    let (a, refs) ← addAll input .empty
    let found ← iterate a 100 none
    pure (decide (found = refs.zip input)) : M Bool) = .ok true := by decide +kernel

/-- `shrink_clauses` (`/repo/starlit/src/clause_arena.rs:670-706`). -/
theorem shrink_clauses : (do
    let input := [clause [8, 9, 10, 11, 12, 13, 14, 15], clause [1, 2, 3], clause [4, 5, 6, 7],
      clause [16, 17, 18, 19, 20]]
    let lens := [5, 3, 3, 4]
    let (a, refs) ← addAll input .empty
    let a ← (refs.zip lens).foldlM (fun a (r, n) => Arena.shrinkClause hl shrinkHeader a r n) a
    let found ← iterate a 100 none
    pure (decide (found = refs.zip (List.zipWith List.take lens input))) : M Bool) = .ok true := by decide +kernel

/-- The clauses of the last three tests. -/
def six : List (List Lit) :=
  [clause [8, 9, 10, 11, 12, 13, 14, 15], clause [1, 2, 3], clause [4, 5, 6, 7], clause [21, 22, 23],
    clause [16, 17, 18, 19, 20], clause [24, 25, 26]]

/-- The elements whose positions are not in a list. -/
def without {α : Type} (is : List Nat) (xs : List α) : List α :=
  (xs.zipIdx.filter fun x => !is.contains x.2).map Prod.fst

/-- `delete_clauses` (`/repo/starlit/src/clause_arena.rs:709-752`). -/
theorem delete_clauses : (do
    let (a, refs) ← addAll six .empty
    let a ← [2, 0, 3].foldlM (fun a i => do Arena.deleteClause hl a (← idx refs i)) a
    let gone ← [2, 0, 3].mapM (fun i => do Arena.lits hl a (← idx refs i))
    let found ← iterate a 100 none
    pure (decide (gone = [[], [], []] ∧ found = without [2, 0, 3] (refs.zip six))) : M Bool) = .ok true := by
  decide +kernel

/-- The loop that deletes clauses while it iterates (`/repo/starlit/src/clause_arena.rs:780-785`). -/
def deleteSome : Nat → Arena → Option Nat → M Arena
  | 0, _, _ => throw .arenaFull
  | fuel + 1, a, c => do
    match ← Arena.nextClause hl a c with
    | none => pure a
    | some r => do
      let l ← idx (← Arena.lits hl a r) 0
      let a ← if l.index % 2 = 0 then Arena.deleteClause hl a r else pure a
      deleteSome fuel a (some r)

/-- `delete_while_iterating` (`/repo/starlit/src/clause_arena.rs:755-793`). -/
theorem delete_while_iterating : (do
    let (a, refs) ← addAll six .empty
    let a ← deleteSome 100 a none
    let found ← iterate a 100 none
    pure (decide (found.map Prod.fst =
      ((refs.zip six).filter fun x => (x.2.headD (lit 1)).index % 2 != 0).map Prod.fst)) : M Bool) = .ok true := by
  decide +kernel

/-- `collect_deleted_clauses` (`/repo/starlit/src/clause_arena.rs:796-843`). -/
theorem collect_deleted_clauses : (do
    let (a, refs) ← addAll six .empty
    let a ← [2, 0, 3, 5].foldlM (fun a i => do Arena.deleteClause hl a (← idx refs i)) a
    let (a, gaps) ← Arena.collectGarbage hl a
    let found ← iterate a 100 none
    let moved ← (without [2, 0, 3, 5] refs).mapM (Arena.gapsUpdate gaps)
    let gone ← [2, 0, 3, 5].mapM (fun i => do Arena.gapsUpdate gaps (← idx refs i))
    pure (decide (found.map (fun x => (some x.1, x.2)) = moved.zip (without [2, 0, 3, 5] six) ∧
      gone = [none, none, none, none])) : M Bool) = .ok true := by decide +kernel

/-- `clause_ref_gc_map` (`/repo/starlit/src/clause_arena.rs:846-887`). -/
theorem clause_ref_gc_map :
    [0, 4, 5, 9, 10, 14, 15, 19, 20, 2 ^ 32 - 1].mapM (Arena.gapsUpdate [⟨5, 10, 5⟩, ⟨15, 20, 10⟩]) =
      .ok [some 0, some 4, none, none, some 5, some 9, none, none, some 10, some (2 ^ 32 - 11)] ∧
    [0, 4, 5].mapM (Arena.gapsUpdate [⟨0, 5, 5⟩, ⟨15, 20, 10⟩]) = .ok [none, none, some 0] := by
  decide +kernel

/-! ## The heap -/

/-- The loop `while let Some(index) = heap.pop_max()`. -/
def popAll : Nat → Heap Nat → M (List Nat)
  | 0, _ => pure []
  | fuel + 1, h => do
    match ← h.popMax with
    | (some i, h) => do
      let rest ← popAll fuel h
      pure (i :: rest)
    | (none, _) => pure []

/-- `enqueue_some_increase_pop` (`/repo/starlit/src/heap.rs:268-290`). -/
theorem enqueue_some_increase_pop : (do
    let h ← (Heap.empty : Heap Nat).resize 10 0
    let h ← (List.range 10).foldlM (fun h i => if i % 3 > 0 then h.enqueue i else pure h) h
    let h ← (List.range 10).foldlM (fun h i => h.increase i (· + 2 * i)) h
    popAll 11 h : M (List Nat)) = .ok [8, 7, 5, 4, 2, 1] := by decide +kernel

/-! ## Unit propagation -/

/-- `clauses!` (`/repo/starlit/src/prop/unit_prop.rs:236-250`). -/
def clauses (n : Nat) (cs : List (List Int)) : M (Ctx × PropState) :=
  cs.foldlM (fun (ctx, p) c => do
    let (ctx, p, _) ← addClauseVerbatim ctx p LongHeader.newInputClause (clause c)
    pure (ctx, p)) (Ctx.default, PropState.default.resize n)

/-- The literals on the trail, compared with a list as in `assert_assigned!` (`/repo/starlit/src/prop/unit_prop.rs:258-271`). -/
def assigned (p : PropState) (ls : List Int) : Bool := (p.trail.steps.map Step.lit).isPerm (clause ls)

/-- `simple_prop` (`/repo/starlit/src/prop/unit_prop.rs:274-286`). -/
theorem simple_prop : (do
    let (ctx, p) ← clauses 4 [[-1, 2], [-2, 3], [-2, -3, -4]]
    let p ← p.assignDecision (lit 1)
    let (_, p, r) ← propagate ctx p
    pure (r.isNone && assigned p [1, 2, 3, -4]) : M Bool) = .ok true := by decide +kernel

/-- `two_step_prop` (`/repo/starlit/src/prop/unit_prop.rs:289-306`). -/
theorem two_step_prop : (do
    let (ctx, p) ← clauses 7 [[-1, 2], [-2, 3], [-2, -3, -4, -5, -6, -7], [-4, 5], [-5, 6]]
    let p ← p.assignDecision (lit 1)
    let (ctx, p, r) ← propagate ctx p
    let p' ← p.assignDecision (lit 4)
    let (_, p', r') ← propagate ctx p'
    pure (r.isNone && assigned p [1, 2, 3] && r'.isNone && assigned p' [1, 2, 3, 4, 5, 6, -7]) : M Bool) =
      .ok true := by decide +kernel

/-- `binary_conflict` (`/repo/starlit/src/prop/unit_prop.rs:309-325`). -/
theorem binary_conflict : (do
    let (ctx, p) ← clauses 3 [[-1, 2], [-1, 3], [-2, -3]]
    let p ← p.assignDecision (lit 1)
    match ← propagate ctx p with
    | (_, _, some (.binary a b)) => pure ([a, b].isPerm (clause [-2, -3]))
    | _ => pure false : M Bool) = .ok true := by decide +kernel

/-- `long_conflict` (`/repo/starlit/src/prop/unit_prop.rs:328-356`). -/
theorem long_conflict : (do
    let (ctx, p) ← clauses 8
      [[-1, 2], [-1, 3], [-2, -3, 4], [-3, 5], [-4, -2, -3, -5, -1, -7, -8], [-6, 7], [-6, 8]]
    let p ← p.assignDecision (lit 1)
    let (ctx, p, r) ← propagate ctx p
    assertM r.isNone
    let p ← p.assignDecision (lit 6)
    match ← propagate ctx p with
    | (_, p, some (.long c)) => do
      let ls ← Long.lits p.long c
      pure (ls.isPerm (clause [-1, -2, -3, -4, -5, -7, -8]))
    | _ => pure false : M Bool) = .ok true := by decide +kernel

/-! ## Conflict analysis -/

/-- The tests pass `&mut ()` for the callbacks; the model has the callbacks of the search. -/
def callbacks (n : Nat) : M Callbacks := do
  let activity ← (Heap.empty : Heap Nat).resizeEnqueued n 0
  pure { vsids := { activity := activity, increment := 1 }, phases := List.replicate n false }

/-- `unit_clause` (`/repo/starlit/src/conflict_analysis.rs:356-382`). -/
theorem unit_clause : (do
    let (ctx, p) ← clauses 4 [[-1, 2], [-1, 3], [-2, -3], [-4, 1]]
    let p ← p.assignDecision (lit 4)
    match ← propagate ctx p with
    | (ctx, p, some c) => do
      let (ctx, an, p, _) ← Analysis.analyzeConflict Example.env ctx .default p c (← callbacks 4)
      let (_, p, r) ← propagate ctx p
      let st ← p.trail.stepForVar 0
      pure (decide (an.derivedClause = clause [-1]) && r.isNone && (← p.values.isTrue (lit (-1))) &&
        decide (st.reason = .unit) && (← p.values.isTrue (lit (-4))))
    | _ => pure false : M Bool) = .ok true := by decide +kernel

/-- `long_clause` (`/repo/starlit/src/conflict_analysis.rs:385-418`). -/
theorem long_clause : (do
    let (ctx, p) ← clauses 7 [[-1, 2], [-1, 3], [-2, -3, -4, -5], [-6, 7], [-7, 4], [-7, 5]]
    let p ← p.assignDecision (lit 1)
    let (ctx, p, r0) ← propagate ctx p
    assertM r0.isNone
    let p ← p.assignDecision (lit 6)
    match ← propagate ctx p with
    | (ctx, p, some c) => do
      let (ctx, an, p, _) ← Analysis.analyzeConflict Example.env ctx .default p c (← callbacks 7)
      let (_, p, r) ← propagate ctx p
      match (← p.trail.stepForVar 6).reason with
      | .long c => do
        let ls ← Long.lits p.long c
        pure (r.isNone && (← p.values.isTrue (lit (-7))) && decide (ls = an.derivedClause) &&
          an.derivedClause.isPerm (clause [-2, -3, -7]) && (← p.values.isTrue (lit (-6))))
      | _ => pure false
    | _ => pure false : M Bool) = .ok true := by decide +kernel

/-- `binary_clause` (`/repo/starlit/src/conflict_analysis.rs:421-456`). -/
theorem binary_clause : (do
    let (ctx, p) ← clauses 7 [[-1, 2], [-1, 3], [-2, -4, -5], [-6, 7], [-7, 4], [-7, 5]]
    let p ← p.assignDecision (lit 1)
    let (ctx, p, r0) ← propagate ctx p
    assertM r0.isNone
    let p ← p.assignDecision (lit 6)
    match ← propagate ctx p with
    | (ctx, p, some c) => do
      let (ctx, an, p, _) ← Analysis.analyzeConflict Example.env ctx .default p c (← callbacks 7)
      let (_, p, r) ← propagate ctx p
      let st ← p.trail.stepForVar 6
      pure (r.isNone && (← p.values.isTrue (lit (-7))) && decide (st.reason = .binary (lit (-2))) &&
        an.derivedClause.isPerm (clause [-2, -7]) && (← p.values.isTrue (lit (-6))))
    | _ => pure false : M Bool) = .ok true := by decide +kernel

end Starlit.UnitTests
