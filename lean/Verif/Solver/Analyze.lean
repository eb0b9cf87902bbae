import Mathlib.Data.Nat.Basic
import Verif.Solver.Prop

/-!
# Decision heuristics and conflict analysis

Model of `/repo/starlit/src/search/vsids.rs`, `search/phases.rs`, `glue.rs`, `minimize.rs` and
`conflict_analysis.rs`.
-/

namespace Starlit

/-- What the solver model leaves open: the `f32` arithmetic of VSIDS on bit patterns, the `f64`
computation of the reduction interval, and the order in which `select_nth_unstable` leaves the
elements above the selected one.  All theorems hold for every choice.  (C41 is about the real `f32`
operations.) -/
structure Env where
  /-- Bits of `1.0`, the initial increment (`/repo/starlit/src/search/vsids.rs:64`). -/
  one : Nat
  /-- `activity += self.increment` (`/repo/starlit/src/search/vsids.rs:89`). -/
  add : Nat → Nat → Nat
  /-- `… > RESCALE_LIMIT` (`/repo/starlit/src/search/vsids.rs:91`, `106`). -/
  aboveLimit : Nat → Bool
  /-- `… *= RESCALE_FACTOR` (`/repo/starlit/src/search/vsids.rs:130`, `135`). -/
  rescale : Nat → Nat
  /-- `self.increment *= INVERSE_DECAY` (`/repo/starlit/src/search/vsids.rs:105`). -/
  decay : Nat → Nat
  /-- `(2000.0 * (reductions as f64).sqrt()) as u64` (`/repo/starlit/src/state.rs:70`). -/
  reduceInterval : Nat → Nat
  /-- Order of the elements above the selected one after `select_nth_unstable`
  (`/repo/starlit/src/search/reduce.rs:68`). -/
  order : List (Nat × Nat) → List (Nat × Nat)
  order_perm : ∀ l, (order l).Perm l

/-! ## VSIDS -/

/-- `Vsids` (`/repo/starlit/src/search/vsids.rs:51-58`). -/
structure Vsids where
  activity : Heap Nat
  increment : Nat
deriving DecidableEq, Repr

namespace Vsids

/-- `rescale` (`/repo/starlit/src/search/vsids.rs:126-136`). -/
def doRescale (env : Env) (v : Vsids) : Vsids :=
  { activity := v.activity.applyMonotone env.rescale, increment := env.rescale v.increment }

/-- `bump_var` (`/repo/starlit/src/search/vsids.rs:83-101`). -/
def bumpVar (env : Env) (v : Vsids) (x : Nat) : M Vsids := do
  let old ← v.activity.get x
  let activity ← v.activity.increase x (fun a => env.add a v.increment)
  let v := { v with activity := activity }
  if env.aboveLimit (env.add old v.increment) then pure (v.doRescale env) else pure v

/-- `decay` (`/repo/starlit/src/search/vsids.rs:104-109`). -/
def doDecay (env : Env) (v : Vsids) : Vsids :=
  let v := { v with increment := env.decay v.increment }
  if env.aboveLimit v.increment then v.doRescale env else v

/-- The loop of `pop_decision_var` (`/repo/starlit/src/search/vsids.rs:112-121`); every iteration
removes an element of the heap. -/
def popLoop (values : PartialAssignment) : Nat → Heap Nat → M (Option Nat × Heap Nat)
  | 0, _ => throw .fuel
  | fuel + 1, h => do
    match ← h.popMax with
    | (none, h) => pure (none, h)
    | (some x, h) => do
      if ← values.isAssigned x then popLoop values fuel h else pure (some x, h)

/-- `pop_decision_var` (`/repo/starlit/src/search/vsids.rs:112-121`). -/
def popDecisionVar (v : Vsids) (values : PartialAssignment) : M (Option Nat × Vsids) := do
  let (r, h) ← popLoop values (v.activity.heap.length + 1) v.activity
  pure (r, { v with activity := h })

end Vsids

/-- `Callbacks` (`/repo/starlit/src/search.rs:88-91`): VSIDS and saved phases
(`Phases`, `/repo/starlit/src/search/phases.rs:12-15`). -/
structure Callbacks where
  vsids : Vsids
  phases : List Bool
deriving DecidableEq, Repr

/-- `Callbacks::unassign` (`/repo/starlit/src/search.rs:93-98`, `search/vsids.rs:69-73`,
`search/phases.rs:23-30`). -/
def Callbacks.unassign (cb : Callbacks) (l : Lit) : M Callbacks := do
  let activity ← cb.vsids.activity.enqueue l.index
  let phases ← upd cb.phases l.index l.isPositive
  pure { vsids := { cb.vsids with activity := activity }, phases := phases }

/-- `decide_phase` (`/repo/starlit/src/search/phases.rs:36-38`). -/
def decidePhase (phases : List Bool) (v : Nat) : M Lit := do
  let b ← idx phases v
  pure (Lit.fromVar ⟨BitVec.ofNat 32 v⟩ b)

/-! ## Backtracking -/

/-- The loop of `backtrack_to_level` (`/repo/starlit/src/prop/trail.rs:287-298`) over the drained
steps. -/
def undoLoop : List Step → PartialAssignment → Callbacks → M (PartialAssignment × Callbacks)
  | [], values, cb => pure (values, cb)
  | s :: ss, values, cb => do
    let cb ← cb.unassign s.lit
    let values ← values.unassign s.lit.index
    undoLoop ss values cb

/-- `backtrack_to_level` (`/repo/starlit/src/prop/trail.rs:270-303`). -/
def backtrackToLevel (p : PropState) (level : Nat) (cb : Callbacks) :
    M (PropState × Callbacks) := do
  assertM (decide (level < p.trail.decisionLevel))
  let target ← idx p.trail.decisions (level + 1)
  assertM (decide (target ≤ p.trail.steps.length))
  let (values, cb) ← undoLoop (p.trail.steps.drop target) p.values cb
  pure ({ p with
    values := values
    trail := { p.trail with
      steps := p.trail.steps.take target
      decisions := p.trail.decisions.take (level + 1)
      propagated := min p.trail.propagated target } }, cb)

/-! ## Glue -/

/-- First loop of `compute_glue` (`/repo/starlit/src/glue.rs:16-20`). -/
def glueMark (t : Trail) : List Lit → List Bool → Nat → M (List Bool × Nat)
  | [], tmp, glue => pure (tmp, glue)
  | l :: ls, tmp, glue => do
    let s ← t.stepForVar l.index
    let old ← idx tmp s.level
    let tmp ← upd tmp s.level true
    glueMark t ls tmp (if old then glue else glue + 1)

/-- Second loop of `compute_glue` (`/repo/starlit/src/glue.rs:22-24`). -/
def glueClear (t : Trail) : List Lit → List Bool → M (List Bool)
  | [], tmp => pure tmp
  | l :: ls, tmp => do
    let s ← t.stepForVar l.index
    let tmp ← upd tmp s.level false
    glueClear t ls tmp

/-- `compute_glue` (`/repo/starlit/src/glue.rs:14-26`). -/
def computeGlue (t : Trail) (ls : List Lit) (tmp : List Bool) : M (Nat × List Bool) := do
  let (tmp, glue) ← glueMark t ls tmp 0
  let tmp ← glueClear t ls tmp
  pure (glue, tmp)

/-! ## Minimisation -/

/-- `MinimizeClause` (`/repo/starlit/src/minimize.rs:31-45`).  The `stack` buffer is empty between
calls and only kept for its allocation; it is left out. -/
structure Minimize where
  firstOnLevel : List Nat
  cache : List (Option Bool)
  toClean : List Nat
deriving DecidableEq, Repr

namespace Minimize

/-- `minimize.cache[index] = Some(b); minimize.to_clean.push(index);`
(e.g. `/repo/starlit/src/minimize.rs:174-175`). -/
def setCache (m : Minimize) (index : Nat) (b : Bool) : M Minimize := do
  let cache ← upd m.cache index (some b)
  pure { m with cache := cache, toClean := m.toClean ++ [index] }

/-- `literal_index_is_redundant_cached` (`/repo/starlit/src/minimize.rs:116-138`). -/
def cached (m : Minimize) (t : Trail) (index : Nat) : M (Option Bool) := do
  match ← idx m.cache index with
  | some b => pure (some b)
  | none => do
    let s ← idx t.steps index
    let first ← idx m.firstOnLevel s.level
    if first > index then pure (some false)
    else if s.level = 0 then pure (some true)
    else pure none

/-- The lookahead loop (`/repo/starlit/src/minimize.rs:169-181`, `262-277`): `some false` when a
literal is known not to be redundant, otherwise whether all are known to be redundant
(`some true`/`none`). -/
def lookahead (m : Minimize) (t : Trail) : List Lit → Option Bool → M (Option Bool)
  | [], acc => pure acc
  | l :: ls, acc => do
    let i ← t.indexOf l.index
    match ← m.cached t i with
    | some false => pure (some false)
    | some true => lookahead m t ls acc
    | none => lookahead m t ls none

/-- `return_false!` (`/repo/starlit/src/minimize.rs:226-240`); the stack is drained from its
bottom. -/
def failStack (m : Minimize) : List (Nat × List Lit) → M Minimize
  | [] => pure m
  | (i, _) :: rest => do
    let m ← m.setCache i false
    failStack m rest

/-- The loops of `literal_index_is_redundant_iter` (`/repo/starlit/src/minimize.rs:246-297`).  The
head of `stack` is the top of the Rust stack; `(i, ls)` is `top`. -/
def iterLoop (p : PropState) : Nat → Minimize → List (Nat × List Lit) → Nat → List Lit →
    M (Minimize × Bool)
  | 0, _, _, _, _ => throw .fuel
  | fuel + 1, m, stack, i, [] => do
    let m ← m.setCache i true
    match stack with
    | [] => pure (m, true)
    | (i', ls') :: stack' => iterLoop p fuel m stack' i' ls'
  | fuel + 1, m, stack, i, l :: ls => do
    let j ← p.trail.indexOf l.index
    match ← m.cached p.trail j with
    | some true => iterLoop p fuel m stack i ls
    | some false => do
      let m ← m.setCache i false
      let m ← m.failStack stack.reverse
      pure (m, false)
    | none => do
      let s ← idx p.trail.steps j
      let rs ← p.reasonLits s.reason
      match ← m.lookahead p.trail rs (some true) with
      | some false => do
        let m ← m.setCache j false
        let m ← m.setCache i false
        let m ← m.failStack stack.reverse
        pure (m, false)
      | some true => do
        let m ← m.setCache j true
        iterLoop p fuel m stack i ls
      | none => iterLoop p fuel m ((i, ls) :: stack) j rs

/-- Fuel that suffices for `iterLoop` started at trail index `i`. -/
def iterFuel (p : PropState) (i : Nat) : Nat := (p.long.buffer.length + 4) ^ (i + 1)

/-- The second loop of `literal_index_is_redundant_rec_uncached`
(`/repo/starlit/src/minimize.rs:192-199`), with `f` for the recursive call on a trail index. -/
def allRedundant (t : Trail) (f : Minimize → Nat → M (Minimize × Bool)) :
    List Lit → Minimize → M (Minimize × Bool)
  | [], m => pure (m, true)
  | l :: ls, m => do
    let i ← t.indexOf l.index
    let (m, b) ← f m i
    if b then allRedundant t f ls m else pure (m, false)

/-- `literal_index_is_redundant_rec` (`/repo/starlit/src/minimize.rs:144-155`), with `f` for
`literal_index_is_redundant_rec_uncached`. -/
def redundantRec (t : Trail) (f : Minimize → Nat → M (Minimize × Bool)) (m : Minimize) (i : Nat) :
    M (Minimize × Bool) := do
  match ← m.cached t i with
  | some b => pure (m, b)
  | none => f m i

/-- `literal_index_is_redundant_rec_uncached` (`/repo/starlit/src/minimize.rs:159-205`).  The first
argument is `21 - depth`, so `depth > 20` is `0`. -/
def redundantUncached (p : PropState) : Nat → Minimize → Nat → M (Minimize × Bool)
  | 0, m, i => do
    let s ← idx p.trail.steps i
    let rs ← p.reasonLits s.reason
    match ← m.lookahead p.trail rs (some true) with
    | some false => do
      let m ← m.setCache i false
      pure (m, false)
    | some true => do
      let m ← m.setCache i true
      pure (m, true)
    | none => iterLoop p (iterFuel p i) m [] i rs
  | r + 1, m, i => do
    let s ← idx p.trail.steps i
    let rs ← p.reasonLits s.reason
    match ← m.lookahead p.trail rs (some true) with
    | some false => do
      let m ← m.setCache i false
      pure (m, false)
    | some true => do
      let m ← m.setCache i true
      pure (m, true)
    | none => do
      let (m, b) ← allRedundant p.trail (redundantRec p.trail (redundantUncached p r)) rs m
      let m ← m.setCache i b
      pure (m, b)

/-- The closure passed to `retain` (`/repo/starlit/src/minimize.rs:74-90`). -/
def retainLit (p : PropState) (m : Minimize) (l : Lit) : M (Minimize × Bool) := do
  let i ← p.trail.indexOf l.index
  let s ← idx p.trail.steps i
  let first ← idx m.firstOnLevel s.level
  if first > i then do
    let f ← upd m.firstOnLevel s.level i
    let m ← { m with firstOnLevel := f }.setCache i true
    pure (m, true)
  else do
    let (m, b) ← redundantUncached p 21 m i
    let m ← m.setCache i true
    pure (m, !b)

/-- `clause.retain(..)` (`/repo/starlit/src/minimize.rs:74-90`). -/
def retainLoop (p : PropState) : List Lit → Minimize → M (Minimize × List Lit)
  | [], m => pure (m, [])
  | l :: ls, m => do
    let (m, b) ← retainLit p m l
    let (m, ls) ← retainLoop p ls m
    pure (m, if b then l :: ls else ls)

/-- `for index in minimize.to_clean.drain(..)` (`/repo/starlit/src/minimize.rs:95-97`). -/
def cleanCache : List Nat → List (Option Bool) → M (List (Option Bool))
  | [], cache => pure cache
  | i :: is, cache => do
    let cache ← upd cache i none
    cleanCache is cache

/-- `for &lit in clause.iter()` (`/repo/starlit/src/minimize.rs:99-104`). -/
def cleanLevels (t : Trail) : List Lit → List Nat → M (List Nat)
  | [], f => pure f
  | l :: ls, f => do
    let s ← t.stepForVar l.index
    let f ← upd f s.level UNASSIGNED
    cleanLevels t ls f

/-- Insertion into a list of pairs ordered by the first component. -/
def insertKey (x : Nat × Lit) : List (Nat × Lit) → List (Nat × Lit)
  | [] => [x]
  | y :: ys => if x.1 ≤ y.1 then x :: y :: ys else y :: insertKey x ys

/-- `sort_unstable_by_key(|lit| trail_index(lit.var()))` (`/repo/starlit/src/minimize.rs:70`):
literals paired with their keys, in ascending order.  The keys of the literals of a derived clause
are distinct, so stability does not matter. -/
def sortByIndex (t : Trail) : List Lit → M (List (Nat × Lit))
  | [] => pure []
  | l :: ls => do
    let i ← t.indexOf l.index
    let ls ← sortByIndex t ls
    pure (insertKey (i, l) ls)

/-- Resizing of the buffers (`/repo/starlit/src/minimize.rs:56-67`). -/
def prepare (m : Minimize) (t : Trail) : M Minimize := do
  let f := if m.firstOnLevel.length ≤ t.decisionLevel then
      Heap.resizeList m.firstOnLevel (t.decisionLevel + 1) UNASSIGNED
    else m.firstOnLevel
  let f ← upd f 0 0
  let cache := if m.cache.length ≤ t.steps.length then
      Heap.resizeList m.cache t.steps.length none
    else m.cache
  pure { m with firstOnLevel := f, cache := cache }

/-- `minimize` (`/repo/starlit/src/minimize.rs:50-110`): returns the new clause and the backtrack
level. -/
def minimize (m : Minimize) (clause : List Lit) (p : PropState) : M (Minimize × List Lit × Nat) := do
  let m ← m.prepare p.trail
  let keyed ← sortByIndex p.trail clause
  let sorted := keyed.map (·.2)
  match sorted.getLast? with
  | none => throw .panic
  | some propagated => do
    let (m, kept) ← retainLoop p sorted.dropLast m
    let clause := kept ++ [propagated]
    let cache ← cleanCache m.toClean m.cache
    let f ← cleanLevels p.trail clause m.firstOnLevel
    let clause := clause.reverse
    let l ← idx clause 1
    let s ← p.trail.stepForVar l.index
    pure ({ firstOnLevel := f, cache := cache, toClean := [] }, clause, s.level)

end Minimize

/-! ## Conflict analysis -/

/-- `ConflictAnalysis` (`/repo/starlit/src/conflict_analysis.rs:36-60`). -/
structure Analysis where
  currentClauseLits : List Bool
  glueLevelFlags : List Bool
  derivedClause : List Lit
  currentLevelLitCount : Nat
  minimize : Minimize
deriving DecidableEq, Repr

namespace Analysis

/-- `ConflictAnalysis::default()` (`/repo/starlit/src/conflict_analysis.rs:35`). -/
def default : Analysis := ⟨[], [], [], 0, ⟨[], [], []⟩⟩

/-- `update_trail_len` (`/repo/starlit/src/conflict_analysis.rs:64-73`). -/
def updateTrailLen (an : Analysis) (t : Trail) : Analysis :=
  { an with
    currentClauseLits := Heap.resizeList an.currentClauseLits
      (max an.currentClauseLits.length t.steps.length) false
    glueLevelFlags := Heap.resizeList an.glueLevelFlags
      (max an.glueLevelFlags.length (t.decisionLevel + 1)) false }

/-- `bump_long_clause` (`/repo/starlit/src/conflict_analysis.rs:193-202`). -/
def bumpLongClause (an : Analysis) (p : PropState) (c : Nat) : M (Analysis × PropState) := do
  let (_, ls) ← Long.headerAndLits p.long c
  let (glue, tmp) ← computeGlue p.trail ls an.glueLevelFlags
  let a ← Long.modHeader p.long c (fun h => (h.setGlue glue).setUsed ((h.setGlue glue).used + 1))
  pure ({ an with glueLevelFlags := tmp }, { p with long := a })

/-- `add_literal` (`/repo/starlit/src/conflict_analysis.rs:212-239`). -/
def addLiteral (env : Env) (an : Analysis) (t : Trail) (l : Lit) (cb : Callbacks) :
    M (Analysis × Callbacks) := do
  let i ← t.indexOf l.index
  let s ← idx t.steps i
  if s.level = 0 then pure (an, cb)
  else do
    let old ← idx an.currentClauseLits i
    let flags ← upd an.currentClauseLits i true
    let an := { an with currentClauseLits := flags }
    if old then pure (an, cb)
    else do
      let vsids ← cb.vsids.bumpVar env l.index
      let cb := { cb with vsids := vsids }
      if s.level = t.decisionLevel then
        pure ({ an with currentLevelLitCount := an.currentLevelLitCount + 1 }, cb)
      else pure ({ an with derivedClause := an.derivedClause ++ [l] }, cb)

/-- `for &lit in …lits(prop) { add_literal(..) }`
(`/repo/starlit/src/conflict_analysis.rs:132-134`, `182-184`). -/
def addLiterals (env : Env) (t : Trail) : List Lit → Analysis → Callbacks →
    M (Analysis × Callbacks)
  | [], an, cb => pure (an, cb)
  | l :: ls, an, cb => do
    let (an, cb) ← addLiteral env an t l cb
    addLiterals env t ls an cb

/-- `for &lit in &analysis.derived_clause` (`/repo/starlit/src/conflict_analysis.rs:164-167`). -/
def clearFlags (t : Trail) : List Lit → List Bool → M (List Bool)
  | [], flags => pure flags
  | l :: ls, flags => do
    let i ← t.indexOf l.index
    let flags ← upd flags i false
    clearFlags t ls flags

/-- `if let Reason::Long(reason) = step.reason { bump_long_clause(..) }`
(`/repo/starlit/src/conflict_analysis.rs:174-181`). -/
def bumpReason (an : Analysis) (p : PropState) : Reason → M (Analysis × PropState)
  | .long c => bumpLongClause an p c
  | _ => pure (an, p)

/-- The loop of `derive_1uip_clause` (`/repo/starlit/src/conflict_analysis.rs:142-186`) over the
trail indices below the first argument, in descending order. -/
def uipLoop (env : Env) : Nat → Analysis → PropState → Callbacks →
    M (Analysis × PropState × Callbacks)
  | 0, an, p, cb => pure (an, p, cb)
  | k + 1, an, p, cb => do
    let flag ← idx an.currentClauseLits k
    let flags ← upd an.currentClauseLits k false
    let an := { an with currentClauseLits := flags }
    if flag then do
      let s ← idx p.trail.steps k
      if an.currentLevelLitCount = 0 then throw .panic
      else
        let an := { an with currentLevelLitCount := an.currentLevelLitCount - 1 }
        if an.currentLevelLitCount = 0 then do
          let flags ← clearFlags p.trail an.derivedClause an.currentClauseLits
          pure ({ an with
            currentClauseLits := flags
            derivedClause := an.derivedClause ++ [s.lit.neg] }, p, cb)
        else do
          let (an, p) ← bumpReason an p s.reason
          let ls ← p.reasonLits s.reason
          let (an, cb) ← addLiterals env p.trail ls an cb
          uipLoop env k an p cb
    else uipLoop env k an p cb

/-- `if let ConflictClause::Long(conflict) = conflict { bump_long_clause(..) }`
(`/repo/starlit/src/conflict_analysis.rs:124-131`). -/
def bumpConflict (an : Analysis) (p : PropState) : ConflictClause → M (Analysis × PropState)
  | .long c => bumpLongClause an p c
  | .binary _ _ => pure (an, p)

/-- `derive_1uip_clause` (`/repo/starlit/src/conflict_analysis.rs:110-191`). -/
def derive1uip (env : Env) (an : Analysis) (p : PropState) (conflict : ConflictClause)
    (cb : Callbacks) : M (Analysis × PropState × Callbacks) := do
  let an := { an with derivedClause := [] }.updateTrailLen p.trail
  let (an, p) ← bumpConflict an p conflict
  let ls ← conflict.lits p
  let (an, cb) ← addLiterals env p.trail ls an cb
  let (an, p, cb) ← uipLoop env p.trail.steps.length an p cb
  assertM (decide (an.currentLevelLitCount = 0))
  pure (an, p, cb)

/-- `minimize_derived_clause` (`/repo/starlit/src/conflict_analysis.rs:270-280`). -/
def minimizeDerived (an : Analysis) (p : PropState) : M (Analysis × Nat) :=
  if an.derivedClause.length > 1 then do
    let (m, clause, level) ← an.minimize.minimize an.derivedClause p
    pure ({ an with minimize := m, derivedClause := clause }, level)
  else pure (an, 0)

/-- The header of the learned clause (`/repo/starlit/src/conflict_analysis.rs:289-297`). -/
def learnedHeader (an : Analysis) (p : PropState) : M (Analysis × LongHeader) :=
  if an.derivedClause.length > 2 then do
    let (glue, tmp) ← computeGlue p.trail an.derivedClause.tail an.glueLevelFlags
    pure ({ an with glueLevelFlags := tmp }, LongHeader.newLearnedClause.setGlue glue)
  else pure (an, LongHeader.newLearnedClause)

/-- `debug_assert!(prop.values.is_false(lit))` for all literals
(`/repo/starlit/src/conflict_analysis.rs:285-287`). -/
def debugFalse (values : PartialAssignment) : List Lit → M Unit
  | [] => pure ()
  | l :: ls => do
    debugM (← values.isFalse l)
    debugFalse values ls

/-- The debug assertions for the learned clause (`/repo/starlit/src/conflict_analysis.rs:284-287`), and for
a unit clause the debug assertion of `assign` (`/repo/starlit/src/prop/trail.rs:234`), which
`addClauseVerbatim` leaves out. -/
def debugLearned (values : PartialAssignment) : List Lit → M Unit
  | [] => throw .debug
  | [a] => do debugM (!(← values.isAssigned a.index))
  | _ :: ls => debugFalse values ls

/-- `learn_and_assign` (`/repo/starlit/src/conflict_analysis.rs:283-322`). -/
def learnAndAssign (ctx : Ctx) (an : Analysis) (p : PropState) : M (Ctx × Analysis × PropState) := do
  debugLearned p.values an.derivedClause
  let (an, h) ← an.learnedHeader p
  let ctx := ctx.logProof (.add an.derivedClause)
  let (ctx, p, added) ← addClauseVerbatim ctx p h an.derivedClause
  match added with
  | .empty => pure (ctx, an, p)
  | .unit _ => pure (ctx, an, p)
  | .binary _ b => do
    let l ← idx an.derivedClause 0
    let p ← p.assign ⟨l, p.trail.decisionLevel, .binary b⟩
    pure (ctx, an, p)
  | .long c => do
    let l ← idx an.derivedClause 0
    let p ← p.assign ⟨l, p.trail.decisionLevel, .long c⟩
    pure (ctx, an, p)

/-- `analyze_conflict` (`/repo/starlit/src/conflict_analysis.rs:82-104`).  The branch
`prepare_for_backtracking` is dead (`if true`) and modelled separately, see
`prepareForBacktracking`. -/
def analyzeConflict (env : Env) (ctx : Ctx) (an : Analysis) (p : PropState)
    (conflict : ConflictClause) (cb : Callbacks) : M (Ctx × Analysis × PropState × Callbacks) := do
  assertM (decide (p.trail.decisionLevel ≠ 0))
  let (an, p, cb) ← derive1uip env an p conflict cb
  let cb := { cb with vsids := cb.vsids.doDecay env }
  let (an, level) ← an.minimizeDerived p
  let (p, cb) ← backtrackToLevel p level cb
  let (ctx, an, p) ← learnAndAssign ctx an p
  pure (ctx, an, p, cb)

end Analysis

end Starlit
