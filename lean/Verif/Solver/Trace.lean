import Verif.Solver.Output
import Verif.LitApi

/-!
# Log messages of the search

Models of the messages of the levels `verbose`, `debug` and `trace` that the solver logs, and of the
places where it logs them.
-/

namespace Starlit

/-- The messages that the solver logs besides progress reports. -/
inductive Event where
  /-- `debug!(ctx, "restart")` (`/repo/starlit/src/search.rs:112`). -/
  | restart
  /-- `debug!(ctx, "reduce")` (`/repo/starlit/src/search/reduce.rs:21`). -/
  | reduce
  /-- `debug!(ctx, "garbage collection", prop.long.utilization())` (`/repo/starlit/src/prop.rs:158`). -/
  | collect (allocated used : Nat)
  /-- `trace!(ctx, decision = lit)` (`/repo/starlit/src/search.rs:76`). -/
  | decision (l : Lit)
  /-- `trace!(ctx, "1-uip", clause = ..)` (`/repo/starlit/src/conflict_analysis.rs:190`). -/
  | uip (c : List Lit)
  /-- `trace!(ctx, "backtrack", from = .., to = ..)` (`/repo/starlit/src/prop/trail.rs:276-281`). -/
  | backtrack (src dst : Nat)
  /-- `verbose!(ctx, "unsatisfiable")` (`/repo/starlit/src/search.rs:55`). -/
  | unsat
  /-- `verbose!(ctx, "satisfiable")` (`/repo/starlit/src/search.rs:81`). -/
  | sat
deriving DecidableEq, Repr

namespace Event

/-- The level of a message (see `Event`). -/
def level : Event → LogLevel
  | restart | reduce | collect _ _ => .debug
  | decision _ | uip _ | backtrack _ _ => .trace
  | unsat | sat => .verbose

/-- `{:?}` of a slice (`core::fmt`): the elements separated by a comma and a space, in brackets. -/
def debugList : List (List Byte) → List Byte
  | [] => Logger.text "[]"
  | x :: xs => Logger.text "[" ++ x ++ (xs.flatMap (Logger.text ", " ++ ·)) ++ Logger.text "]"

/-- The items of a message (see `Event` for the lines, `/repo/starlit-macros/src/log.rs:72-84` for the
expansion of the macro). `{:?}` of a `DecisionLevel` is its number (`/repo/starlit/src/prop/trail.rs:25-29`), that of
`Utilization` is derived (`/repo/starlit/src/clause_arena.rs:540`). -/
def items : Event → List LogItem
  | restart => [.message (Logger.text "restart")]
  | reduce => [.message (Logger.text "reduce")]
  | collect a u => [.message (Logger.text "garbage collection"),
      .value (Logger.text "Utilization { allocated: " ++ Drat.asciiDigits a ++ Logger.text ", used: " ++
        Drat.asciiDigits u ++ Logger.text " }")]
  | decision l => [.message (Logger.text "decision:"), .value l.text]
  | uip c => [.message (Logger.text "1-uip"), .message (Logger.text "clause:"), .value (debugList (c.map Lit.text))]
  | backtrack a b => [.message (Logger.text "backtrack"), .message (Logger.text "from:"), .value (Drat.asciiDigits a),
      .message (Logger.text "to:"), .value (Drat.asciiDigits b)]
  | unsat => [.message (Logger.text "unsatisfiable")]
  | sat => [.message (Logger.text "satisfiable")]

end Event

/-- `analyze_conflict` (`/repo/starlit/src/conflict_analysis.rs:82-104`) with its messages. -/
def Analysis.analyzeConflictLog (env : Env) (ctx : Ctx) (an : Analysis) (p : PropState)
    (conflict : ConflictClause) (cb : Callbacks) :
    M ((Ctx × Analysis × PropState × Callbacks) × List Event) := do
  assertM (decide (p.trail.decisionLevel ≠ 0))
  let (an, p, cb) ← derive1uip env an p conflict cb
  let derived := an.derivedClause
  let cb := { cb with vsids := cb.vsids.doDecay env }
  let (an, level) ← an.minimizeDerived p
  let src := p.trail.decisionLevel
  let (p, cb) ← backtrackToLevel p level cb
  let (ctx, an, p) ← learnAndAssign ctx an p
  pure ((ctx, an, p, cb), [.uip derived, .backtrack src level])

/-- The message of `collect_garbage` (`/repo/starlit/src/prop.rs:150-158`). -/
def collectLog (p : PropState) : List Event :=
  if Arena.shouldCollectGarbage p.long then
    [.collect (Arena.utilization p.long).1 (Arena.utilization p.long).2]
  else []

/-- `search_step` (`/repo/starlit/src/search.rs:41-86`) with its messages. -/
def searchStepLog (env : Env) (ctx : Ctx) (s : Search) :
    M ((Ctx × Search × Option Bool) × List Event) :=
  if s.prop.unsat then pure ((ctx, s, some false), [])
  else do
    let out := collectLog s.prop
    let p ← collectGarbage s.prop
    let (ctx, p, r) ← propagate ctx p
    match r with
    | some conflict =>
      let ctx := { ctx with search := { ctx.search with conflicts := ctx.search.conflicts + 1 } }
      if p.trail.decisionLevel = 0 then
        pure ((ctx, { s with prop := { p with unsat := true } }, some false), out ++ [.unsat])
      else do
        let ((ctx, an, p, cb), es) ← Analysis.analyzeConflictLog env ctx s.analysis p conflict s.cb
        pure ((ctx, { prop := p, analysis := an, cb := cb }, none), out ++ es)
    | none => do
      let (v, vsids) ← s.cb.vsids.popDecisionVar p.values
      let cb := { s.cb with vsids := vsids }
      match v with
      | some v => do
        let ctx := { ctx with
          search := { ctx.search with decisions := ctx.search.decisions + 1 } }
        let l ← decidePhase cb.phases v
        let p ← p.assignDecision l
        pure ((ctx, { s with prop := p, cb := cb }, none), out ++ [.decision l])
      | none => pure ((ctx, { s with prop := p, cb := cb }, some true), out ++ [.sat])

/-- `restart` (`/repo/starlit/src/search.rs:111-126`) with its messages. -/
def restartLog (ctx : Ctx) (s : Search) : M ((Ctx × Search) × List Event) := do
  let ctx := { ctx with search := { ctx.search with restarts := ctx.search.restarts + 1 } }
  if s.prop.trail.decisionLevel > 0 then do
    let (p, cb) ← backtrackToLevel s.prop 0 s.cb
    pure ((ctx, { s with prop := p, cb := cb }), [.restart, .backtrack s.prop.trail.decisionLevel 0])
  else pure ((ctx, s), [.restart])

namespace Solver

/-- `if should_restart(..) { restart(..) }` (`/repo/starlit/src/state.rs:32-34`, `55-63`) with its
messages. -/
def maybeRestartLog (s : Solver) : M (Solver × List Event) :=
  if s.ctx.search.conflicts ≥ s.schedule.nextRestart then do
    let (v, luby) := s.schedule.luby.advance
    let schedule := { s.schedule with
      nextRestart := s.ctx.search.conflicts + v * 512, luby := luby }
    let ((ctx, search), es) ← restartLog s.ctx s.search
    pure ({ ctx := ctx, search := search, schedule := schedule }, es)
  else pure (s, [])

/-- `if should_reduce(..) { reduce(..); report(..) }` (`/repo/starlit/src/state.rs:36-39`,
`66-73`) with its messages other than the report. -/
def maybeReduceLog (env : Env) (s : Solver) : M (Solver × List Event) := do
  let s' ← s.maybeReduce env
  pure (s', if s.ctx.search.conflicts ≥ s.schedule.nextReduce then [.reduce] else [])

/-- `schedule_search_step` (`/repo/starlit/src/state.rs:31-42`) with its messages. -/
def scheduleStepLog (env : Env) (s : Solver) : M ((Solver × Option Bool) × List Event) := do
  let (s, es1) ← s.maybeRestartLog
  let (s, es2) ← s.maybeReduceLog env
  let ((ctx, search, r), es3) ← searchStepLog env s.ctx s.search
  pure (({ s with ctx := ctx, search := search }, r), es1 ++ es2 ++ es3)

/-- `solve` (`/repo/starlit/src/solver.rs:61-68`) cut off after `k` iterations, with its messages other than
reports. -/
def solveLog (env : Env) : Nat → Solver → M ((Solver × Option Bool) × List Event)
  | 0, s => pure ((s, none), [])
  | k + 1, s => do
    let ((s, r), es) ← s.scheduleStepLog env
    match r with
    | some b => pure ((s, some b), es)
    | none => do
      let (x, es') ← solveLog env k s
      pure (x, es ++ es')

end Solver

end Starlit
