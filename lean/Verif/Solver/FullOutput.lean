import Verif.Solver.Trace

/-!
# Standard output at every level of verbosity

The progress reports (`Verif/Solver/Output.lean`) and the log messages (`Verif/Solver/Trace.lean`) in the order in
which they are printed.
-/

namespace Starlit

/-- A call of the logger made by the solver. -/
inductive Said where
  /-- The report after a reduction (`/repo/starlit/src/state.rs:38`). -/
  | reported (r : Report)
  /-- The report when the answer is known (`/repo/starlit/src/solver.rs:64`). -/
  | answered (r : Report)
  /-- A message. -/
  | event (e : Event)
deriving DecidableEq, Repr

namespace Solver

/-- `schedule_search_step` (`/repo/starlit/src/state.rs:31-42`) with everything it logs. -/
def scheduleStepSaid (env : Env) (s : Solver) : M ((Solver × Option Bool) × List Said) := do
  let (s1, es1) ← s.maybeRestartLog
  let (s2, es2) ← s1.maybeReduceLog env
  let ((ctx, search, r), es3) ← searchStepLog env s2.ctx s2.search
  pure (({ s2 with ctx := ctx, search := search }, r),
    es1.map .event ++ es2.map .event ++
      (if s1.ctx.search.conflicts ≥ s1.schedule.nextReduce then [.reported (report s2.ctx)] else []) ++
      es3.map .event)

/-- `solve` (`/repo/starlit/src/solver.rs:61-68`) cut off after `k` iterations, with everything it logs. -/
def solveSaid (env : Env) : Nat → Solver → M ((Solver × Option Bool) × List Said)
  | 0, s => pure ((s, none), [])
  | k + 1, s => do
    let ((s, r), out) ← s.scheduleStepSaid env
    match r with
    | some b => pure ((s, some b), out ++ [.answered (report s.ctx)])
    | none => do
      let (x, out') ← solveSaid env k s
      pure (x, out ++ out')

end Solver

/-- The calls of the logger in full; `i` reports were made before, `loc` gives the source locations. -/
def Said.outs (t : Cli.Texts) (loc : Event → List Byte) : Nat → List Said → List Out
  | _, [] => []
  | i, .reported r :: xs => t.report t.reported i r :: outs t loc (i + 1) xs
  | i, .answered r :: xs => t.report t.answered i r :: outs t loc (i + 1) xs
  | i, .event e :: xs => .log e.level (loc e) e.items :: outs t loc i xs

/-- What `main` (`/repo/starlit-cli/src/main.rs:46-145`) logs and prints with `println!`, for at most `k`
iterations of the solver loop; `none` when it has not finished by then. Nothing is logged while clauses are
added. -/
def Cli.mainAll (env : Env) (k : Nat) (t : Cli.Texts) (loc : Event → List Byte) (format : Option ProofFormat)
    (varCount : Nat) (clauses : List (List Int)) : M (Option (List Out)) := do
  let s := Solver.default env
  let s := if format.isSome then s.writeProof else s
  let s ← readClauses s clauses
  let ((s, r), said) ← s.solveSaid env k
  match r with
  | none => pure none
  | some satisfiable => do
    let vs ← if satisfiable then readValues s (List.range varCount) else pure []
    let (lines, _) ← Cli.result satisfiable (fun i => vs.getD i none) varCount
    pure (some (.log .info t.banner [.message (Logger.text "Starlit SAT Solver")] ::
      Said.outs t loc 0 said ++
      t.stats.map (fun x => .log .info x.1 x.2) ++ lines.map .line))

end Starlit
