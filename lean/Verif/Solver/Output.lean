import Verif.Solver.Main
import Verif.Solver.Report

/-!
# Standard output

Models of the text of the progress reports (`/repo/starlit/src/report.rs`), of the places where they are printed
(`/repo/starlit/src/state.rs:36-39`, `/repo/starlit/src/solver.rs:61-68`) and of everything `main`
(`/repo/starlit-cli/src/main.rs:46-145`) prints at level `info`.
-/

namespace Starlit

/-- `{:w}` of an unsigned number: aligned to the right, filled with spaces (`core::fmt`, as used in
`/repo/starlit/src/report.rs:14-30`). -/
def Fmt.width (w n : Nat) : List Byte :=
  List.replicate (w - (Drat.asciiDigits n).length) 0x20#8 ++ Drat.asciiDigits n

/-- `{:02}` of an unsigned number (`core::fmt`, as used in `/repo/starlit/src/report.rs:12`). -/
def Fmt.zeros2 (n : Nat) : List Byte :=
  List.replicate (2 - (Drat.asciiDigits n).length) 0x30#8 ++ Drat.asciiDigits n

/-- The items of a report (`/repo/starlit/src/report.rs:9-36`); `millis` is what `as_millis` returns.  The closure adds
the items without the macro, which would join adjacent messages; there are none. -/
def Report.items (millis : Nat) (r : Report) : List LogItem :=
  let time := millis / 10
  [ .value (Drat.asciiDigits (time / 100 : Nat) ++ 0x2e#8 :: Fmt.zeros2 (time % 100)),
    .message (Logger.text "red:"), .value (Fmt.width 2 r.reductions),
    .message (Logger.text "res:"), .value (Fmt.width 3 r.restarts),
    .message (Logger.text "cfl:"), .value (Fmt.width 5 r.conflicts),
    .message (Logger.text "bin:"), .value (Fmt.width 2 r.binary),
    .message (Logger.text "red:"), .value (Fmt.width 3 r.redundant),
    .message (Logger.text "irr:"), .value (Fmt.width 3 r.irredundant),
    .message (Logger.text "var:"), .value (Fmt.width 3 r.varsLeft.toNat),
    .value (Drat.asciiDigits r.percent.toNat ++ Logger.text "%") ]

namespace Solver

/-- `schedule_search_step` (`/repo/starlit/src/state.rs:31-42`) with the reports it prints. -/
def scheduleStepOut (env : Env) (s : Solver) : M (Solver × Option Bool × List Report) := do
  let s1 ← s.maybeRestart
  let s2 ← s1.maybeReduce env
  let (ctx, search, r) ← searchStep env s2.ctx s2.search
  pure ({ s2 with ctx := ctx, search := search }, r,
    if s1.ctx.search.conflicts ≥ s1.schedule.nextReduce then [report s2.ctx] else [])

/-- `solve` (`/repo/starlit/src/solver.rs:61-68`) cut off after `k` iterations, with the reports it prints. -/
def solveOut (env : Env) : Nat → Solver → M (Solver × Option Bool × List Report)
  | 0, s => pure (s, none, [])
  | k + 1, s => do
    let (s, r, out) ← s.scheduleStepOut env
    match r with
    | some b => pure (s, some b, out ++ [report s.ctx])
    | none => do
      let (s, r, out') ← solveOut env k s
      pure (s, r, out ++ out')

end Solver

/-- One piece of output: a call of the logger or a `println!`. -/
inductive Out where
  | log (level : LogLevel) (location : List Byte) (items : List LogItem)
  | line (text : List Byte)
deriving DecidableEq, Repr

/-- The bytes written to standard output (`/repo/starlit/src/log.rs:64-68`). -/
def Out.bytes (lg : Logger) : Out → List Byte
  | .log level location items => lg.log level location items
  | .line text => text ++ [0x0a#8]

/-- The parts of the output that do not depend on the input: the clock at the times of the reports, the source
locations, and the items of the four lines of statistics (`/repo/starlit-cli/src/main.rs:95-112`), which contain
times and `f64` quotients. -/
structure Cli.Texts where
  millis : Nat → Nat
  banner : List Byte
  reported : List Byte
  answered : List Byte
  stats : List (List Byte × List LogItem)

/-- The logger of the program (`/repo/starlit-cli/src/main.rs:51-59`). -/
def Cli.logger (verbose quiet : Nat) (logSrc : Bool) : Logger :=
  (Logger.default.setLogLevel (Cli.logLevel verbose quiet)).setLogSourceLocations logSrc

/-- The report with the given number. -/
def Cli.Texts.report (t : Cli.Texts) (location : List Byte) (i : Nat) (r : Report) : Out :=
  .log .info location (r.items (t.millis i))

/-- What `main` (`/repo/starlit-cli/src/main.rs:46-145`) prints at level `info` and with `println!`, for at most `k`
iterations of the solver loop; `none` when it has not finished by then.  Messages of the more verbose levels are left out (the
properties allow any number of them at any place). -/
def Cli.mainOut (env : Env) (k : Nat) (t : Cli.Texts) (format : Option ProofFormat) (varCount : Nat)
    (clauses : List (List Int)) : M (Option (List Out)) := do
  let s := Solver.default env
  let s := if format.isSome then s.writeProof else s
  let s ← readClauses s clauses
  let (s, r, reports) ← s.solveOut env k
  match r with
  | none => pure none
  | some satisfiable => do
    let vs ← if satisfiable then readValues s (List.range varCount) else pure []
    let (lines, _) ← Cli.result satisfiable (fun i => vs.getD i none) varCount
    pure (some (.log .info t.banner [.message (Logger.text "Starlit SAT Solver")] ::
      reports.mapIdx (fun i r =>
        t.report (if i + 1 < reports.length then t.reported else t.answered) i r) ++
      t.stats.map (fun x => .log .info x.1 x.2) ++ lines.map .line))

end Starlit
