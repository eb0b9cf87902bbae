import Verif.Base
import Verif.Lit
import Verif.PartialAssignment
import Verif.Header
import Verif.Props.Words
import Verif.Arena
import Verif.ArenaLemmas
import Verif.GcLemmas
import Verif.Props.Arena
import Verif.Heap
import Verif.HeapLemmas
import Verif.Props.Heap
import Verif.Luby
import Verif.Props.Luby
import Verif.Drat
import Verif.Props.Drat
import Verif.MutScan
import Verif.MutScanPtr
import Verif.Props.MutScan
import Verif.Bitfield
import Verif.Props.Score
import Verif.Cli
import Verif.Props.Cli
import Verif.Solver.Prop
import Verif.Solver.Analyze
import Verif.Solver.Search
import Verif.Solver.LongView
import Verif.Solver.Inv
import Verif.Solver.PropLemmas
import Verif.Solver.PropLong
import Verif.Solver.Propagate
import Verif.Solver.Backtrack
import Verif.Spec
import Verif.Solver.Db
import Verif.Solver.Glue
import Verif.Solver.Vsids
import Verif.Solver.Uip
import Verif.Solver.Minimize
import Verif.Solver.MinimizeMain
import Verif.Solver.AddClause
import Verif.Solver.Learn
import Verif.Solver.Gc
import Verif.Solver.Reduce
import Verif.Solver.Step
import Verif.Solver.Init
import Verif.Solver.Solve
import Verif.Solver.ProofLog
import Verif.Solver.Example
import Verif.Props.Solver
import Verif.Solver.Incremental
import Verif.Props.Incremental
import Verif.Props.Range
import Verif.Props.BigArena
import Verif.Solver.Stored
import Verif.Solver.ExampleRun
import Verif.Props.Propagation
import Verif.Props.Analysis
import Verif.Props.Database
import Verif.Props.Runs
import Verif.Props.Termination
import Verif.Props.Logging
import Verif.Fp
import Verif.Float
import Verif.Float32
import Verif.Float64
import Verif.Solver.Prepare
import Verif.Solver.Activity
import Verif.Solver.Score32
import Verif.Props.Activity
import Verif.Props.Schedule
import Verif.Solver.Report
import Verif.Solver.Output
import Verif.Props.Stats
import Verif.Props.Debug
import Verif.Props.Memory
import Verif.Props.Counters
import Verif.Props.Headers
import Verif.Checker
import Verif.Solver.Main
import Verif.Props.EndToEnd
import Verif.Props.VecMap
import Verif.Props.LitApi
import Verif.Props.LogMacro
import Verif.Props.Capacity
import Verif.Props.Fresh
import Verif.Props.Effort
import Verif.Props.IncrementalProof
import Verif.Props.FirstUip
import Verif.Props.Sync
import Verif.Props.Overflow
import Verif.Props.Graph
import Verif.Props.Linear
import Verif.Props.Guided
import Verif.Props.PropLinear
import Verif.Props.HeapCost
import Verif.Props.AnalysisCost
import Verif.Props.Rescale
import Verif.Props.GcCost
import Verif.Props.Order
import Verif.Props.Closure
import Verif.Props.Io
import Verif.BitfieldMacro
import Verif.Props.BitfieldMacro
import Verif.Props.DecisionCost
import Verif.TransparentMacro
import Verif.Props.Transparent
import Verif.Props.ReduceCost
import Verif.Props.Horn
import Verif.Props.TwoSat
import Verif.Props.GcScan
import Verif.Props.Sizes
import Verif.Props.SolveCost
import Verif.Resolution
import Verif.Props.ResolutionRun
import Verif.Pigeons
import Verif.Props.PigeonRun
import Verif.Props.Empower
import Verif.Props.Exponential
import Verif.Props.ProofSize
import Verif.Cdcl
import Verif.Props.Calculus
import Verif.SetChecker
import Verif.Props.OtherCheckers
import Verif.Props.Complete
import Verif.Props.LubySum
import Verif.Props.Resolvents
import Verif.Props.Footprint
import Verif.Props.Decides
import Verif.Props.ProofParts
import Verif.Props.Again
import Verif.Props.Few
import Verif.Props.HardParts
import Verif.Props.Stdout
import Verif.Props.MutScanSize
import Verif.Props.LoadCost
import Verif.Props.Trace
import Verif.Props.WholeRun
import Verif.Solver.FullOutput
import Verif.Solver.MinimizeStack
import Verif.Props.FullOutput
import Verif.Props.MinimizeStack
import Verif.Props.Always
import Verif.Props.Stopped
import Verif.Props.PropRepeat
import Verif.Props.SolveEvery
import Verif.Props.Refutation
import Verif.Props.Interpolant
import Verif.UnitTests
