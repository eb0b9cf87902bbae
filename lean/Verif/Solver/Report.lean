import Verif.Solver.Search

/-!
# Progress reports

Model of `/repo/starlit/src/report.rs`.
-/

namespace Starlit

/-- The figures of a progress report (`/repo/starlit/src/report.rs:11-36`), without the time.  The
subtraction and the product are those of a release build, which wrap around. -/
structure Report where
  reductions : Nat
  restarts : Nat
  conflicts : Nat
  binary : Nat
  redundant : Nat
  irredundant : Nat
  varsLeft : BitVec 64
  percent : BitVec 64
deriving DecidableEq, Repr

/-- `report` (`/repo/starlit/src/report.rs:7-37`); the counters are printed as they are. -/
def report (ctx : Ctx) : Report :=
  let varsLeft := BitVec.ofNat 64 ctx.formula.vars - BitVec.ofNat 64 ctx.prop.fixedVars
  { reductions := ctx.search.reductions
    restarts := ctx.search.restarts
    conflicts := ctx.search.conflicts
    binary := ctx.formula.binary
    redundant := ctx.formula.redundant
    irredundant := ctx.formula.irredundant
    varsLeft := varsLeft
    percent := varsLeft * 100 / BitVec.ofNat 64 (max ctx.formula.vars 1) }

end Starlit
