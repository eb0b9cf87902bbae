import Verif.Solver.Search
import Verif.Cli

/-!
# The command line program

Model of `main` (`/repo/starlit-cli/src/main.rs:46-145`) after the arguments and the input file were
parsed: `varCount` is the number of variables of the header and the clauses are lists of DIMACS numbers.
The parser `flussab_cnf` is not part of the repository; it converts literals with `Lit::from_dimacs`.
-/

namespace Starlit

namespace Cli

/-- `ProofFormat` (`/repo/starlit-cli/src/main.rs:40-44`). -/
inductive ProofFormat where
  | drat
  | binaryDrat
deriving DecidableEq, Repr

/-- The bytes of the proof file (`/repo/starlit-cli/src/main.rs:63-75`). -/
def ProofFormat.bytes : ProofFormat → List ProofStep → List Byte
  | .drat => Drat.output
  | .binaryDrat => BinaryDrat.output

/-- Conversion of the literals of a clause (`/repo/starlit/src/lit.rs:352-364`). -/
def readClause : List Int → M (List Lit)
  | [] => pure []
  | n :: ns => do
    let l ← Lit.fromDimacs n
    let ls ← readClause ns
    pure (l :: ls)

/-- The loop over the clauses (`/repo/starlit-cli/src/main.rs:86-88`). -/
def readClauses (s : Solver) : List (List Int) → M Solver
  | [] => pure s
  | c :: cs => do
    let ls ← readClause c
    let s ← s.addClause ls
    readClauses s cs

/-- The values of the variables with the given indices, as asked for by the loop that prints the model
(`/repo/starlit-cli/src/main.rs:120-121`). -/
def readValues (s : Solver) : List Nat → M (List (Option Bool))
  | [] => pure []
  | i :: is => do
    let l ← Lit.fromIndex i true
    let v ← s.value l
    let vs ← readValues s is
    pure (v :: vs)

/-- What the program leaves behind: the lines on standard output that are not comments, the exit code,
and the proof file. -/
structure Outcome where
  lines : List (List Byte)
  code : Nat
  proof : Option (List Byte)
deriving DecidableEq, Repr

/-- `main` (`/repo/starlit-cli/src/main.rs:46-145`) with at most `k` iterations of the solver loop; `none`
when it has not finished by then.  Log messages and the statistics (which are comments) are left out. -/
def main (env : Env) (k : Nat) (format : Option ProofFormat) (varCount : Nat)
    (clauses : List (List Int)) : M (Option Outcome) := do
  let s := Solver.default env
  let s := if format.isSome then s.writeProof else s
  let s ← readClauses s clauses
  let (s, r) ← s.solve env k
  match r with
  | none => pure none
  | some satisfiable => do
    let vs ← if satisfiable then readValues s (List.range varCount) else pure []
    let (lines, code) ← Cli.result satisfiable (fun i => vs.getD i none) varCount
    pure (some ⟨lines, code, format.map (fun f => f.bytes (s.ctx.proof.getD []))⟩)

end Cli

end Starlit
