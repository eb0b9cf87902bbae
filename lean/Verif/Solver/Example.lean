import Verif.Solver.Search

/-!
# Concrete runs

Formulas and an `Env` for the examples beside the theorems.
-/

namespace Starlit.Example

/-- Integer activities without decay, the reduction interval of the first reduction. -/
def env : Env where
  one := 1
  add := fun a b => a + b
  aboveLimit := fun _ => false
  rescale := fun a => a
  decay := fun a => a
  reduceInterval := fun _ => 2000
  order := id
  order_perm := fun _ => List.Perm.refl _

/-- A literal given by its DIMACS number. -/
def lit (i : Int) : Lit := ⟨BitVec.ofNat 32 ((i.natAbs - 1) * 2 + if 0 < i then 1 else 0)⟩

/-- A formula given by DIMACS numbers. -/
def cnf (F : List (List Int)) : List (List Lit) := F.map (·.map lit)

/-- Add the clauses to a fresh solver with a proof writer. -/
def load (F : List (List Int)) : M Solver :=
  (Solver.default env).writeProof.addClauses (cnf F)

/-- Solve with at most 100 steps. -/
def run (F : List (List Int)) : M (Solver × Option Bool) := do
  (← load F).solve env 100

/-- All eight clauses over three variables. -/
def unsat3 : List (List Int) :=
  [[1, 2, 3], [1, 2, -3], [1, -2, 3], [1, -2, -3], [-1, 2, 3], [-1, 2, -3], [-1, -2, 3], [-1, -2, -3]]

/-- Seven of them. -/
def sat3 : List (List Int) :=
  [[1, 2, 3], [1, 2, -3], [1, -2, 3], [1, -2, -3], [-1, 2, 3], [-1, 2, -3], [-1, -2, 3]]

/-- Like `env`, with a reduction after each conflict. -/
def envReduce : Env := { env with reduceInterval := fun _ => 1 }

/-- The pigeonhole formula: `p` pigeons in `h` holes. -/
def php (p h : Nat) : List (List Int) :=
  (List.range p).map (fun i => (List.range h).map fun j => ((i * h + j + 1 : Nat) : Int)) ++
  (List.range h).flatMap fun j => (List.range p).flatMap fun i => (List.range i).map fun k =>
    [-((i * h + j + 1 : Nat) : Int), -((k * h + j + 1 : Nat) : Int)]

/-- A run with reductions, cut off after `k` steps. -/
def runReduce (F : List (List Int)) (k : Nat) : M (Solver × Option Bool) := do
  (← (Solver.default envReduce).writeProof.addClauses (cnf F)).solve envReduce k

/-- Whether an entry of a proof is a deletion. -/
def isDelete : ProofStep → Bool
  | .add _ => false
  | .delete _ => true

end Starlit.Example
