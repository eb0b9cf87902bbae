import Verif.Solver.Analyze
import Verif.Bitfield
import Verif.Luby

/-!
# Search, schedule and solver interface

Model of `/repo/starlit/src/search.rs`, `search/reduce.rs`, `state.rs` and `solver.rs`.
-/

namespace Starlit

/-- `Search` (`/repo/starlit/src/search.rs:25-30`). -/
structure Search where
  prop : PropState
  analysis : Analysis
  cb : Callbacks
deriving DecidableEq, Repr

/-- `Schedule` (`/repo/starlit/src/state.rs:46-52`). -/
structure Schedule where
  nextRestart : Nat
  luby : Luby
  nextReduce : Nat
  reductions : Nat
deriving DecidableEq, Repr

/-- `Solver` with `State` (`/repo/starlit/src/solver.rs:15-18`, `/repo/starlit/src/state.rs:18-21`). -/
structure Solver where
  ctx : Ctx
  search : Search
  schedule : Schedule
deriving DecidableEq, Repr

/-! ## Clause database reduction -/

/-- `protect_clauses` (`/repo/starlit/src/search/reduce.rs:84-91`) over the given steps. -/
def protectLoop (prot : Bool) : List Step → Arena → M Arena
  | [], a => pure a
  | s :: ss, a => do
    match s.reason with
    | .long c => do
      let a ← Long.modHeader a c (·.setProt prot)
      protectLoop prot ss a
    | _ => protectLoop prot ss a

/-- One iteration of the candidate loop (`/repo/starlit/src/search/reduce.rs:29-63`): the arena with
the updated header and the candidate, if any, as its score and reference. -/
def reduceVisit (a : Arena) (c : Nat) : M (Arena × Option (Nat × Nat)) := do
  let len ← Long.len a c
  let h ← Long.header a c
  if h.prot then pure (a, none)
  else if !h.redundant then pure (a, none)
  else if h.glue ≤ 2 then pure (a, none)
  else if h.used > 0 then do
    let h' := h.setUsed (h.used - 1)
    let a ← Long.modHeader a c (fun _ => h')
    if h'.glue ≤ 5 then pure (a, none)
    else pure (a, some ((Score.ofClause h'.used h'.glue len).toNat, c))
  else pure (a, some ((Score.ofClause h.used h.glue len).toNat, c))

/-- The candidate loop (`/repo/starlit/src/search/reduce.rs:28-63`), with fuel for the number of
remaining clauses. -/
def candidateLoop : Nat → Arena → Option Nat → List (Nat × Nat) → M (Arena × List (Nat × Nat))
  | 0, _, _, _ => throw .fuel
  | fuel + 1, a, it, cands => do
    match ← Long.next a it with
    | none => pure (a, cands)
    | some c => do
      let (a, r) ← reduceVisit a c
      candidateLoop fuel a (some c) (cands ++ r.toList)

/-- The order of `(Score, ClauseRef)` pairs (derived `Ord`, `/repo/starlit/src/search/reduce.rs:8`,
tuples compare lexicographically). -/
def candLe (x y : Nat × Nat) : Bool := decide (x.1 < y.1 ∨ x.1 = y.1 ∧ x.2 ≤ y.2)

/-- Insertion into a sorted list of candidates. -/
def insertCand (x : Nat × Nat) : List (Nat × Nat) → List (Nat × Nat)
  | [] => [x]
  | y :: ys => if candLe x y then x :: y :: ys else y :: insertCand x ys

/-- The candidates in ascending order. -/
def sortCands : List (Nat × Nat) → List (Nat × Nat)
  | [] => []
  | x :: xs => insertCand x (sortCands xs)

/-- The candidates above the selected one (`higher`, `/repo/starlit/src/search/reduce.rs:66-68`):
those after position `candidate_count / 2` of the sorted candidates, in some order.  The candidates
have distinct references, so this set is determined. -/
def higher (env : Env) (cands : List (Nat × Nat)) : List (Nat × Nat) :=
  env.order ((sortCands cands).drop (cands.length / 2 + 1))

/-- `if let Some(proof) = &mut ctx.proof { proof.delete_clause(long_clauses.lits(clause)) }`
(`/repo/starlit/src/search/reduce.rs:73-75`); the literals are read only if there is a writer. -/
def logDelete (ctx : Ctx) (a : Arena) (c : Nat) : M Ctx :=
  match ctx.proof with
  | some _ => do
    let ls ← Long.lits a c
    pure (ctx.logProof (.delete ls))
  | none => pure ctx

/-- The deletion loop (`/repo/starlit/src/search/reduce.rs:70-78`). -/
def deleteLoop : List (Nat × Nat) → Ctx → Arena → M (Ctx × Arena)
  | [], ctx, a => pure (ctx, a)
  | (_, c) :: rest, ctx, a => do
    if ctx.formula.redundant = 0 then throw .panic
    else
      let ctx := { ctx with
        formula := { ctx.formula with redundant := ctx.formula.redundant - 1 } }
      let ctx ← logDelete ctx a c
      let a ← Long.delete a c
      deleteLoop rest ctx a

/-- `reduce` (`/repo/starlit/src/search/reduce.rs:20-82`).  For no candidates `higher` is empty. -/
def reduce (env : Env) (ctx : Ctx) (s : Search) : M (Ctx × Search) := do
  let ctx := { ctx with search := { ctx.search with reductions := ctx.search.reductions + 1 } }
  let a ← protectLoop true s.prop.trail.steps s.prop.long
  let (a, cands) ← candidateLoop (a.buffer.length + 1) a none []
  let (ctx, a) ← deleteLoop (higher env cands) ctx a
  let a ← protectLoop false s.prop.trail.steps a
  pure (ctx, { s with prop := { s.prop with long := a } })

/-! ## Search -/

/-- `search_step` (`/repo/starlit/src/search.rs:41-86`). -/
def searchStep (env : Env) (ctx : Ctx) (s : Search) : M (Ctx × Search × Option Bool) :=
  if s.prop.unsat then pure (ctx, s, some false)
  else do
    let p ← collectGarbage s.prop
    let (ctx, p, r) ← propagate ctx p
    match r with
    | some conflict =>
      let ctx := { ctx with search := { ctx.search with conflicts := ctx.search.conflicts + 1 } }
      if p.trail.decisionLevel = 0 then
        pure (ctx, { s with prop := { p with unsat := true } }, some false)
      else do
        let (ctx, an, p, cb) ← Analysis.analyzeConflict env ctx s.analysis p conflict s.cb
        pure (ctx, { prop := p, analysis := an, cb := cb }, none)
    | none => do
      let (v, vsids) ← s.cb.vsids.popDecisionVar p.values
      let cb := { s.cb with vsids := vsids }
      match v with
      | some v => do
        let ctx := { ctx with
          search := { ctx.search with decisions := ctx.search.decisions + 1 } }
        let l ← decidePhase cb.phases v
        let p ← p.assignDecision l
        pure (ctx, { s with prop := p, cb := cb }, none)
      | none => pure (ctx, { s with prop := p, cb := cb }, some true)

/-- `restart` (`/repo/starlit/src/search.rs:111-126`). -/
def restart (ctx : Ctx) (s : Search) : M (Ctx × Search) := do
  let ctx := { ctx with search := { ctx.search with restarts := ctx.search.restarts + 1 } }
  if s.prop.trail.decisionLevel > 0 then do
    let (p, cb) ← backtrackToLevel s.prop 0 s.cb
    pure (ctx, { s with prop := p, cb := cb })
  else pure (ctx, s)

namespace Solver

/-- `Solver::default()` (`/repo/starlit/src/solver.rs:13`). -/
def default (env : Env) : Solver :=
  { ctx := .default
    search :=
      { prop := .default, analysis := .default, cb := ⟨⟨.empty, env.one⟩, []⟩ }
    schedule := ⟨0, .default, 0, 0⟩ }

/-- `resize` (`/repo/starlit/src/state.rs:23-27`, `search.rs:32-38`, `search/vsids.rs:75-79`,
`search/phases.rs:17-21`). -/
def resize (s : Solver) (n : Nat) : M Solver := do
  let activity ← s.search.cb.vsids.activity.resizeEnqueued n 0
  pure { s with search := { s.search with
    prop := s.search.prop.resize n
    cb :=
      { vsids := { s.search.cb.vsids with activity := activity }
        phases := Heap.resizeList s.search.cb.phases n false } } }

/-- `clause.iter().map(|lit| lit.index() + 1).max().unwrap_or_default()`
(`/repo/starlit/src/solver.rs:26-30`). -/
def varCount : List Lit → Nat
  | [] => 0
  | l :: ls => max (l.index + 1) (varCount ls)

/-- `if self.ctx.stats.formula.vars < var_count { .. }` (`/repo/starlit/src/solver.rs:32-35`). -/
def ensureVars (s : Solver) (n : Nat) : M Solver :=
  if s.ctx.formula.vars < n then
    resize { s with ctx := { s.ctx with formula := { s.ctx.formula with vars := n } } } n
  else pure s

/-- `add_clause` (`/repo/starlit/src/solver.rs:23-43`). -/
def addClause (s : Solver) (ls : List Lit) : M Solver := do
  let s ← s.ensureVars (varCount ls)
  let (ctx, p, _) ← addClauseVerbatim s.ctx s.search.prop .newInputClause ls
  pure { s with ctx := ctx, search := { s.search with prop := p } }

/-- `write_proof` (`/repo/starlit/src/solver.rs:46-48`) with a new writer. -/
def writeProof (s : Solver) : Solver := { s with ctx := { s.ctx with proof := some [] } }

/-- `if should_restart(..) { restart(..) }` (`/repo/starlit/src/state.rs:32-34`, `55-63`). -/
def maybeRestart (s : Solver) : M Solver :=
  if s.ctx.search.conflicts ≥ s.schedule.nextRestart then do
    let (v, luby) := s.schedule.luby.advance
    let schedule := { s.schedule with
      nextRestart := s.ctx.search.conflicts + v * 512, luby := luby }
    let (ctx, search) ← restart s.ctx s.search
    pure { ctx := ctx, search := search, schedule := schedule }
  else pure s

/-- `if should_reduce(..) { reduce(..); report(..) }` (`/repo/starlit/src/state.rs:36-39`,
`66-73`). -/
def maybeReduce (env : Env) (s : Solver) : M Solver :=
  if s.ctx.search.conflicts ≥ s.schedule.nextReduce then do
    let reductions := s.schedule.reductions + 1
    let schedule := { s.schedule with
      reductions := reductions
      nextReduce := s.schedule.nextReduce + env.reduceInterval reductions }
    let (ctx, search) ← reduce env s.ctx s.search
    pure { ctx := ctx, search := search, schedule := schedule }
  else pure s

/-- `schedule_search_step` (`/repo/starlit/src/state.rs:31-42`). -/
def scheduleStep (env : Env) (s : Solver) : M (Solver × Option Bool) := do
  let s ← s.maybeRestart
  let s ← s.maybeReduce env
  let (ctx, search, r) ← searchStep env s.ctx s.search
  pure ({ s with ctx := ctx, search := search }, r)

/-- The loop of `solve` (`/repo/starlit/src/solver.rs:61-68`) cut off after the given number of
iterations: `none` if it has not returned by then. -/
def solve (env : Env) : Nat → Solver → M (Solver × Option Bool)
  | 0, s => pure (s, none)
  | k + 1, s => do
    let (s, r) ← s.scheduleStep env
    match r with
    | some b => pure (s, some b)
    | none => solve env k s

/-- `value` (`/repo/starlit/src/solver.rs:71-77`). -/
def value (s : Solver) (l : Lit) : M (Option Bool) :=
  if l.index < s.ctx.formula.vars then s.search.prop.values.value l else pure none

/-- A sequence of `add_clause` calls. -/
def addClauses (s : Solver) : List (List Lit) → M Solver
  | [] => pure s
  | c :: cs => do
    let s ← s.addClause c
    addClauses s cs

end Solver

end Starlit
