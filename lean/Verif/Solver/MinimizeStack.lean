import Verif.Solver.Analyze

/-!
# The stack of the iterative search of clause minimisation

`literal_index_is_redundant_iter` of `/repo/starlit/src/minimize.rs` again, with the buffer that is kept in
`MinimizeClause::stack` between calls.
-/

namespace Starlit

namespace Minimize

/-- `StackItem` (`/repo/starlit/src/minimize.rs:307-314`): a trail index and the literals of its reason that are still to be
visited, a slice borrowed from `prop`. -/
abbrev Frame := Nat × List Lit

/-- `return_false!` (`/repo/starlit/src/minimize.rs:226-240`) with the buffer that is put back: one frame is taken from the
bottom at a time. -/
def drainStack (m : Minimize) : List Frame → M (Minimize × List Frame)
  | [] => pure (m, [])
  | f :: rest => do
    let m ← m.setCache f.1 false
    drainStack m rest

/-- The loops of `literal_index_is_redundant_iter` (`/repo/starlit/src/minimize.rs:242-304`): the result, all states of the
stack (with `top`) at the start of an iteration, and the buffer that is put back at the end.  The head of `stack` is the
top of the Rust stack; `(i, ls)` is `top`. -/
def iterLoopS (p : PropState) : Nat → Minimize → List Frame → Nat → List Lit →
    M ((Minimize × Bool) × List (List Frame) × List Frame)
  | 0, _, _, _, _ => throw .fuel
  | fuel + 1, m, stack, i, [] => do
    let m ← m.setCache i true
    match stack with
    | [] => pure ((m, true), [[(i, [])]], stack)
    | (i', ls') :: stack' => do
      let (r, seen, rest) ← iterLoopS p fuel m stack' i' ls'
      pure (r, ((i, []) :: stack) :: seen, rest)
  | fuel + 1, m, stack, i, l :: ls => do
    let now := (i, l :: ls) :: stack
    let j ← p.trail.indexOf l.index
    match ← m.cached p.trail j with
    | some true => do
      let (r, seen, rest) ← iterLoopS p fuel m stack i ls
      pure (r, now :: seen, rest)
    | some false => do
      let m ← m.setCache i false
      let (m, rest) ← m.drainStack stack.reverse
      pure ((m, false), [now], rest)
    | none => do
      let s ← idx p.trail.steps j
      let rs ← p.reasonLits s.reason
      match ← m.lookahead p.trail rs (some true) with
      | some false => do
        let m ← m.setCache j false
        let m ← m.setCache i false
        let (m, rest) ← m.drainStack stack.reverse
        pure ((m, false), [now], rest)
      | some true => do
        let m ← m.setCache j true
        let (r, seen, rest) ← iterLoopS p fuel m stack i ls
        pure (r, now :: seen, rest)
      | none => do
        let (r, seen, rest) ← iterLoopS p fuel m ((i, ls) :: stack) j rs
        pure (r, now :: seen, rest)

/-- `literal_index_is_redundant_iter` (`/repo/starlit/src/minimize.rs:207-304`) with the buffer: what it holds at the start
is cleared (`220`), then taken. -/
def iterS (p : PropState) (fuel : Nat) (m : Minimize) (buffer : List Frame) (i : Nat) (rs : List Lit) :
    M ((Minimize × Bool) × List (List Frame) × List Frame) :=
  let cleared := buffer.drop buffer.length
  iterLoopS p fuel m cleared i rs

end Minimize

end Starlit
