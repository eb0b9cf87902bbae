import Verif.VecMap
import Verif.Drat

/-!
# Programs over literals and variables

Model of the rest of `/repo/starlit/src/lit.rs`: the unchecked constructors, the orders, the texts,
and client programs that build variables and literals with the safe functions only.
-/

namespace Starlit

namespace Var

/-- `Var::from_index_unchecked` (`/repo/starlit/src/lit.rs:126-131`), release build: `as LitIdx`
truncates. -/
def fromIndexUnchecked (index : Nat) : Var := ⟨BitVec.ofNat 32 index⟩

/-- `impl Ord for Var` (`/repo/starlit/src/lit.rs:70-75`). -/
def cmp (a b : Var) : Ordering := compare a.idx32.toNat b.idx32.toNat

/-- `impl Debug for Var` and `impl Display for Var` (`/repo/starlit/src/lit.rs:161-172`) with the
format `{}`. -/
def text (v : Var) : List Byte := Drat.asciiDigits v.dimacs

end Var

namespace Lit

/-- `Lit::from_index_unchecked` (`/repo/starlit/src/lit.rs:242-244`), release build. -/
def fromIndexUnchecked (index : Nat) (positive : Bool) : Lit :=
  fromVar (Var.fromIndexUnchecked index) positive

/-- `Lit::from_code_unchecked` (`/repo/starlit/src/lit.rs:265-270`), release build. -/
def fromCodeUnchecked (code : Nat) : Lit := ⟨BitVec.ofNat 32 code⟩

/-- The derived `Ord` of `Lit` (`/repo/starlit/src/lit.rs:201`). -/
def cmp (a b : Lit) : Ordering := compare a.code32.toNat b.code32.toNat

/-- `impl Debug for Lit` and `impl Display for Lit` (`/repo/starlit/src/lit.rs:389-400`) with the
format `{}`. -/
def text (l : Lit) : List Byte := Drat.asciiDigits l.dimacs

/-- `Lit::select_other` (`/repo/starlit/src/lit.rs:323-328`), debug build: with the check in line
324. -/
def selectOtherDebug (l a b : Lit) : M Lit := do
  assertM (decide (l = a ∨ l = b))
  pure (selectOther l a b)

end Lit

namespace LitApi

/-- The variables and literals a client program has got so far. -/
structure Regs where
  vars : List Var
  lits : List Lit
deriving DecidableEq, Repr

/-- One call of a safe function that returns a `Var` or a `Lit`
(`/repo/starlit/src/lit.rs:104, 113, 147-150, 220, 230, 250, 276, 288, 323, 332-335, 353-358,
366-386`).  Arguments that are variables or literals are numbers of earlier results: the fields
are private, so a client has no other way to get one (besides unsafe code). -/
inductive Call where
  | varFromDimacs (number : Int)
  | varFromIndex (index : Nat)
  | varKey (index : Nat)
  | litFromVar (var : Nat) (positive : Bool)
  | litFromIndex (index : Nat) (positive : Bool)
  | litFromCode (code : Nat)
  | litFromDimacs (number : Int)
  | litKey (index : Nat)
  | litVar (lit : Nat)
  | selectOther (lit a b : Nat)
  | not (lit : Nat)
  | xor (lit : Nat) (flip : Bool)
deriving DecidableEq, Repr

/-- A new variable. -/
def Regs.pushVar (r : Regs) (v : Var) : Regs := { r with vars := r.vars ++ [v] }

/-- A new literal. -/
def Regs.pushLit (r : Regs) (l : Lit) : Regs := { r with lits := r.lits ++ [l] }

/-- The result of a call, or a panic. -/
def step (r : Regs) : Call → M Regs
  | .varFromDimacs n => do pure (r.pushVar (← Var.fromDimacs n))
  | .varFromIndex i => do pure (r.pushVar (← Var.fromIndex i))
  | .varKey i => do pure (r.pushVar (← VecMapKey.fromIndex i))
  | .litFromVar v p => do pure (r.pushLit (Lit.fromVar (← idx r.vars v) p))
  | .litFromIndex i p => do pure (r.pushLit (← Lit.fromIndex i p))
  | .litFromCode c => do pure (r.pushLit (← Lit.fromCode c))
  | .litFromDimacs n => do pure (r.pushLit (← Lit.fromDimacs n))
  | .litKey i => do pure (r.pushLit (← VecMapKey.fromIndex i))
  | .litVar l => do pure (r.pushVar (← idx r.lits l).var)
  | .selectOther l a b => do
    pure (r.pushLit ((← idx r.lits l).selectOther (← idx r.lits a) (← idx r.lits b)))
  | .not l => do pure (r.pushLit (← idx r.lits l).neg)
  | .xor l b => do pure (r.pushLit ((← idx r.lits l).xorBool b))

/-- A client program: calls one after the other. -/
def run (r : Regs) : List Call → M Regs
  | [] => pure r
  | c :: cs => do run (← step r c) cs

end LitApi

end Starlit
