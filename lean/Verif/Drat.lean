import Verif.Lit

/-!
# Proof writers (`/repo/starlit/src/proof.rs`, `/repo/starlit/src/proof/drat.rs`)

The output stream is a list of bytes. `flussab::DeferredWriter` is not part of the repository: it is
taken to append the bytes given to `write_all_defer_err` (no I/O errors), and
`flussab::write::text::ascii_digits` is taken to write the decimal representation of its argument.
-/

namespace Starlit

abbrev Byte := BitVec 8

/-- A call of the trait `Proof` (`/repo/starlit/src/proof.rs:9-18`). -/
inductive ProofStep where
  | add (lits : List Lit)
  | delete (lits : List Lit)
deriving DecidableEq, Repr

/-- The byte of an ASCII character. -/
def ascii (c : Char) : Byte := BitVec.ofNat 8 c.toNat

namespace BinaryDrat

/-- The loop of `write_lit` (`/repo/starlit/src/proof/drat.rs:58-62`). `fuel` bounds the number of
iterations; a 64-bit `usize` needs at most ten bytes. -/
def writeCode : Nat → Nat → List Byte
  | 0, code => [BitVec.ofNat 8 code]
  | fuel + 1, code =>
    if code ≥ 0x80 then (BitVec.ofNat 8 code ||| 0x80#8) :: writeCode fuel (code >>> 7)
    else [BitVec.ofNat 8 code]

/-- `write_lit` (`/repo/starlit/src/proof/drat.rs:54-63`). -/
def writeLit (l : Lit) : List Byte := writeCode 9 (l.neg.code + 2)

/-- `write_lits` (`/repo/starlit/src/proof/drat.rs:47-52`). -/
def writeLits (ls : List Lit) : List Byte := ls.flatMap writeLit ++ [0#8]

/-- `add_clause` and `delete_clause` (`/repo/starlit/src/proof/drat.rs:67-75`). -/
def write : ProofStep → List Byte
  | .add ls => ascii 'a' :: writeLits ls
  | .delete ls => ascii 'd' :: writeLits ls

/-- The output for a sequence of calls. -/
def output (steps : List ProofStep) : List Byte := steps.flatMap write

end BinaryDrat

namespace Drat

/-- Decimal digits of a natural number, most significant first. -/
def digits : Nat → Nat → List Byte
  | 0, _ => []
  | fuel + 1, n => (if n < 10 then [] else digits fuel (n / 10)) ++ [BitVec.ofNat 8 (48 + n % 10)]

/-- `flussab::write::text::ascii_digits`. -/
def asciiDigits (n : Int) : List Byte :=
  if n < 0 then ascii '-' :: digits (n.natAbs + 1) n.natAbs else digits (n.natAbs + 1) n.natAbs

/-- `add_clause` (`/repo/starlit/src/proof/drat.rs:17-23`). -/
def writeClause (ls : List Lit) : List Byte :=
  ls.flatMap (fun l => asciiDigits l.dimacs ++ [ascii ' ']) ++ [ascii '0', ascii '\n']

/-- `add_clause` and `delete_clause` (`/repo/starlit/src/proof/drat.rs:17-28`). -/
def write : ProofStep → List Byte
  | .add ls => writeClause ls
  | .delete ls => [ascii 'd', ascii ' '] ++ writeClause ls

/-- The output for a sequence of calls. -/
def output (steps : List ProofStep) : List Byte := steps.flatMap write

end Drat

end Starlit
