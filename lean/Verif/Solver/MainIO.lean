import Verif.Solver.Main

/-!
# The command line program with files that can fail

`Cli.main` (`Verif/Solver/Main.lean`) takes the proof file to be a list of bytes to which the proof writer appends.
Here the bytes pass through the buffer of `flussab::DeferredWriter` to a device that can fail, the proof file can
exist already, and the input can end with an error.  `flussab` is not part of the repository; its writer is modelled
after its documentation: errors are kept until `check_io_error`, and what is written after an error is dropped.
-/

namespace Starlit

/-- What `write_all` of a file does, given the bytes that are in the file and those to be written: `none` if all of
them are written, `some k` for an error after `k` bytes. -/
abbrev Device := List Byte → List Byte → Option Nat

/-- `flussab::DeferredWriter`: the bytes in the file, the buffer and its capacity, and whether there is an error that
was not reported. -/
structure DeferredWriter where
  file : List Byte
  buf : List Byte
  cap : Nat
  failed : Bool
deriving DecidableEq, Repr

namespace DeferredWriter

/-- `from_write` on a new file. -/
def new (cap : Nat) : DeferredWriter := ⟨[], [], cap, false⟩

/-- A write to the file; nothing is written after an error. -/
def writeOut (dev : Device) (w : DeferredWriter) (bytes : List Byte) : DeferredWriter :=
  if w.failed then w
  else match dev w.file bytes with
    | none => { w with file := w.file ++ bytes }
    | some k => { w with file := w.file ++ bytes.take k, failed := true }

/-- `flush_defer_err`. -/
def flushDeferErr (dev : Device) (w : DeferredWriter) : DeferredWriter :=
  { w.writeOut dev w.buf with buf := [] }

/-- `write_all_defer_err`: small writes go to the buffer, which is flushed when it is full; a write as large as the
buffer goes to the file. -/
def writeAllDeferErr (dev : Device) (w : DeferredWriter) (bytes : List Byte) : DeferredWriter :=
  if w.buf.length + bytes.length ≤ w.cap then { w with buf := w.buf ++ bytes }
  else if bytes.length < w.cap then
    let n := w.cap - w.buf.length
    let w := flushDeferErr dev { w with buf := w.buf ++ bytes.take n }
    { w with buf := w.buf ++ bytes.drop n }
  else (w.flushDeferErr dev).writeOut dev bytes

/-- `check_io_error`: the writer and whether there was no error. -/
def checkIoError (w : DeferredWriter) : DeferredWriter × Bool := ({ w with failed := false }, !w.failed)

end DeferredWriter

namespace BinaryDrat

/-- The arguments of `write_all_defer_err` in `write_lits` (`/repo/starlit/src/proof/drat.rs:47-63`). -/
def litCalls (ls : List Lit) : List (List Byte) := (ls.flatMap fun l => (writeLit l).map fun b => [b]) ++ [[0#8]]

/-- The arguments of `write_all_defer_err` in `add_clause` and `delete_clause`
(`/repo/starlit/src/proof/drat.rs:67-75`). -/
def calls : ProofStep → List (List Byte)
  | .add ls => [ascii 'a'] :: litCalls ls
  | .delete ls => [ascii 'd'] :: litCalls ls

end BinaryDrat

namespace Drat

/-- The arguments of `write_all_defer_err` in `add_clause` (`/repo/starlit/src/proof/drat.rs:17-23`);
`ascii_digits` is taken to write its digits at once. -/
def clauseCalls (ls : List Lit) : List (List Byte) :=
  (ls.flatMap fun l => [asciiDigits l.dimacs, [ascii ' ']]) ++ [[ascii '0', ascii '\n']]

/-- The arguments of `write_all_defer_err` in `add_clause` and `delete_clause`
(`/repo/starlit/src/proof/drat.rs:17-28`). -/
def calls : ProofStep → List (List Byte)
  | .add ls => clauseCalls ls
  | .delete ls => [ascii 'd', ascii ' '] :: clauseCalls ls

end Drat

namespace Cli

/-- The calls of `write_all_defer_err` for a proof step. -/
def ProofFormat.calls : ProofFormat → ProofStep → List (List Byte)
  | .drat => Drat.calls
  | .binaryDrat => BinaryDrat.calls

/-- The writer after the proof steps.  The methods of `Proof` return nothing, so that the solver does not depend on
the writer, and the calls can be made when the solver is done. -/
def ProofFormat.write (f : ProofFormat) (dev : Device) (w : DeferredWriter) (log : List ProofStep) :
    DeferredWriter :=
  (log.flatMap f.calls).foldl (DeferredWriter.writeAllDeferErr dev) w

/-- `flush` of the proof writers (`/repo/starlit/src/proof/drat.rs:30-33`, `77-80`), which is also the result of
`close_proof` (`/repo/starlit/src/solver.rs:50-58`). -/
def closeProof (dev : Device) (w : DeferredWriter) : DeferredWriter × Bool :=
  (w.flushDeferErr dev).checkIoError

/-- The proof file and its device: its contents when the program is started (`none` if it does not exist), whether it
can be created, and the capacity of the buffer. -/
structure ProofFile where
  old : Option (List Byte)
  creatable : Bool
  dev : Device
  cap : Nat

/-- The input file: whether `cnf::Parser::from_read` succeeds, the number of variables of the header, if there is
one, the clauses read, and whether they are followed by the end of the input and not by an error. -/
structure InputFile where
  readable : Bool
  header : Option Nat
  clauses : List (List Int)
  complete : Bool

/-- `main` returns an error: a message on standard error, nothing more on standard output, exit code 1.  The solver is
dropped, and with it the proof writer, which flushes its buffer. -/
def failure (format : Option ProofFormat) (pf : ProofFile) (s : Solver) : Outcome :=
  ⟨[], 1, format.map fun f =>
    ((f.write pf.dev (.new pf.cap) (s.ctx.proof.getD [])).flushDeferErr pf.dev).file⟩

/-- `main` (`/repo/starlit-cli/src/main.rs:46-145`) as in `Cli.main`, with the file operations. -/
def mainIO (env : Env) (k : Nat) (format : Option ProofFormat) (pf : ProofFile) (input : InputFile) :
    M (Option Outcome) := do
  if format.isSome ∧ (pf.old.isSome ∨ pf.creatable = false) then
    pure (some ⟨[], 1, pf.old⟩)
  else
    let s := Solver.default env
    let s := if format.isSome then s.writeProof else s
    if input.readable = false then pure (some (failure format pf s))
    else match input.header with
    | none => pure (some (failure format pf s))
    | some varCount => do
      let s ← readClauses s input.clauses
      if input.complete = false then pure (some (failure format pf s))
      else do
        let (s, r) ← s.solve env k
        match r with
        | none => pure none
        | some satisfiable => do
          let closed := format.map fun f => closeProof pf.dev (f.write pf.dev (.new pf.cap) (s.ctx.proof.getD []))
          if closed.any (fun c => !c.2) then pure (some ⟨[], 1, closed.map fun c => c.1.file⟩)
          else do
            let vs ← if satisfiable then readValues s (List.range varCount) else pure []
            let (lines, code) ← Cli.result satisfiable (fun i => vs.getD i none) varCount
            pure (some ⟨lines, code, closed.map fun c => c.1.file⟩)

end Cli

end Starlit
