import Verif.Drat

/-!
# Logging and the command line front end

Models of `/repo/starlit/src/log.rs`, of the items built by the logging macros
(`/repo/starlit-macros/src/log.rs`) and of the output of `/repo/starlit-cli/src/main.rs`.
Text is a list of bytes.  Time stamps are not modelled (they only occur as texts of values).
-/

namespace Starlit

/-- `LogLevel` (`/repo/starlit/src/log.rs:13-22`). -/
inductive LogLevel where
  | info | verbose | debug | trace
deriving DecidableEq, Repr

/-- `level as u8`: the discriminant, counted in order of declaration
(`/repo/starlit/src/log.rs:13-22`). -/
def LogLevel.toU8 : LogLevel → Nat
  | .info => 0
  | .verbose => 1
  | .debug => 2
  | .trace => 3

/-- `Logger` (`/repo/starlit/src/log.rs:27-31`) without the start time. -/
structure Logger where
  levelLimit : Nat
  logSourceLocations : Bool
deriving DecidableEq, Repr

/-- A log item after expansion of the macro arguments
(`/repo/starlit-macros/src/log.rs:64-67`); a value is given by its formatted text. -/
inductive LogItem where
  | message (text : List Byte)
  | value (text : List Byte)
deriving DecidableEq, Repr

namespace Logger

/-- `Default::default()` (`/repo/starlit/src/log.rs:33-41`). -/
def default : Logger := ⟨0, false⟩

/-- `set_log_level` (`/repo/starlit/src/log.rs:45-51`). -/
def setLogLevel (l : Logger) (level : Option LogLevel) : Logger :=
  match level with
  | some level => { l with levelLimit := level.toU8 + 1 }
  | none => { l with levelLimit := 0 }

/-- `log_source_locations` (`/repo/starlit/src/log.rs:54-56`). -/
def setLogSourceLocations (l : Logger) (b : Bool) : Logger := { l with logSourceLocations := b }

/-- The text of a string literal (ASCII only). -/
def text (s : String) : List Byte := s.toList.map ascii

/-- The loop that joins adjacent messages (`/repo/starlit-macros/src/log.rs:86-97`). -/
def combine : List LogItem → List LogItem → List LogItem
  | acc, [] => acc
  | acc, .message msg :: rest =>
    match acc.getLast? with
    | some (.message last) =>
      combine (acc.dropLast ++ [.message (last ++ ascii ' ' :: msg)]) rest
    | _ => combine (acc ++ [.message msg]) rest
  | acc, .value v :: rest => combine (acc ++ [.value v]) rest

/-- `add_message` and `add_value` (`/repo/starlit/src/log.rs:113-124`). -/
def addItem : LogItem → List Byte
  | .message t => ascii ' ' :: t
  | .value t => ascii ' ' :: t

/-- The prefix of a message (`/repo/starlit/src/log.rs:86-91`). -/
def pref : LogLevel → List Byte
  | .info => text "c"
  | .verbose => text "c V:"
  | .debug => text "c D:"
  | .trace => text "c T:"

/-- `perform_log` (`/repo/starlit/src/log.rs:77-101`) with the closure built by `log_items`
(`/repo/starlit-macros/src/log.rs:69-111`).  `location` is the text `file:line`. -/
def performLog (l : Logger) (level : LogLevel) (location : List Byte) (items : List LogItem) :
    List Byte :=
  pref level ++ (combine [] items).flatMap addItem ++
    (if l.logSourceLocations then
      0x20#8 :: 0x1b#8 :: text "[34m" ++ location ++ 0x1b#8 :: text "[0m" ++ [0x0a#8]
    else [0x0a#8])

/-- `Logger::log` (`/repo/starlit/src/log.rs:64-68`): the bytes written to standard output. -/
def log (l : Logger) (level : LogLevel) (location : List Byte) (items : List LogItem) : List Byte :=
  if level.toU8 < l.levelLimit then performLog l level location items else []

end Logger

namespace Cli

/-- The log level chosen by the flags (`/repo/starlit-cli/src/main.rs:51-57`). -/
def logLevel (verbose quiet : Nat) : Option LogLevel :=
  match verbose, quiet with
  | 0, 0 => some .info
  | 1, _ => some .verbose
  | 2, _ => some .debug
  | _, 0 => some .trace
  | _, _ => none

/-- The body of the loop over the variables (`/repo/starlit-cli/src/main.rs:120-135`).  The state is
the current line and the lines printed so far; `value` is `solver.value` of the positive literal
with the given index. -/
def modelStep (value : Nat → Option Bool) (st : List Byte × List (List Byte)) (index : Nat) :
    M (List Byte × List (List Byte)) := do
  let lit ← Lit.fromIndex index true
  match value index with
  | none => pure st
  | some v =>
    let len := st.1.length
    let line := st.1 ++ (ascii ' ' :: Drat.asciiDigits (lit.xorBool (!v)).dimacs)
    if line.length > 77 then
      pure (ascii ' ' :: Drat.asciiDigits (lit.xorBool (!v)).dimacs,
        st.2 ++ [ascii 'v' :: line.take len])
    else pure (line, st.2)

/-- The loop over the variables (`/repo/starlit-cli/src/main.rs:120-135`). -/
def modelLoop (value : Nat → Option Bool) (st : List Byte × List (List Byte)) :
    List Nat → M (List Byte × List (List Byte))
  | [] => pure st
  | i :: is => do
    let st ← modelStep value st i
    modelLoop value st is

/-- The lines printed for a model (`/repo/starlit-cli/src/main.rs:118-139`). -/
def modelLines (value : Nat → Option Bool) (varCount : Nat) : M (List (List Byte)) := do
  let (line, out) ← modelLoop value ([], []) (List.range varCount)
  let out := if line.isEmpty then out else out ++ [ascii 'v' :: line]
  pure (out ++ [[ascii 'v', ascii ' ', ascii '0']])

/-- The lines printed for the result and the exit code (`/repo/starlit-cli/src/main.rs:116-144`). -/
def result (satisfiable : Bool) (value : Nat → Option Bool) (varCount : Nat) :
    M (List (List Byte) × Nat) := do
  if satisfiable then
    let lines ← modelLines value varCount
    pure (Logger.text "s SATISFIABLE" :: lines, 20)
  else pure ([Logger.text "s UNSATISFIABLE"], 20)

end Cli

end Starlit
