import Verif.Cli

/-!
# The log macros

Model of `/repo/starlit-macros/src/log.rs`: how the arguments of `info!`, `verbose!`, `debug!` and
`trace!` are parsed and what the expansion prints.  The parser for Rust expressions (`syn`) is a
parameter.
-/

namespace Starlit.LogMacro

/-- Tokens of a macro call, as far as the macro looks at them: identifiers other than keywords,
string literals with their value, the characters `=` and `,`, anything else.  As in `proc_macro2`,
`==` is two tokens `=`; `Token![=]` matches the first of them. -/
inductive Tok where
  | ident (name : List Byte)
  | str (value : List Byte)
  | eq
  | comma
  | other (text : List Byte)
deriving DecidableEq, Repr

/-- What the macro and the code it makes use of an expression: the text of its tokens, the string
if the expression is a string literal without attributes, and the text that `{:?}` prints for its
value. -/
structure Expr where
  text : List Byte
  lit : Option (List Byte)
  debug : List Byte
deriving DecidableEq, Repr

/-- `Expr::parse` of `syn`: an expression at the start of the tokens, and the tokens after it. -/
abbrev ExprParser := List Tok → Option (Expr × List Tok)

/-- `enum LogArg` and `struct LogValueArg` (`/repo/starlit-macros/src/log.rs:12-20`). -/
inductive LogArg where
  | message (text : List Byte)
  | value (name : Option (List Byte)) (expr : Expr)
deriving DecidableEq, Repr

/-- The name and the expression (`/repo/starlit-macros/src/log.rs:26-46`). -/
def parseNamed (p : ExprParser) : List Tok → Option ((Option (List Byte) × Expr) × List Tok)
  | .eq :: r => (p r).map (fun (e, r) => ((some e.text, e), r))
  | .ident n :: .eq :: r => (p r).map (fun (e, r) => ((some n, e), r))
  | .str n :: .eq :: r => (p r).map (fun (e, r) => ((some n, e), r))
  | r => (p r).map (fun (e, r) => ((none, e), r))

/-- `impl Parse for LogArg` (`/repo/starlit-macros/src/log.rs:24-61`). -/
def parseArg (p : ExprParser) (toks : List Tok) : Option (LogArg × List Tok) :=
  (parseNamed p toks).map (fun ((name, e), r) =>
    match e.lit with
    | some s => (.message s, r)
    | none => (.value name e, r))

/-- `Punctuated::parse_terminated` of `syn`, called at `/repo/starlit-macros/src/log.rs:70`:
arguments separated by commas, with or without a comma at the end. -/
def parseArgs (p : ExprParser) : Nat → List Tok → Option (List LogArg)
  | _, [] => some []
  | 0, _ => none
  | fuel + 1, toks =>
    match parseArg p toks with
    | none => none
    | some (a, []) => some [a]
    | some (a, .comma :: r) => (parseArgs p fuel r).map (a :: ·)
    | some (_, _ :: _) => none

/-- The items of an argument (`/repo/starlit-macros/src/log.rs:72-84`). -/
def LogArg.items : LogArg → List LogItem
  | .message msg => [.message msg]
  | .value (some name) e => [.message (name ++ [ascii ':']), .value e.debug]
  | .value none e => [.value e.debug]

/-- `log_items` (`/repo/starlit-macros/src/log.rs:69-84`): the items before adjacent messages are
joined, which `Logger.combine` does in `Logger.performLog`. -/
def logItems (p : ExprParser) (toks : List Tok) : Option (List LogItem) :=
  (parseArgs p toks.length toks).map (fun args => args.flatMap LogArg.items)

/-- `log` (`/repo/starlit-macros/src/log.rs:113-125`): what a call of a log macro prints, or `none`
if it does not compile.  The context is an identifier followed by a comma. -/
def call (p : ExprParser) (lg : Logger) (level : LogLevel) (location : List Byte) :
    List Tok → Option (List Byte)
  | .ident _ :: .comma :: toks => (logItems p toks).map (lg.log level location)
  | _ => none

end Starlit.LogMacro
