import Verif.LogMacro
import Verif.Props.Cli

/-!
# Property C103: the log macros print every argument with its name
-/

namespace Starlit.LogMacro

/-- The four forms of arguments. -/
inductive Arg where
  /-- `expr` -/
  | bare (toks : List Tok) (e : Expr)
  /-- `= expr` -/
  | shown (toks : List Tok) (e : Expr)
  /-- `name = expr` -/
  | named (name : List Byte) (toks : List Tok) (e : Expr)
  /-- `"name" = expr` -/
  | quoted (name : List Byte) (toks : List Tok) (e : Expr)
deriving DecidableEq, Repr

/-- How an argument is written. -/
def Arg.toks : Arg → List Tok
  | .bare ts _ => ts
  | .shown ts _ => .eq :: ts
  | .named n ts _ => .ident n :: .eq :: ts
  | .quoted n ts _ => .str n :: .eq :: ts

/-- The tokens of the expression. -/
def Arg.exprToks : Arg → List Tok
  | .bare ts _ | .shown ts _ | .named _ ts _ | .quoted _ ts _ => ts

/-- The expression. -/
def Arg.expr : Arg → Expr
  | .bare _ e | .shown _ e | .named _ _ e | .quoted _ _ e => e

/-- The name that is printed before the value, if there is one. -/
def Arg.name : Arg → Option (List Byte)
  | .bare _ _ => none
  | .shown _ e => some e.text
  | .named n _ _ => some n
  | .quoted n _ _ => some n

/-- What should be printed for an expression: a string literal as it is, other values by `{:?}`. -/
def Expr.shown (e : Expr) : List Byte := e.lit.getD e.debug

/-- What should be printed for an argument: name, colon, value, each after a space. -/
def Arg.printed (a : Arg) : List Byte :=
  (match a.name with
    | some n => 0x20#8 :: n ++ [0x3a#8]
    | none => []) ++ 0x20#8 :: a.expr.shown

/-- The expression parser reads the expression of an argument if a comma or nothing follows. -/
def Arg.Read (p : ExprParser) (a : Arg) : Prop :=
  ∀ rest, (rest = [] ∨ ∃ r, rest = .comma :: r) → p (a.exprToks ++ rest) = some (a.expr, rest)

/-- Tokens that the macro does not take for an expression with a name. -/
def plain : List Tok → Bool
  | [] => false
  | .eq :: _ => false
  | .ident _ :: .eq :: _ => false
  | .str _ :: .eq :: _ => false
  | _ => true

/-- Arguments for which the macro does what it should: string literals have no name, and an
expression without a name does not look like one with a name. -/
def Arg.Good : Arg → Prop
  | .bare ts _ => plain ts
  | .shown _ e | .named _ _ e | .quoted _ _ e => e.lit = none

/-- Arguments separated by commas. -/
def commas : List (List Tok) → List Tok
  | [] => []
  | [a] => a
  | a :: b :: as => a ++ .comma :: commas (b :: as)

/-- The items of an argument, joined, are its text. -/
theorem itemsText (a : Arg) (h : a.Good) (r r' : List Tok) (p : ExprParser)
    (hp : p (a.exprToks ++ r) = some (a.expr, r')) (hr : r = [] ∨ ∃ q, r = .comma :: q) :
    ∃ g, parseArg p (a.toks ++ r) = some (g, r') ∧
      g.items.flatMap (fun i => 0x20#8 :: i.text) = a.printed := by
  cases a with
  | bare ts e =>
    have hn : parseNamed p (ts ++ r) = some ((none, e), r') := by
      simp only [Arg.exprToks, Arg.expr] at hp
      simp only [Arg.Good] at h
      match ts, h with
      | .comma :: ts, _ => simp only [List.cons_append] at hp ⊢; simp [parseNamed, hp]
      | .other t :: ts, _ => simp only [List.cons_append] at hp ⊢; simp [parseNamed, hp]
      | [.ident n], _ =>
        rcases hr with rfl | ⟨q, rfl⟩ <;>
          (simp only [List.cons_append, List.nil_append] at hp ⊢; simp [parseNamed, hp])
      | [.str n], _ =>
        rcases hr with rfl | ⟨q, rfl⟩ <;>
          (simp only [List.cons_append, List.nil_append] at hp ⊢; simp [parseNamed, hp])
      | .ident n :: .ident m :: ts, _ => simp only [List.cons_append] at hp ⊢; simp [parseNamed, hp]
      | .ident n :: .str m :: ts, _ => simp only [List.cons_append] at hp ⊢; simp [parseNamed, hp]
      | .ident n :: .comma :: ts, _ => simp only [List.cons_append] at hp ⊢; simp [parseNamed, hp]
      | .ident n :: .other m :: ts, _ => simp only [List.cons_append] at hp ⊢; simp [parseNamed, hp]
      | .str n :: .ident m :: ts, _ => simp only [List.cons_append] at hp ⊢; simp [parseNamed, hp]
      | .str n :: .str m :: ts, _ => simp only [List.cons_append] at hp ⊢; simp [parseNamed, hp]
      | .str n :: .comma :: ts, _ => simp only [List.cons_append] at hp ⊢; simp [parseNamed, hp]
      | .str n :: .other m :: ts, _ => simp only [List.cons_append] at hp ⊢; simp [parseNamed, hp]
    simp only [Arg.toks]
    unfold parseArg
    rw [hn]
    cases hl : e.lit with
    | none =>
      exact ⟨.value none e, by simp [hl],
        by simp [LogArg.items, Arg.printed, Arg.name, Arg.expr, Expr.shown, hl, LogItem.text]⟩
    | some s =>
      exact ⟨.message s, by simp [hl],
        by simp [LogArg.items, Arg.printed, Arg.name, Arg.expr, Expr.shown, hl, LogItem.text]⟩
  | shown ts e =>
    simp only [Arg.exprToks, Arg.expr] at hp
    simp only [Arg.Good] at h
    refine ⟨.value (some e.text) e, by simp [parseArg, parseNamed, Arg.toks, hp, h], ?_⟩
    simp [LogArg.items, Arg.printed, Arg.name, Arg.expr, Expr.shown, h, LogItem.text]; rfl
  | named n ts e =>
    simp only [Arg.exprToks, Arg.expr] at hp
    simp only [Arg.Good] at h
    refine ⟨.value (some n) e, by simp [parseArg, parseNamed, Arg.toks, hp, h], ?_⟩
    simp [LogArg.items, Arg.printed, Arg.name, Arg.expr, Expr.shown, h, LogItem.text]; rfl
  | quoted n ts e =>
    simp only [Arg.exprToks, Arg.expr] at hp
    simp only [Arg.Good] at h
    refine ⟨.value (some n) e, by simp [parseArg, parseNamed, Arg.toks, hp, h], ?_⟩
    simp [LogArg.items, Arg.printed, Arg.name, Arg.expr, Expr.shown, h, LogItem.text]; rfl

theorem toks_ne {a : Arg} (h : a.Good) : a.toks ≠ [] := by
  cases a with
  | bare ts e =>
    intro e'
    simp only [Arg.toks] at e'
    simp [Arg.Good, e', plain] at h
  | shown ts e => simp [Arg.toks]
  | named n ts e => simp [Arg.toks]
  | quoted n ts e => simp [Arg.toks]

theorem parseArgs_commas (p : ExprParser) (trail : List Tok) (ht : trail = [] ∨ trail = [.comma])
    (args : List Arg) (h : ∀ a ∈ args, a.Good ∧ a.Read p) (hne : args ≠ []) (fuel : Nat)
    (hf : args.length ≤ fuel) :
    ∃ gs, parseArgs p fuel (commas (args.map Arg.toks) ++ trail) = some gs ∧
      (gs.flatMap LogArg.items).flatMap (fun i => 0x20#8 :: i.text) = args.flatMap Arg.printed := by
  induction args generalizing fuel with
  | nil => exact absurd rfl hne
  | cons a as ih =>
    obtain ⟨hg, hr⟩ := h a (by simp)
    obtain ⟨fuel, rfl⟩ : ∃ k, fuel = k + 1 := ⟨fuel - 1, by simp at hf; omega⟩
    have hcons : ∃ t ts, a.toks = t :: ts := by
      cases e : a.toks with
      | nil => exact absurd e (toks_ne hg)
      | cons t ts => exact ⟨t, ts, rfl⟩
    obtain ⟨t, ts, et⟩ := hcons
    cases as with
    | nil =>
      have htr : trail = [] ∨ ∃ q, trail = .comma :: q := by
        rcases ht with rfl | rfl
        · exact Or.inl rfl
        · exact Or.inr ⟨[], rfl⟩
      obtain ⟨g, e1, e2⟩ := itemsText a hg trail trail p (hr _ htr) htr
      refine ⟨[g], ?_, by simpa using e2⟩
      simp only [List.map_cons, List.map_nil, commas]
      rw [et] at e1 ⊢
      simp only [List.cons_append] at e1 ⊢
      simp only [parseArgs, e1]
      rcases ht with rfl | rfl
      · rfl
      · cases fuel <;> rfl
    | cons b bs =>
      obtain ⟨gs, e3, e4⟩ := ih (fun x hx => h x (by simp [hx])) (by simp) fuel
        (by simp at hf ⊢; omega)
      obtain ⟨g, e1, e2⟩ := itemsText a hg
        (.comma :: (commas ((b :: bs).map Arg.toks) ++ trail)) _ p
        (hr _ (Or.inr ⟨_, rfl⟩)) (Or.inr ⟨_, rfl⟩)
      refine ⟨g :: gs, ?_, ?_⟩
      · have : commas ((a :: b :: bs).map Arg.toks) ++ trail =
            a.toks ++ .comma :: (commas ((b :: bs).map Arg.toks) ++ trail) := by
          simp [commas]
        rw [this]
        rw [et] at e1 ⊢
        simp only [List.cons_append] at e1 ⊢
        simp only [parseArgs, e1, e3, Option.map_some]
      · simp only [List.flatMap_cons, List.flatMap_append, e2, e4]

theorem commas_length {args : List Arg} (h : ∀ a ∈ args, a.Good) :
    args.length ≤ (commas (args.map Arg.toks)).length := by
  induction args with
  | nil => simp
  | cons a as ih =>
    have h1 := List.length_pos_iff.2 (toks_ne (h a (by simp)))
    have h2 := ih (fun x hx => h x (by simp [hx]))
    cases as with
    | nil => simp only [List.map_cons, List.map_nil, commas, List.length_cons, List.length_nil]; omega
    | cons b bs =>
      simp only [List.map_cons, commas, List.length_append, List.length_cons] at h2 ⊢
      omega

/-- A call of a log macro with arguments of any of the four forms, with or without a comma at the
end, compiles, and if the level is active it prints for every argument the name, a colon and the
value, in order, in one line; otherwise nothing.  Missing: arguments with a name whose value is a
string literal and expressions like `a == b`. -/
theorem C103_args_partial (p : ExprParser) (lg : Logger) (level : LogLevel) (loc : List Byte)
    (ctx : List Byte) (args : List Arg) (h : ∀ a ∈ args, a.Good ∧ a.Read p)
    (trail : List Tok) (ht : trail = [] ∨ (args ≠ [] ∧ trail = [.comma]))
    (hl : lg.logSourceLocations = false) :
    call p lg level loc (.ident ctx :: .comma :: (commas (args.map Arg.toks) ++ trail)) =
      some (if level.toU8 < lg.levelLimit then
        Logger.pref level ++ args.flatMap Arg.printed ++ [0x0a#8] else []) := by
  have key : ∃ items, logItems p (commas (args.map Arg.toks) ++ trail) = some items ∧
      items.flatMap (fun i => 0x20#8 :: i.text) = args.flatMap Arg.printed := by
    by_cases hne : args = []
    · subst hne
      rcases ht with rfl | ⟨h, _⟩
      · exact ⟨[], rfl, rfl⟩
      · exact absurd rfl h
    · obtain ⟨gs, e1, e2⟩ := parseArgs_commas p trail (by
          rcases ht with h | ⟨_, h⟩
          · exact Or.inl h
          · exact Or.inr h) args h hne
        (commas (args.map Arg.toks) ++ trail).length (by
          have := commas_length (fun a ha => (h a ha).1)
          rw [List.length_append]; omega)
      exact ⟨_, by rw [logItems, e1]; rfl, e2⟩
  obtain ⟨items, e1, e2⟩ := key
  simp only [call, e1, Option.map_some]
  congr 1
  unfold Logger.log Logger.performLog
  rw [combine_flatMap, e2, hl]
  simp

/-- The name of a string literal is lost, in each of the three forms with a name. -/
theorem C103_name_false (p : ExprParser) (lg : Logger) (level : LogLevel) (loc : List Byte)
    (ctx : List Byte) (a : Arg) (s : List Byte) (hr : a.Read p) (hs : a.expr.lit = some s)
    (hn : a.name ≠ none) (hl : lg.logSourceLocations = false) (hv : level.toU8 < lg.levelLimit) :
    call p lg level loc (.ident ctx :: .comma :: a.toks) =
      some (Logger.pref level ++ 0x20#8 :: s ++ [0x0a#8]) ∧
    Logger.pref level ++ 0x20#8 :: s ++ [0x0a#8] ≠
      Logger.pref level ++ a.printed ++ [0x0a#8] := by
  have hp := hr [] (Or.inl rfl)
  rw [List.append_nil] at hp
  have hc : call p lg level loc (.ident ctx :: .comma :: a.toks) =
      some (lg.log level loc [.message s]) := by
    cases a with
    | bare ts e => exact absurd rfl hn
    | shown ts e =>
      simp only [Arg.exprToks, Arg.expr] at hp hs
      simp [call, logItems, parseArgs, parseArg, parseNamed, Arg.toks, hp, hs, LogArg.items]
    | named n ts e =>
      simp only [Arg.exprToks, Arg.expr] at hp hs
      simp [call, logItems, parseArgs, parseArg, parseNamed, Arg.toks, hp, hs, LogArg.items]
    | quoted n ts e =>
      simp only [Arg.exprToks, Arg.expr] at hp hs
      simp [call, logItems, parseArgs, parseArg, parseNamed, Arg.toks, hp, hs, LogArg.items]
  refine ⟨?_, ?_⟩
  · rw [hc]
    simp [Logger.log, Logger.performLog, hv, hl, Logger.combine, Logger.addItem, ascii]
  · intro e
    have := congrArg List.length e
    cases hn' : a.name with
    | none => exact hn hn'
    | some n =>
      simp [Arg.printed, hn', Expr.shown, hs] at this
      omega

/-- A comparison of a variable with something is not accepted without parentheses: it is taken for
a name and an expression that starts with `=`. -/
theorem C103_equals_false (p : ExprParser) (hp : ∀ r, p (.eq :: r) = none) (lg : Logger)
    (level : LogLevel) (loc ctx n : List Byte) (rest : List Tok) :
    call p lg level loc (.ident ctx :: .comma :: .ident n :: .eq :: .eq :: rest) = none := by
  simp [call, logItems, parseArgs, parseArg, parseNamed, hp]

/-! ## A concrete case -/

namespace Example

/-- An expression parser for examples: all tokens up to a comma, if the first is not `=`; the value
of an identifier or of several tokens is printed as `7`. -/
def parser : ExprParser
  | [] | .eq :: _ | .comma :: _ => none
  | .str s :: [] => some (⟨0x22#8 :: s ++ [0x22#8], some s, []⟩, [])
  | .str s :: .comma :: r => some (⟨0x22#8 :: s ++ [0x22#8], some s, []⟩, .comma :: r)
  | t :: r =>
    let ts := t :: r.takeWhile (· != .comma)
    some (⟨ts.flatMap (fun
      | .ident n => n
      | .other n => n
      | .eq => Logger.text "="
      | _ => []), none, Logger.text "7"⟩, r.dropWhile (· != .comma))

/-- `info` is active. -/
def lg : Logger := Logger.default.setLogLevel (some .info)

/-- An identifier. -/
def id (s : String) : Tok := .ident (Logger.text s)

/-- The expression with value 7 and the given text. -/
def seven (s : String) : Expr := ⟨Logger.text s, none, Logger.text "7"⟩

theorem parser_ident (s : String) (e : Arg) (he : e.exprToks = [id s]) (hx : e.expr = seven s) :
    e.Read parser := by
  intro rest hr
  rw [he, hx]
  rcases hr with rfl | ⟨r, rfl⟩ <;> simp [parser, id, seven]

/-- The arguments of `info!(ctx, = satisfiable, "after", conflicts = c, "per sec" = x, y)`. -/
def args : List Arg :=
  [.shown [id "satisfiable"] (seven "satisfiable"),
    .bare [.str (Logger.text "after")] ⟨Logger.text "\"after\"", some (Logger.text "after"), []⟩,
    .named (Logger.text "conflicts") [id "c"] (seven "c"),
    .quoted (Logger.text "per sec") [id "x"] (seven "x"),
    .bare [id "y"] (seven "y")]

theorem args_good : ∀ a ∈ args, a.Good ∧ a.Read parser := by
  intro a ha
  simp only [args, List.mem_cons, List.not_mem_nil, or_false] at ha
  rcases ha with rfl | rfl | rfl | rfl | rfl
  · exact ⟨rfl, parser_ident _ _ rfl rfl⟩
  · refine ⟨rfl, ?_⟩
    intro rest hr
    rcases hr with rfl | ⟨r, rfl⟩ <;> rfl
  · exact ⟨rfl, parser_ident _ _ rfl rfl⟩
  · exact ⟨rfl, parser_ident _ _ rfl rfl⟩
  · exact ⟨rfl, parser_ident _ _ rfl rfl⟩

end Example

open Example in
/-- All four forms and a string in one call, with a comma at the end; a name that is lost; and a
comparison that is only accepted with the name in parentheses. -/
theorem C103_example :
    (∀ a ∈ args, a.Good ∧ a.Read parser) ∧
    call parser lg .info [] (id "ctx" :: .comma :: (commas (args.map Arg.toks) ++ [.comma])) =
      some (Logger.text "c satisfiable: 7 after conflicts: 7 per sec: 7 7" ++ [0x0a#8]) ∧
    call parser lg .info [] [id "ctx", .comma, id "mode", .eq, .str (Logger.text "fast")] =
      some (Logger.text "c fast" ++ [0x0a#8]) ∧
    call parser lg .info [] [id "ctx", .comma, id "a", .eq, .eq, id "b"] = none ∧
    parser [id "a", .eq, .eq, id "b"] = some (seven "a==b", []) ∧
    call parser lg .info [] [id "ctx", .comma, .other (Logger.text "(a)"), .eq, .eq, id "b"] =
      some (Logger.text "c 7" ++ [0x0a#8]) :=
  ⟨args_good, by decide, by decide, by decide, by decide, by decide⟩

end Starlit.LogMacro
