import Verif.Solver.Trace
import Verif.Props.Stdout
import Verif.Props.LitApi

/-!
# C105: the text of log messages
-/

namespace Starlit

namespace Reader

/-- Punctuation marks of `Debug` output are read as spaces. -/
def clean (b : Byte) : Byte :=
  if b ∈ [0x5b#8, 0x5d#8, 0x7b#8, 0x7d#8, 0x2c#8] then 0x20#8 else b

/-- A number. -/
def number (w : List Byte) : Option Nat :=
  match TextFormat.parseNat w with
  | some (n, []) => some n
  | _ => none

/-- A literal. -/
def literal (w : List Byte) : Option Lit :=
  match TextFormat.parseInt w with
  | some (n, []) => (Lit.fromDimacs n).toOption
  | _ => none

/-- Reads a message, given by its first three words and the others. -/
def readWords (key rest : List (List Byte)) : Option Event :=
  if key = words (Logger.text "c D: restart") then (if rest = [] then some .restart else none)
  else if key = words (Logger.text "c D: reduce") then (if rest = [] then some .reduce else none)
  else if key = words (Logger.text "c V: unsatisfiable") then (if rest = [] then some .unsat else none)
  else if key = words (Logger.text "c V: satisfiable") then (if rest = [] then some .sat else none)
  else if key = words (Logger.text "c T: decision:") then
    match rest with
    | [l] => (literal l).map .decision
    | _ => none
  else if key = words (Logger.text "c T: 1-uip") then
    match rest with
    | label :: ls => if label = Logger.text "clause:" then (ls.mapM literal).map .uip else none
    | [] => none
  else if key = words (Logger.text "c T: backtrack") then
    match rest with
    | [x, a, y, b] =>
      if x = Logger.text "from:" ∧ y = Logger.text "to:" then
        (number a).bind (fun a => (number b).map (.backtrack a ·))
      else none
    | _ => none
  else if key = words (Logger.text "c D: garbage") then
    match rest with
    | [x, y, z, a, w, b] =>
      if [x, y, z, w] = words (Logger.text "collection Utilization allocated: used:") then
        (number a).bind (fun a => (number b).map (.collect a ·))
      else none
    | _ => none
  else none

/-- Reads a line of the log. -/
def readLine (l : List Byte) : Option Event := 
  readWords ((words (l.map clean)).take 3) ((words (l.map clean)).drop 3)

end Reader

open Reader

theorem words_cat (a b : List Byte) : words (a ++ 0x20#8 :: b) = words a ++ words b := by
  by_cases h : 0x20#8 ∈ a
  · obtain ⟨x, y, hxy, hx⟩ : ∃ x y, a = x ++ 0x20#8 :: y ∧ 0x20#8 ∉ x := by
      exact List.eq_append_cons_of_mem h
    have ih := words_cat y b
    subst hxy
    rw [List.append_assoc, List.cons_append]
    cases x with
    | nil => simp only [List.nil_append]; rw [words_space, words_space, ih]
    | cons c x => rw [words_append hx (by simp), words_append hx (by simp), ih]; rfl
  · cases a with
    | nil => simp only [List.nil_append]; rw [words_space]; rfl
    | cons c a => rw [words_append h (by simp), words_self h (by simp)]; rfl
termination_by a.length
decreasing_by subst hxy; simp; omega

theorem number_digits (n : Nat) : number (Drat.asciiDigits n) = some n := by
  have := parseNat_ascii n [] (by simp)
  rw [List.append_nil] at this
  simp [number, this]

theorem literal_text {l : Lit} (h : l.Valid) : literal l.text = some l := by
  obtain ⟨⟨n, h1, h2⟩, _⟩ := C102_text l (by unfold Lit.Valid at h; rw [MAX_CODE_eq] at h; omega)
  simp [literal, h1, h2, Except.toOption]

theorem digit_mem_int (n : Int) : ∀ b ∈ Drat.asciiDigits n, b = 0x2d#8 ∨ ∃ d < 10, b = BitVec.ofNat 8 (48 + d) := by
  intro b hb
  unfold Drat.asciiDigits at hb
  split at hb
  · rcases List.mem_cons.1 hb with rfl | hb
    · left; decide
    · exact .inr (digit_mem _ _ b hb)
  · exact .inr (digit_mem _ _ b hb)

theorem digits_plain (n : Int) : ∀ b ∈ Drat.asciiDigits n, clean b = b ∧ b ≠ 0x20#8 ∧ b ≠ 0x0a#8 := by
  intro b hb
  rcases digit_mem_int n b hb with rfl | ⟨d, hd, rfl⟩
  · decide
  · clear hb; revert d; decide

theorem digits_clean (n : Int) : (Drat.asciiDigits n).map clean = Drat.asciiDigits n :=
  (List.map_congr_left (g := id) fun b hb => (digits_plain n b hb).1).trans (List.map_id _)

theorem digits_words (n : Int) : words (Drat.asciiDigits n) = [Drat.asciiDigits n] := by
  refine words_self (fun h => (digits_plain n _ h).2.1 rfl) ?_
  unfold Drat.asciiDigits
  split
  · simp
  · have := asciiDigits_nonempty n.natAbs
    rwa [asciiDigits_nat] at this

/-- The line of a message, without the line feed. -/
def Event.line (e : Event) : List Byte := Logger.pref e.level ++ (Logger.combine [] e.items).flatMap Logger.addItem

theorem Event.performLog {lg : Logger} (h : lg.logSourceLocations = false) (e : Event) (loc : List Byte) :
    lg.performLog e.level loc e.items = e.line ++ [0x0a#8] := by
  simp [Logger.performLog, h, Event.line]

theorem words_list (n : Int) (ns : List Int) :
    words (Drat.asciiDigits n ++ ((ns.flatMap fun m => 0x20#8 :: 0x20#8 :: Drat.asciiDigits m) ++ [0x20#8])) =
      Drat.asciiDigits n :: ns.map Drat.asciiDigits := by
  induction ns generalizing n with
  | nil =>
    rw [List.flatMap_nil, List.nil_append, words_cat, digits_words]; rfl
  | cons m ns ih =>
    rw [List.flatMap_cons, List.cons_append, List.cons_append, List.cons_append, List.cons_append,
      words_cat, words_space, List.append_assoc, ih, digits_words]
    rfl

theorem words_debugList (c : List Lit) :
    words ((Event.debugList (c.map Lit.text)).map clean) = c.map Lit.text := by
  cases c with
  | nil => decide +kernel
  | cons l c =>
    have e : (Event.debugList ((l :: c).map Lit.text)).map clean =
        0x20#8 :: (Drat.asciiDigits l.dimacs ++
          (((c.map Lit.dimacs).flatMap fun m => 0x20#8 :: 0x20#8 :: Drat.asciiDigits m) ++ [0x20#8])) := by
      simp only [Event.debugList, List.map_cons, List.map_append, List.append_assoc, Lit.text, digits_clean,
        List.map_flatMap, List.flatMap_map]
      rfl
    rw [e, words_space, words_list, List.map_map]
    rfl

theorem mapM_literal {c : List Lit} (h : ∀ l ∈ c, l.Valid) : (c.map Lit.text).mapM literal = some c := by
  induction c with
  | nil => rfl
  | cons l c ih =>
    rw [List.map_cons, List.mapM_cons, literal_text (h l (by simp)), ih (fun m hm => h m (by simp [hm]))]
    rfl

theorem readLine_collect (a u : Nat) : readLine (Event.collect a u).line = some (.collect a u) := by
  have e : (Event.collect a u).line.map clean =
      Logger.text "c D: garbage collection Utilization   allocated:" ++ 0x20#8 :: (Drat.asciiDigits a ++ 0x20#8 ::
        (Logger.text " used:" ++ 0x20#8 :: (Drat.asciiDigits u ++ 0x20#8 :: [0x20#8]))) := by
    simp only [Event.line, Event.items, Event.level, Logger.combine, List.getLast?_nil, List.nil_append,
      List.flatMap_cons, List.flatMap_nil, Logger.addItem, List.map_append, List.map_cons,
      List.append_nil, digits_clean, List.append_assoc, List.cons_append]
    rfl
  have w : words (Logger.text "c D: garbage collection Utilization   allocated:") =
      words (Logger.text "c D: garbage") ++ words (Logger.text "collection Utilization allocated:") := by decide +kernel
  have w1 : words (Logger.text " used:") = [Logger.text "used:"] := by decide +kernel
  have w2 : words [0x20#8] = [] := by decide +kernel
  have h3 : (words (Logger.text "c D: garbage")).length = 3 := by decide +kernel
  rw [readLine, e, words_cat, words_cat, words_cat, words_cat, digits_words, digits_words, w, w1, w2,
    List.append_assoc, List.take_left' h3, List.drop_left' h3, readWords.eq_def, if_neg (by decide +kernel),
    if_neg (by decide +kernel), if_neg (by decide +kernel), if_neg (by decide +kernel), if_neg (by decide +kernel),
    if_neg (by decide +kernel), if_neg (by decide +kernel), if_pos rfl]
  have w3 : words (Logger.text "collection Utilization allocated:") =
    [Logger.text "collection", Logger.text "Utilization", Logger.text "allocated:"] := by decide +kernel
  rw [w3]
  simp only [List.cons_append, List.nil_append]
  rw [if_pos (by decide +kernel), number_digits, number_digits]
  rfl

theorem readLine_backtrack (a b : Nat) : readLine (Event.backtrack a b).line = some (.backtrack a b) := by
  have e : (Event.backtrack a b).line.map clean =
      Logger.text "c T: backtrack from:" ++ 0x20#8 :: (Drat.asciiDigits a ++ 0x20#8 ::
        (Logger.text "to:" ++ 0x20#8 :: Drat.asciiDigits b)) := by
    have c : Logger.combine [] (Event.backtrack a b).items = [.message (Logger.text "backtrack from:"),
        .value (Drat.asciiDigits a), .message (Logger.text "to:"), .value (Drat.asciiDigits b)] := rfl
    simp only [Event.line, c, Event.level, List.cons_append,
      List.flatMap_cons, List.flatMap_nil, Logger.addItem, List.map_append, List.map_cons,
      List.append_nil, digits_clean]
    rfl
  have w : words (Logger.text "c T: backtrack from:") =
      words (Logger.text "c T: backtrack") ++ [Logger.text "from:"] := by decide +kernel
  have w1 : words (Logger.text "to:") = [Logger.text "to:"] := by decide +kernel
  have h3 : (words (Logger.text "c T: backtrack")).length = 3 := by decide +kernel
  rw [readLine, e, words_cat, words_cat, words_cat, digits_words, digits_words, w, w1,
    List.append_assoc, List.take_left' h3, List.drop_left' h3, readWords.eq_def, if_neg (by decide +kernel),
    if_neg (by decide +kernel), if_neg (by decide +kernel), if_neg (by decide +kernel), if_neg (by decide +kernel),
    if_neg (by decide +kernel), if_pos rfl]
  simp only [List.cons_append, List.nil_append]
  rw [if_pos (by decide +kernel), number_digits, number_digits]
  rfl

theorem readLine_uip {c : List Lit} (h : ∀ l ∈ c, l.Valid) : readLine (Event.uip c).line = some (.uip c) := by
  have e : (Event.uip c).line.map clean =
      Logger.text "c T: 1-uip clause:" ++ 0x20#8 :: (Event.debugList (c.map Lit.text)).map clean := by
    simp only [Event.line, Event.items, Event.level, Logger.combine, List.getLast?_nil, List.nil_append,
      List.getLast?_singleton, List.dropLast_singleton, List.cons_append,
      List.flatMap_cons, List.flatMap_nil, Logger.addItem, List.map_append, List.map_cons,
      List.append_nil, List.append_assoc]
    rfl
  have w : words (Logger.text "c T: 1-uip clause:") =
      words (Logger.text "c T: 1-uip") ++ [Logger.text "clause:"] := by decide +kernel
  have h3 : (words (Logger.text "c T: 1-uip")).length = 3 := by decide +kernel
  rw [readLine, e, words_cat, words_debugList, w,
    List.append_assoc, List.take_left' h3, List.drop_left' h3, readWords.eq_def, if_neg (by decide +kernel),
    if_neg (by decide +kernel), if_neg (by decide +kernel), if_neg (by decide +kernel), if_neg (by decide +kernel),
    if_pos rfl]
  simp only [List.cons_append, List.nil_append]
  rw [if_pos trivial, mapM_literal h]
  rfl

theorem readLine_decision {l : Lit} (h : l.Valid) : readLine (Event.decision l).line = some (.decision l) := by
  have e : (Event.decision l).line.map clean =
      Logger.text "c T: decision:" ++ 0x20#8 :: Drat.asciiDigits l.dimacs := by
    simp only [Event.line, Event.items, Event.level, Logger.combine, List.getLast?_nil, List.nil_append,
      List.cons_append, List.flatMap_cons, List.flatMap_nil, Logger.addItem, List.map_append, List.map_cons,
      List.append_nil, Lit.text, digits_clean]
    rfl
  have h3 : (words (Logger.text "c T: decision:")).length = 3 := by decide +kernel
  rw [readLine, e, words_cat, digits_words,
    List.take_left' h3, List.drop_left' h3, readWords.eq_def, if_neg (by decide +kernel),
    if_neg (by decide +kernel), if_neg (by decide +kernel), if_neg (by decide +kernel), if_pos rfl]
  simp only
  rw [← Lit.text, literal_text h]
  rfl

/-- The literals of a message are valid. -/
def Event.Ok : Event → Prop
  | .decision l => l.Valid
  | .uip c => ∀ l ∈ c, l.Valid
  | _ => True

/-- A line can be read back. -/
theorem readLine_line {e : Event} (h : e.Ok) : readLine e.line = some e := by
  cases e with
  | restart | reduce | unsat | sat => decide +kernel
  | collect a u => exact readLine_collect a u
  | backtrack a u => exact readLine_backtrack a u
  | uip c => exact readLine_uip h
  | decision l => exact readLine_decision h

theorem text_lf (n : Int) : 0x0a#8 ∉ Drat.asciiDigits n := fun h => (digits_plain n _ h).2.2 rfl

theorem Event.line_lf (e : Event) : 0x0a#8 ∉ e.line := by
  have hd : ∀ c : List Lit, 0x0a#8 ∉ Event.debugList (c.map Lit.text) := by
    intro c
    cases c with
    | nil => decide +kernel
    | cons l c =>
      simp only [Event.debugList, List.map_cons, List.mem_append, List.mem_flatMap, not_or, not_exists, not_and]
      refine ⟨⟨⟨by decide +kernel, text_lf _⟩, fun t ht => ?_⟩, by decide +kernel⟩
      obtain ⟨m, _, rfl⟩ := List.mem_map.1 ht
      exact ⟨by decide +kernel, text_lf _⟩
  rw [Event.line, combine_flatMap]
  cases e with
  | restart | reduce | unsat | sat => decide +kernel
  | collect a u =>
    have h1 := text_lf a
    have h2 := text_lf u
    simp only [Event.items, Event.level, List.nil_append, List.flatMap_cons, List.flatMap_nil, LogItem.text,
      List.mem_append, List.mem_cons, h1, h2, List.not_mem_nil]
    decide +kernel
  | backtrack a u =>
    have h1 := text_lf a
    have h2 := text_lf u
    simp only [Event.items, Event.level, List.nil_append, List.flatMap_cons, List.flatMap_nil, LogItem.text,
      List.mem_append, List.mem_cons, h1, h2, List.not_mem_nil]
    decide +kernel
  | uip c =>
    simp only [Event.items, Event.level, List.nil_append, List.flatMap_cons, List.flatMap_nil, LogItem.text,
      List.mem_append, List.mem_cons, hd, List.not_mem_nil]
    decide +kernel
  | decision l =>
    have h1 := text_lf l.dimacs
    simp only [Event.items, Event.level, List.nil_append, List.flatMap_cons, List.flatMap_nil, LogItem.text,
      List.mem_append, List.mem_cons, Lit.text, h1, List.not_mem_nil]
    decide +kernel

/-- The messages that were printed can be read back from standard output, those up to the chosen
level. -/
theorem readLines_log {lg : Logger} (h : lg.logSourceLocations = false) (loc : Event → List Byte) (es : List Event)
    (hes : ∀ e ∈ es, e.Ok) :
    (lines (es.flatMap fun e => lg.log e.level (loc e) e.items)).mapM readLine =
      some (es.filter fun e => e.level.toU8 < lg.levelLimit) := by
  induction es with
  | nil => rfl
  | cons e es ih =>
    have ih := ih fun x hx => hes x (by simp [hx])
    rw [List.flatMap_cons, Logger.log]
    by_cases hl : e.level.toU8 < lg.levelLimit
    · rw [if_pos hl, e.performLog h, List.append_assoc, List.singleton_append, lines, split_append e.line_lf,
        List.mapM_cons, readLine_line (hes e (by simp)), List.filter_cons_of_pos (by simpa using hl)]
      rw [lines] at ih
      rw [ih]
      rfl
    · rw [if_neg hl, List.nil_append, ih, List.filter_cons_of_neg (by simpa using hl)]

end Starlit
