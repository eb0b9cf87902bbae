import Verif.Cli
import Verif.Props.Words
import Verif.Props.Drat

/-!
# C37 (output of the command line solver) and C44 (log levels)
-/

namespace Starlit

/-! ## C44 -/

/-- How verbose a level is: the position in the documented list, from less to more verbose. -/
def LogLevel.verbosity : LogLevel → Nat
  | .info => 0
  | .verbose => 1
  | .debug => 2
  | .trace => 3

/-- The text of an item. -/
def LogItem.text : LogItem → List Byte
  | .message t => t
  | .value t => t

theorem combine_flatMap (acc items : List LogItem) :
    (Logger.combine acc items).flatMap Logger.addItem =
      acc.flatMap Logger.addItem ++ items.flatMap (fun i => 0x20#8 :: i.text) := by
  induction items generalizing acc with
  | nil => simp [Logger.combine]
  | cons i items ih =>
    cases i with
    | value v =>
      simp only [Logger.combine, ih]
      simp [Logger.addItem, LogItem.text, show ascii ' ' = 0x20#8 by decide]
    | message m =>
      unfold Logger.combine
      split
      · rename_i last h
        rw [ih]
        have hacc : acc = acc.dropLast ++ [.message last] := by
          obtain ⟨ys, rfl⟩ := List.getLast?_eq_some_iff.1 h
          simp
        conv => rhs; rw [hacc]
        simp [Logger.addItem, LogItem.text, show ascii ' ' = 0x20#8 by decide]
      · rw [ih]
        simp [Logger.addItem, LogItem.text, show ascii ' ' = 0x20#8 by decide]

/-- **C44** (filtering).  After `set_log_level(Some(limit))` a message is written exactly when its
level is at most as verbose as `limit`; with `None` (and by default) nothing is written. -/
theorem C44_log_filtering (lg : Logger) (limit level : LogLevel) (loc : List Byte)
    (items : List LogItem) :
    ((lg.setLogLevel (some limit)).log level loc items ≠ [] ↔
      level.verbosity ≤ limit.verbosity) ∧
    (lg.setLogLevel none).log level loc items = [] ∧
    Logger.default.log level loc items = [] := by
  refine ⟨?_, by simp [Logger.setLogLevel, Logger.log], by simp [Logger.default, Logger.log]⟩
  unfold Logger.log Logger.setLogLevel
  simp only
  have hne : ∀ l : Logger, l.performLog level loc items ≠ [] := by
    intro l h
    have := congrArg List.length h
    unfold Logger.performLog at this
    split at this <;> simp at this
  have : level.toU8 < limit.toU8 + 1 ↔ level.verbosity ≤ limit.verbosity := by
    cases level <;> cases limit <;> decide
  by_cases h : level.toU8 < limit.toU8 + 1
  · rw [if_pos h]; simp [hne, this.1 h]
  · rw [if_neg h]; simp; rw [← Nat.not_le, ← this]; exact h

/-- **C44** (flags).  With `-v` given `v` times and `-q` given `q` times (the two exclude each
other), a message is written exactly when `-q` is not given and the level is at most `v` steps more
verbose than the default. -/
theorem C44_cli_flags (v q : Nat) (hx : v = 0 ∨ q = 0) (level : LogLevel) (loc : List Byte)
    (items : List LogItem) :
    (Logger.default.setLogLevel (Cli.logLevel v q)).log level loc items ≠ [] ↔
      q = 0 ∧ level.verbosity ≤ v := by
  match v, q, hx with
  | 0, 0, _ =>
    rw [show Cli.logLevel 0 0 = some .info from rfl,
      (C44_log_filtering _ _ _ _ _).1]
    simp [LogLevel.verbosity]
  | 0, q + 1, _ =>
    rw [show Cli.logLevel 0 (q + 1) = none from rfl, (C44_log_filtering _ .info _ _ _).2.1]
    simp
  | 1, 0, _ =>
    rw [show Cli.logLevel 1 0 = some .verbose from rfl, (C44_log_filtering _ _ _ _ _).1]
    simp [LogLevel.verbosity]
  | 2, 0, _ =>
    rw [show Cli.logLevel 2 0 = some .debug from rfl, (C44_log_filtering _ _ _ _ _).1]
    simp [LogLevel.verbosity]
  | v + 3, 0, _ =>
    rw [show Cli.logLevel (v + 3) 0 = some .trace from rfl, (C44_log_filtering _ _ _ _ _).1]
    cases level <;> simp [LogLevel.verbosity]

/-- **C44** (log lines are comments).  Every message written is a single line that starts with the
comment marker `c` (so it is never taken for a result or model line), followed by the items, each
preceded by a space; joining adjacent messages in the macro does not change the text. -/
theorem C44_log_line (lg : Logger) (level : LogLevel) (loc : List Byte) (items : List LogItem)
    (hloc : 0x0a#8 ∉ loc) (hitems : ∀ i ∈ items, 0x0a#8 ∉ i.text)
    (hw : lg.log level loc items ≠ []) :
    ∃ line, lg.log level loc items = line ++ [0x0a#8] ∧ 0x0a#8 ∉ line ∧
      line.head? = some 0x63#8 ∧
      ∃ pre post, line = pre ++ items.flatMap (fun i => 0x20#8 :: i.text) ++ post ∧
        (pre = [0x63#8] ↔ level = .info) ∧ (post = [] ↔ lg.logSourceLocations = false) := by
  unfold Logger.log at hw ⊢
  split at hw
  · rename_i h
    rw [if_pos h]
    unfold Logger.performLog
    rw [combine_flatMap]
    have hp : 0x0a#8 ∉ Logger.pref level := by cases level <;> decide
    have hb : 0x0a#8 ∉ items.flatMap (fun i => 0x20#8 :: i.text) := by
      intro hm
      obtain ⟨i, hi, hm⟩ := List.mem_flatMap.1 hm
      rcases List.mem_cons.1 hm with e | hm
      · revert e; decide
      · exact hitems i hi hm
    have hh : (Logger.pref level).head? = some 0x63#8 := by cases level <;> decide
    have hh' : ∀ r, (Logger.pref level ++ r).head? = some 0x63#8 := by
      intro r; rw [List.head?_append, hh]; rfl
    have hi : Logger.pref level = [0x63#8] ↔ level = .info := by cases level <;> decide
    cases hs : lg.logSourceLocations with
    | false =>
      refine ⟨Logger.pref level ++ items.flatMap (fun i => 0x20#8 :: i.text), by simp, ?_,
        hh' _, Logger.pref level, [], by simp, hi, by simp⟩
      simp only [List.mem_append, not_or]
      exact ⟨hp, hb⟩
    | true =>
      refine ⟨Logger.pref level ++ (items.flatMap (fun i => 0x20#8 :: i.text) ++
        (0x20#8 :: 0x1b#8 :: Logger.text "[34m" ++ loc ++ 0x1b#8 :: Logger.text "[0m")),
        by simp, ?_, hh' _, Logger.pref level,
        (0x20#8 :: 0x1b#8 :: Logger.text "[34m" ++ loc ++ 0x1b#8 :: Logger.text "[0m"),
        by simp, hi, by simp⟩
      simp only [List.mem_append, not_or]
      refine ⟨hp, hb, ⟨by decide, hloc⟩, by decide⟩
  · exact absurd rfl hw

example : (Logger.default.setLogLevel (Cli.logLevel 1 0)).log .verbose []
    [.message (Logger.text "a"), .message (Logger.text "b:"), .value (Logger.text "7")] =
    Logger.text "c V: a b: 7" ++ [0x0a#8] := by decide

/-! ## C37 -/

/-- The numbers of a `v` line: numbers, each preceded by one space. -/
def parseItems : Nat → List Byte → Option (List Int)
  | _, [] => some []
  | 0, _ => none
  | fuel + 1, b :: bs =>
    if b = 0x20#8 then
      (TextFormat.parseInt bs).bind (fun (n, r) => (parseItems fuel r).map (n :: ·))
    else none

/-- The numbers of a line starting with `v`. -/
def parseModelLine : List Byte → Option (List Int)
  | b :: bs => if b = 0x76#8 then parseItems bs.length bs else none
  | [] => none

/-- The numbers of all lines, concatenated. -/
def parseModel : List (List Byte) → Option (List Int)
  | [] => some []
  | l :: ls => (parseModelLine l).bind (fun ns => (parseModel ls).map (ns ++ ·))

/-- One signed, 1-based variable number per assigned variable, in increasing order. -/
def modelLits (value : Nat → Option Bool) (varCount : Nat) : List Int :=
  (List.range varCount).filterMap (fun i =>
    (value i).map (fun b => if b then ((i + 1 : Nat) : Int) else -((i + 1 : Nat) : Int)))

/-- The text of a list of numbers. -/
def itemText (ns : List Int) : List Byte := ns.flatMap (fun n => 0x20#8 :: Drat.asciiDigits n)

theorem itemText_rest (ns : List Int) : ∀ b bs, itemText ns = b :: bs →
    TextFormat.digitOf b = none := by
  intro b bs h
  cases ns with
  | nil => simp [itemText] at h
  | cons n ns =>
    simp only [itemText, List.flatMap_cons, List.cons_append, List.cons.injEq] at h
    rw [← h.1]; decide

theorem parseItems_itemText (ns : List Int) (fuel : Nat) (h : ns.length ≤ fuel) :
    parseItems fuel (itemText ns) = some ns := by
  induction ns generalizing fuel with
  | nil => cases fuel <;> rfl
  | cons n ns ih =>
    obtain ⟨fuel, rfl⟩ : ∃ k, fuel = k + 1 := ⟨fuel - 1, by simp at h; omega⟩
    have e : itemText (n :: ns) = 0x20#8 :: (Drat.asciiDigits n ++ itemText ns) := by
      simp [itemText]
    rw [e]
    simp only [parseItems, if_true]
    rw [parseInt_asciiDigits n _ (itemText_rest ns)]
    simp [ih fuel (by simp at h; omega)]

theorem length_le_itemText (ns : List Int) : ns.length ≤ (itemText ns).length := by
  induction ns with
  | nil => simp
  | cons n ns ih =>
    simp only [itemText, List.flatMap_cons, List.length_append, List.length_cons] at ih ⊢; omega

theorem parseModelLine_itemText (ns : List Int) :
    parseModelLine (0x76#8 :: itemText ns) = some ns := by
  simp only [parseModelLine, if_true]
  exact parseItems_itemText ns _ (length_le_itemText ns)

theorem parseModel_map (gs : List (List Int)) :
    parseModel (gs.map (fun g => 0x76#8 :: itemText g)) = some gs.flatten := by
  induction gs with
  | nil => rfl
  | cons g gs ih => simp [parseModel, parseModelLine_itemText, ih]

theorem digits_length (fuel n k : Nat) (h : n < 10 ^ (k + 1)) :
    (Drat.digits fuel n).length ≤ k + 1 := by
  induction fuel generalizing n k with
  | zero => simp [Drat.digits]
  | succ fuel ih =>
    simp only [Drat.digits]
    by_cases hn : n < 10
    · simp [hn]
    · cases k with
      | zero => simp at h; omega
      | succ k =>
        have := ih (n / 10) k (by
          rw [Nat.div_lt_iff_lt_mul (by decide)]
          rw [Nat.pow_succ] at h; exact h)
        simp [hn]; omega

theorem asciiDigits_length (n : Int) (h : n.natAbs < 10 ^ 10) :
    (Drat.asciiDigits n).length ≤ 11 := by
  have := digits_length (n.natAbs + 1) n.natAbs 9 h
  unfold Drat.asciiDigits
  split
  · simp; omega
  · omega

theorem modelStep_eq (value : Nat → Option Bool) (st : List Byte × List (List Byte)) (i : Nat)
    (hi : i ≤ MAX_INDEX) (v : Bool) (hv : value i = some v) :
    Cli.modelStep value st i =
      .ok (if (st.1 ++ itemText [if v then ((i + 1 : Nat) : Int) else -((i + 1 : Nat) : Int)]).length
            > 77
        then (itemText [if v then ((i + 1 : Nat) : Int) else -((i + 1 : Nat) : Int)],
          st.2 ++ [0x76#8 :: st.1])
        else (st.1 ++ itemText [if v then ((i + 1 : Nat) : Int) else -((i + 1 : Nat) : Int)],
          st.2)) := by
  obtain ⟨l, e, hval, he, hp, -⟩ := (C24_index_roundtrip).2.1 i true hi
  have hd : (l.xorBool (!v)).dimacs =
      if v then ((i + 1 : Nat) : Int) else -((i + 1 : Nat) : Int) := by
    rw [Lit.xorBool_eq]
    cases v
    · simp only [Bool.not_false, if_true]
      rw [Lit.dimacs_eq hval.neg]
      simp [hp, he]
    · simp only [Bool.not_true, if_true, Bool.false_eq_true, if_false]
      rw [Lit.dimacs_eq hval]
      simp [hp, he]
  unfold Cli.modelStep
  rw [e]
  simp only [bind_ok, hv, hd, show ascii ' ' = 0x20#8 by decide, show ascii 'v' = 0x76#8 by decide,
    itemText, List.flatMap_cons, List.flatMap_nil, List.append_nil]
  generalize (if v then ((i + 1 : Nat) : Int) else -((i + 1 : Nat) : Int)) = n
  by_cases hl : (st.1 ++ 0x20#8 :: Drat.asciiDigits n).length > 77
  · rw [if_pos hl, if_pos hl]; simp [pure_eq]
  · rw [if_neg hl, if_neg hl]; rfl

theorem modelLoop_ok (value : Nat → Option Bool) (is : List Nat) (his : ∀ i ∈ is, i ≤ MAX_INDEX)
    (groups : List (List Int)) (cur : List Int) (hg : ∀ g ∈ groups, (itemText g).length ≤ 77)
    (hc : (itemText cur).length ≤ 77) :
    ∃ (groups' : List (List Int)) (cur' : List Int), Cli.modelLoop value (itemText cur, groups.map (fun g => 0x76#8 :: itemText g)) is
        = .ok (itemText cur', groups'.map (fun g => 0x76#8 :: itemText g)) ∧
      (∀ g ∈ groups', (itemText g).length ≤ 77) ∧ (itemText cur').length ≤ 77 ∧
      groups'.flatten ++ cur' = groups.flatten ++ cur ++ is.filterMap (fun i =>
        (value i).map (fun b => if b then ((i + 1 : Nat) : Int) else -((i + 1 : Nat) : Int))) := by
  induction is generalizing groups cur with
  | nil => exact ⟨groups, cur, rfl, hg, hc, by simp⟩
  | cons i is ih =>
    have hi := his i (by simp)
    have his' : ∀ j ∈ is, j ≤ MAX_INDEX := fun j hj => his j (by simp [hj])
    cases hv : value i with
    | none =>
      obtain ⟨g', c', e, h1, h2, h3⟩ := ih his' groups cur hg hc
      refine ⟨g', c', ?_, h1, h2, by simpa [hv] using h3⟩
      obtain ⟨l, el, -⟩ := (C24_index_roundtrip).2.1 i true hi
      simp only [Cli.modelLoop, Cli.modelStep]
      rw [el]
      simp only [bind_ok, hv]
      exact e
    | some v =>
      simp only [Cli.modelLoop]
      rw [modelStep_eq value _ i hi v hv]
      generalize hn : (if v then ((i + 1 : Nat) : Int) else -((i + 1 : Nat) : Int)) = n
      have hnabs : n.natAbs < 10 ^ 10 := by
        have : MAX_INDEX = 2 ^ 30 - 1 := MAX_INDEX_eq
        subst hn; cases v <;> simp <;> omega
      have hlen := asciiDigits_length n hnabs
      have hsingle : (itemText [n]).length ≤ 12 := by simp [itemText]; omega
      simp only [bind_ok]
      by_cases hl : (itemText cur ++ itemText [n]).length > 77
      · rw [if_pos hl]
        obtain ⟨g', c', e, h1, h2, h3⟩ := ih his' (groups ++ [cur]) [n]
          (by intro g hg'; rcases List.mem_append.1 hg' with h | h
              · exact hg g h
              · simp at h; subst h; exact hc) (by omega)
        refine ⟨g', c', ?_, h1, h2, ?_⟩
        · rw [← e]; simp
        · rw [h3, List.filterMap_cons, hv]; simp only [Option.map_some, hn]; simp
      · rw [if_neg hl]
        have hap : itemText cur ++ itemText [n] = itemText (cur ++ [n]) := by simp [itemText]
        rw [hap] at hl ⊢
        obtain ⟨g', c', e, h1, h2, h3⟩ := ih his' groups (cur ++ [n]) hg (by omega)
        refine ⟨g', c', e, h1, h2, ?_⟩
        rw [h3, List.filterMap_cons, hv]; simp only [Option.map_some, hn]; simp

/-- **C37** (model lines), for every assignment and every variable count the CNF format allows: the
lines printed after `s SATISFIABLE` are `v` lines of at most 78 characters whose numbers, read in
order, are one signed number per assigned variable in increasing order, followed by a zero. -/
theorem C37_cli_output_partial (value : Nat → Option Bool) (varCount : Nat)
    (hn : varCount ≤ MAX_INDEX + 1) :
    ∃ lines code, Cli.result true value varCount =
        .ok (Logger.text "s SATISFIABLE" :: lines, code) ∧
      (∀ l ∈ lines, l.length ≤ 78) ∧
      parseModel lines = some (modelLits value varCount ++ [0]) := by
  obtain ⟨g, c, e, h1, h2, h3⟩ := modelLoop_ok value (List.range varCount)
    (by intro i hi; have := List.mem_range.1 hi; omega) [] [] (by simp) (by simp [itemText])
  have e' : Cli.modelLoop value ([], []) (List.range varCount) = _ := e
  have hz : [ascii 'v', ascii ' ', ascii '0'] = 0x76#8 :: itemText [0] := by decide
  have key : ∀ gs : List (List Int), (∀ g ∈ gs, (itemText g).length ≤ 77) →
      gs.flatten = modelLits value varCount ++ [0] →
      (∀ l ∈ gs.map (fun g => 0x76#8 :: itemText g), l.length ≤ 78) ∧
      parseModel (gs.map (fun g => 0x76#8 :: itemText g)) =
        some (modelLits value varCount ++ [0]) := by
    intro gs hgs hf
    refine ⟨?_, by rw [parseModel_map, hf]⟩
    intro l hl
    obtain ⟨g, hg, rfl⟩ := List.mem_map.1 hl
    have := hgs g hg
    simp; omega
  have hm : g.flatten ++ c = modelLits value varCount := by rw [h3]; simp [modelLits]
  have h0 : (itemText [0]).length ≤ 77 := by decide
  by_cases hc : c = []
  · refine ⟨(g ++ [[0]]).map (fun g => 0x76#8 :: itemText g), 20, ?_, key _ ?_ ?_⟩
    · unfold Cli.result Cli.modelLines
      rw [e']
      simp [hc, itemText, pure_eq, hz]
    · intro x hx
      rcases List.mem_append.1 hx with h | h
      · exact h1 x h
      · simp at h; subst h; exact h0
    · rw [← hm]; simp [hc]
  · refine ⟨(g ++ [c] ++ [[0]]).map (fun g => 0x76#8 :: itemText g), 20, ?_, key _ ?_ ?_⟩
    · unfold Cli.result Cli.modelLines
      rw [e']
      have : (itemText c).isEmpty = false := by
        cases c with
        | nil => exact absurd rfl hc
        | cons x c => simp [itemText]
      rw [hz]
      simp only [if_true, bind_ok, this, Bool.false_eq_true, if_false, pure_eq,
        show ascii 'v' = 0x76#8 by decide, List.map_append, List.map_cons, List.map_nil]
    · intro x hx
      simp only [List.mem_append, List.mem_singleton] at hx
      rcases hx with (h | h) | h
      · exact h1 x h
      · subst h; exact h2
      · subst h; exact h0
    · rw [← hm]; simp

/-- **C37** (exit code) is false: satisfiable and unsatisfiable inputs both exit with 20, so the
exit code of a satisfiable input is not 10. -/
theorem C37_false : ∃ (value : Nat → Option Bool) (varCount : Nat) (lines : List (List Byte))
    (code : Nat), Cli.result true value varCount = .ok (lines, code) ∧ code ≠ 10 ∧
      ∃ lines', Cli.result false value varCount = .ok (lines', code) :=
  ⟨fun _ => some true, 1, [Logger.text "s SATISFIABLE", Logger.text "v 1", Logger.text "v 0"], 20,
    by decide +kernel, by decide, [Logger.text "s UNSATISFIABLE"], by decide +kernel⟩

/-- A model that needs two lines. -/
example : Cli.modelLines (fun i => if i = 2 then none else some (i % 2 == 0)) 22 =
    .ok [Logger.text
      "v 1 -2 -4 5 -6 7 -8 9 -10 11 -12 13 -14 15 -16 17 -18 19 -20 21 -22",
      Logger.text "v 0"] := by decide +kernel

end Starlit
