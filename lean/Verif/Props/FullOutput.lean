import Verif.Solver.FullOutput
import Verif.Props.Trace
import Verif.Props.Incremental

/-!
# C107: standard output at every level of verbosity
-/

namespace Starlit

open Reader

/-- The report that was printed, if it was a report. -/
def Said.report? : Said → Option Report
  | .reported r | .answered r => some r
  | .event _ => none

/-- The message that was printed, if it was a message. -/
def Said.event? : Said → Option Event
  | .reported _ | .answered _ => none
  | .event e => some e

/-- The report of the answer, if it was this report. -/
def Said.answer? : Said → Option Report
  | .answered r => some r
  | .reported _ | .event _ => none

theorem Said.events_map (es : List Event) : (es.map Said.event).filterMap Said.event? = es := by
  rw [List.filterMap_map]; exact List.filterMap_some

theorem Said.reports_map (es : List Event) : (es.map Said.event).filterMap Said.report? = [] := by
  rw [List.filterMap_map]; exact List.filterMap_none ..

theorem Said.answers_map (es : List Event) : (es.map Said.event).filterMap Said.answer? = [] := by
  rw [List.filterMap_map]; exact List.filterMap_none ..

section
variable {env : Env} {s s' : Solver} {r : Option Bool} {said : List Said} {k : Nat}

/-- The messages and the reports of a step are those of the two models of a step, and the answer is not
reported. -/
theorem scheduleStepSaid_ok (e : s.scheduleStepSaid env = .ok ((s', r), said)) :
    s.scheduleStepLog env = .ok ((s', r), said.filterMap Said.event?) ∧
    s.scheduleStepOut env = .ok (s', r, said.filterMap Said.report?) ∧
    said.filterMap Said.answer? = [] := by
  unfold Solver.scheduleStepSaid at e
  obtain ⟨⟨s1, es1⟩, e1, e⟩ := bind_eq_ok.1 e
  obtain ⟨⟨s2, es2⟩, e2, e⟩ := bind_eq_ok.1 e
  obtain ⟨⟨⟨ctx, search, r'⟩, es3⟩, e3, e⟩ := bind_eq_ok.1 e
  cases e
  refine ⟨?_, ?_, ?_⟩
  · unfold Solver.scheduleStepLog
    rw [e1, bind_ok]
    simp only
    rw [e2, bind_ok]
    simp only
    rw [e3, bind_ok]
    simp only [List.filterMap_append, Said.events_map, pure_eq]
    split <;> simp [List.filterMap_cons, Said.event?]
  · unfold Solver.scheduleStepOut
    rw [fst_of_ok (Solver.maybeRestartLog_eq _) e1, bind_ok, fst_of_ok (Solver.maybeReduceLog_eq _ _) e2, bind_ok,
      fst_of_ok (searchStepLog_eq _ _ _) e3, bind_ok]
    simp only [List.filterMap_append, Said.reports_map, pure_eq]
    split <;> simp [Said.report?]
  · simp only [List.filterMap_append, Said.answers_map]
    split <;> simp [List.filterMap_cons, Said.answer?]

theorem scheduleStepSaid_error {err : Err} (e : s.scheduleStepSaid env = .error err) :
    s.scheduleStepLog env = .error err := by
  unfold Solver.scheduleStepSaid at e
  unfold Solver.scheduleStepLog
  cases e1 : s.maybeRestartLog with
  | error x => rw [e1] at e; cases e; rfl
  | ok x =>
    rw [e1, bind_ok] at e
    rw [bind_ok]
    cases e2 : x.1.maybeReduceLog env with
    | error x => simp only [e2] at e ⊢; cases e; rfl
    | ok y =>
      simp only [e2, bind_ok] at e ⊢
      cases e3 : searchStepLog env y.1.ctx y.1.search with
      | error x => simp only [e3] at e ⊢; cases e; rfl
      | ok z => simp only [e3] at e; cases e

/-- The messages and the reports are those of the two models of `solve`; the answer is reported last. -/
theorem solveSaid_ok : ∀ {k : Nat} {s s' : Solver} {r : Option Bool} {said : List Said},
    s.solveSaid env k = .ok ((s', r), said) →
    s.solveLog env k = .ok ((s', r), said.filterMap Said.event?) ∧
    s.solveOut env k = .ok (s', r, said.filterMap Said.report?) ∧
    ∃ init, said = init ++ (if r.isSome then [.answered (report s'.ctx)] else []) ∧
      init.filterMap Said.answer? = []
  | 0, s, _, _, _, e => by cases e; exact ⟨rfl, rfl, [], rfl, rfl⟩
  | k + 1, s, s', r, said, e => by
    unfold Solver.solveSaid at e
    obtain ⟨⟨⟨s1, r1⟩, out⟩, e1, e⟩ := bind_eq_ok.1 e
    obtain ⟨h1, h2, h3⟩ := scheduleStepSaid_ok e1
    unfold Solver.solveLog Solver.solveOut
    rw [h1, h2, bind_ok, bind_ok]
    cases r1 with
    | some b =>
      cases e
      refine ⟨?_, ?_, out, rfl, h3⟩
      · simp [List.filterMap_cons, Said.event?, pure_eq]
      · simp [Said.report?, pure_eq]
    | none =>
      simp only at e ⊢
      obtain ⟨⟨⟨s2, r2⟩, out2⟩, e2, e⟩ := bind_eq_ok.1 e
      cases e
      obtain ⟨h4, h5, init, h6, h7⟩ := solveSaid_ok e2
      rw [h4, h5, bind_ok, bind_ok]
      refine ⟨?_, ?_, out ++ init, ?_, ?_⟩
      · simp [pure_eq]
      · simp [pure_eq]
      · rw [h6, List.append_assoc]
      · simp [h3, h7]

theorem solveSaid_error {err : Err} : ∀ {k : Nat} {s : Solver}, s.solveSaid env k = .error err →
    s.solveLog env k = .error err
  | 0, s, e => by cases e
  | k + 1, s, e => by
    unfold Solver.solveSaid at e
    unfold Solver.solveLog
    cases e1 : s.scheduleStepSaid env with
    | error x =>
      rw [e1] at e
      cases e
      rw [scheduleStepSaid_error e1]; rfl
    | ok x =>
      obtain ⟨⟨s1, r1⟩, out⟩ := x
      rw [e1, bind_ok] at e
      rw [(scheduleStepSaid_ok e1).1, bind_ok]
      cases r1 with
      | some b => cases e
      | none =>
        simp only at e ⊢
        cases e2 : s1.solveSaid env k with
        | error x => rw [e2] at e; cases e; rw [solveSaid_error e2]; rfl
        | ok x => rw [e2] at e; cases e

end

/-! ## From calls to text -/

section
variable {t : Cli.Texts} {loc : Event → List Byte}

theorem Said.outs_append (i : Nat) (a b : List Said) :
    Said.outs t loc i (a ++ b) =
      Said.outs t loc i a ++ Said.outs t loc (i + (a.filterMap Said.report?).length) b := by
  induction a generalizing i with
  | nil => rfl
  | cons x a ih =>
    cases x <;> simp [Said.outs, Said.report?, List.filterMap_cons, ih, Nat.add_comm, Nat.add_left_comm]

theorem Event.level_ne (e : Event) : e.level ≠ .info := by cases e <;> simp [Event.level]

/-- Without the messages, the reports that are not the last one are left. -/
theorem Said.outs_filter (i : Nat) (a : List Said) (h : a.filterMap Said.answer? = []) :
    (Said.outs t loc i a).filter (fun o => !o.isDetail) =
      (a.filterMap Said.report?).mapIdx (fun j r => t.report t.reported (i + j) r) := by
  induction a generalizing i with
  | nil => rfl
  | cons x a ih =>
    cases x with
    | reported r =>
      have ih := ih (i + 1) h
      rw [List.filterMap_cons_some (f := Said.report?) (b := r) rfl, List.mapIdx_cons, Said.outs, List.filter_cons_of_pos (by rfl), ih,
        Nat.add_zero]
      congr 2
      funext j r
      rw [Nat.add_assoc, Nat.add_comm 1 j]
    | answered r => simp [Said.answer?] at h
    | event e =>
      have ih := ih i h
      rw [List.filterMap_cons_none (by rfl), Said.outs, List.filter_cons_of_neg (by simpa [Out.isDetail] using e.level_ne), ih]

theorem Said.outs_all {init : List Said} {last : Report} (h : init.filterMap Said.answer? = []) :
    (Said.outs t loc 0 (init ++ [Said.answered last])).filter (fun o => !o.isDetail) =
      ((init ++ [Said.answered last]).filterMap Said.report?).mapIdx (fun i r =>
        t.report (if i + 1 < ((init ++ [Said.answered last]).filterMap Said.report?).length then t.reported else t.answered)
          i r) := by
  rw [Said.outs_append, List.filter_append, Said.outs_filter 0 init h, List.filterMap_append]
  have e : List.filterMap Said.report? [Said.answered last] = [last] := rfl
  rw [e, List.mapIdx_append]
  congr 1
  · apply List.ext_getElem? fun j => ?_
    simp only [List.getElem?_mapIdx, Nat.zero_add]
    by_cases hj : j < (init.filterMap Said.report?).length
    · rw [List.getElem?_eq_getElem hj]
      simp [hj]
    · rw [List.getElem?_eq_none (by omega)]; rfl
  · simp [Said.outs, Cli.Texts.report, Out.isDetail]

/-- The locations contain no line feed. -/
theorem Said.outs_oneLine (hl : ∀ e, 0x0a#8 ∉ loc e) (i : Nat) (a : List Said) :
    ∀ o ∈ Said.outs t loc i a, o.isDetail = true → o.OneLine := by
  induction a generalizing i with
  | nil => simp [Said.outs]
  | cons x a ih =>
    intro o ho hd
    cases x with
    | reported r =>
      rcases List.mem_cons.1 ho with rfl | ho
      · cases hd
      · exact ih _ o ho hd
    | answered r =>
      rcases List.mem_cons.1 ho with rfl | ho
      · cases hd
      · exact ih _ o ho hd
    | event e =>
      rcases List.mem_cons.1 ho with rfl | ho
      · refine ⟨hl e, ?_⟩
        have := e.line_lf
        rw [Event.line, combine_flatMap] at this
        simp only [List.flatMap_nil, List.nil_append, List.mem_append, List.mem_flatMap, not_or, not_exists,
          not_and] at this
        exact fun i hi hm => this.2 i hi (by simp [hm])
      · exact ih _ o ho hd

end

/-! ## The program -/

section
variable {env : Env} {k : Nat} {t : Cli.Texts} {loc : Event → List Byte} {format : Option Cli.ProofFormat} {n : Nat}
  {F : List (List Int)}

/-- What is printed is what `mainOut` says, with the messages of the solver added. -/
theorem mainAll_spec (hn : n ≤ 2 ^ 30) (hF : ∀ c ∈ F, ∀ x ∈ c, x ≠ 0 ∧ x.natAbs ≤ n) :
    match Cli.mainAll env k t loc format n F with
    | .ok none => Cli.mainOut env k t format n F = .ok none
    | .ok (some all) => ∃ (Ls : List (List Lit)) (s1 s2 : Solver) (sat : Bool) (said : List Said) (ls : List (List Byte)),
        Ls.map (List.map Lit.dimacs) = F ∧ Solver.Input env Ls s1 ∧
        s1.solveSaid env k = .ok ((s2, some sat), said) ∧
        ls.head? = some (Logger.text (if sat then "s SATISFIABLE" else "s UNSATISFIABLE")) ∧
        all = .log .info t.banner [.message (Logger.text "Starlit SAT Solver")] :: Said.outs t loc 0 said ++
          t.stats.map (fun x => .log .info x.1 x.2) ++ ls.map .line ∧
        Cli.mainOut env k t format n F = .ok (some (all.filter fun o => !o.isDetail))
    | .error err => Cli.mainOut env k t format n F = .error err := by
  obtain ⟨Ls, hr, hd, hv⟩ := readClauses_eq hn hF
  unfold Cli.mainAll Cli.mainOut
  simp only
  rw [hr]
  generalize hs0 : (if format.isSome then (Solver.default env).writeProof else Solver.default env) = s0
  have hin0 : Solver.Input env [] s0 := by
    rw [← hs0]; split
    · exact .proof .new
    · exact .new
  cases e1 : s0.addClauses Ls with
  | error err => rfl
  | ok s1 =>
    have hin : Solver.Input env Ls s1 := by simpa using Solver.Input.addClauses Ls hin0 hv e1
    simp only [bind_ok]
    cases e2 : s1.solveSaid env k with
    | error err =>
      have h1 := Solver.solveLog_eq env k s1
      have h2 := solveOut_eq (env := env) k s1
      rw [solveSaid_error e2] at h1
      rw [← h1] at h2
      cases e3 : s1.solveOut env k with
      | error err' => rw [e3] at h2; cases h2; rfl
      | ok x => rw [e3] at h2; cases h2
    | ok x =>
      obtain ⟨⟨s2, r⟩, said⟩ := x
      obtain ⟨h1, h2, init, h3, h4⟩ := solveSaid_ok e2
      rw [h2]
      simp only [bind_ok]
      cases r with
      | none => rfl
      | some sat =>
        simp only [Option.isSome_some, if_true] at h3
        have key : ∀ lines : List (List Byte), List.filter (fun o => !o.isDetail)
            (Out.log .info t.banner [.message (Logger.text "Starlit SAT Solver")] :: Said.outs t loc 0 said ++
              t.stats.map (fun x => .log .info x.1 x.2) ++ lines.map .line) =
            Out.log .info t.banner [.message (Logger.text "Starlit SAT Solver")] ::
              (said.filterMap Said.report?).mapIdx (fun i r =>
                t.report (if i + 1 < (said.filterMap Said.report?).length then t.reported else t.answered) i r) ++
              t.stats.map (fun x => .log .info x.1 x.2) ++ lines.map .line := by
          intro lines
          rw [List.cons_append, List.cons_append, List.filter_cons_of_pos (by rfl), List.filter_append,
            List.filter_append, h3, Said.outs_all h4,
            List.filter_eq_self.2 (by intro o ho; obtain ⟨x, _, rfl⟩ := List.mem_map.1 ho; rfl),
            List.filter_eq_self.2 (by simp [Out.isDetail])]
          rfl
        simp only
        cases sat with
        | false =>
          simp only [Bool.false_eq_true, if_false, pure_eq, bind_ok]
          cases e4 : Cli.result false (fun i => ([] : List (Option Bool)).getD i none) n with
          | error err => rfl
          | ok y =>
            refine ⟨Ls, s1, s2, false, said, y.1, hd, hin, e2, ?_, rfl, by rw [key]; rfl⟩
            cases e4; rfl
        | true =>
          simp only [if_true]
          cases e3 : Cli.readValues s2 (List.range n) with
          | error err => rfl
          | ok vs =>
            simp only [bind_ok]
            cases e4 : Cli.result true (fun i => vs.getD i none) n with
            | error err => rfl
            | ok y =>
              refine ⟨Ls, s1, s2, true, said, y.1, hd, hin, e2, ?_, rfl, by rw [key]; rfl⟩
              unfold Cli.result at e4
              rw [if_pos rfl] at e4
              obtain ⟨ls, _, e4⟩ := bind_eq_ok.1 e4
              cases e4; rfl

/-- What is known when the program has finished. -/
theorem mainAll_outs (hn : n ≤ 2 ^ 30) (hF : ∀ c ∈ F, ∀ x ∈ c, x ≠ 0 ∧ x.natAbs ≤ n) {all : List Out}
    (hm : Cli.mainAll env k t loc format n F = .ok (some all)) :
    ∃ (Ls : List (List Lit)) (s1 s2 : Solver) (sat : Bool) (said : List Said) (ls : List (List Byte)),
      Ls.map (List.map Lit.dimacs) = F ∧ Solver.Input env Ls s1 ∧
      s1.solveSaid env k = .ok ((s2, some sat), said) ∧
      ls.head? = some (Logger.text (if sat then "s SATISFIABLE" else "s UNSATISFIABLE")) ∧
      all = .log .info t.banner [.message (Logger.text "Starlit SAT Solver")] :: Said.outs t loc 0 said ++
        t.stats.map (fun x => .log .info x.1 x.2) ++ ls.map .line ∧
      Cli.mainOut env k t format n F = .ok (some (all.filter fun o => !o.isDetail)) := by
  have := mainAll_spec (env := env) (k := k) (t := t) (loc := loc) (format := format) hn hF
  rw [hm] at this
  exact this

theorem mainAll_oneLine (hn : n ≤ 2 ^ 30) (hF : ∀ c ∈ F, ∀ x ∈ c, x ≠ 0 ∧ x.natAbs ≤ n) {all : List Out}
    (hm : Cli.mainAll env k t loc format n F = .ok (some all)) (hl : ∀ e, 0x0a#8 ∉ loc e) :
    ∀ o ∈ all, o.isDetail = true → o.OneLine := by
  obtain ⟨Ls, s1, s2, sat, said, ls, -, -, -, -, rfl, -⟩ := mainAll_outs hn hF hm
  intro o ho hd
  simp only [List.cons_append, List.mem_cons, List.mem_append, List.mem_map] at ho
  rcases ho with rfl | (ho | ⟨x, hx, rfl⟩) | ⟨l, hl, rfl⟩
  · cases hd
  · exact Said.outs_oneLine hl 0 said o ho hd
  · cases hd
  · cases hd

/-- C107, answer: with any flags, the lines of standard output that do not start with `c` are the right answer. -/
theorem C107_answer (hn : n ≤ 2 ^ 30) (hF : ∀ c ∈ F, ∀ x ∈ c, x ≠ 0 ∧ x.natAbs ≤ n) {all : List Out}
    (hm : Cli.mainAll env k t loc format n F = .ok (some all)) (ht : t.OneLine) (hl : ∀ e, 0x0a#8 ∉ loc e)
    (v q : Nat) (src : Bool) :
    ∃ out, Cli.main env k format n F = .ok (some out) ∧ Cli.Right F n format out ∧
      answer (all.flatMap (Out.bytes (Cli.logger v q src))) = out.lines := by
  obtain ⟨_, _, _, _, _, _, _, _, _, _, _, h⟩ := mainAll_outs hn hF hm
  exact C100_answer hn hF h ht rfl (mainAll_oneLine hn hF hm hl) v q src

/-- C107: the output is there whenever the program finishes. -/
theorem C107_complete (hn : n ≤ 2 ^ 30) (hF : ∀ c ∈ F, ∀ x ∈ c, x ≠ 0 ∧ x.natAbs ≤ n) {out : Cli.Outcome}
    (h : Cli.main env k format n F = .ok (some out)) :
    ∃ all, Cli.mainAll env k t loc format n F = .ok (some all) := by
  obtain ⟨outs, h1, -⟩ := C100_complete (t := t) hn hF h
  have := mainAll_spec (env := env) (k := k) (t := t) (loc := loc) (format := format) hn hF
  cases e : Cli.mainAll env k t loc format n F with
  | error err => rw [e] at this; simp only at this; rw [h1] at this; cases this
  | ok o =>
    cases o with
    | none => rw [e] at this; simp only at this; rw [h1] at this; cases this
    | some all => exact ⟨all, rfl⟩

/-! ## Levels -/

/-- The call is printed. -/
def Out.shown (lg : Logger) : Out → Bool
  | .log level _ _ => decide (level.toU8 < lg.levelLimit)
  | .line _ => true

/-- The line that is printed. -/
def Out.text (src : Bool) : Out → List Byte
  | .log level location items => Logger.pref level ++ items.flatMap (fun i => 0x20#8 :: i.text) ++
      (if src then 0x20#8 :: 0x1b#8 :: Logger.text "[34m" ++ location ++ 0x1b#8 :: Logger.text "[0m" else [])
  | .line text => text

theorem Out.text_lf {o : Out} (h : o.OneLine) (src : Bool) : 0x0a#8 ∉ o.text src := by
  cases o with
  | line x => exact h
  | log level location items =>
    have h1 : 0x0a#8 ∉ Logger.pref level := by cases level <;> decide
    have h2 : 0x0a#8 ∉ items.flatMap (fun i => 0x20#8 :: i.text) := by
      simp only [List.mem_flatMap, not_exists, not_and]
      intro i hi hm
      rcases List.mem_cons.1 hm with hm | hm
      · exact absurd hm (by decide)
      · exact h.2 i hi hm
    have h3 : 0x0a#8 ∉ Logger.text "[34m" := by decide
    have h4 : 0x0a#8 ∉ Logger.text "[0m" := by decide
    cases src <;> simp [Out.text, h1, h2, h3, h4, h.1]

theorem Out.bytes_eq (lg : Logger) (o : Out) :
    o.bytes lg = if o.shown lg then o.text lg.logSourceLocations ++ [0x0a#8] else [] := by
  cases o with
  | line x => rfl
  | log level location items =>
    simp only [Out.bytes, Out.shown, Logger.log, decide_eq_true_eq]
    split
    · rw [Logger.performLog, combine_flatMap]
      cases lg.logSourceLocations <;> simp [Out.text]
    · rfl

/-- The lines are those of the calls that are shown. -/
theorem lines_shown (lg : Logger) (outs : List Out) (h1 : ∀ o ∈ outs, o.OneLine) :
    lines (outs.flatMap (Out.bytes lg)) = (outs.filter (Out.shown lg)).map (Out.text lg.logSourceLocations) := by
  induction outs with
  | nil => rfl
  | cons o outs ih =>
    have ih := ih (fun x hx => h1 x (by simp [hx]))
    rw [List.flatMap_cons, Out.bytes_eq]
    by_cases hs : o.shown lg = true
    · rw [if_pos hs, List.append_assoc, List.singleton_append, lines_line (o.text_lf (h1 o (by simp)) _), ih,
        List.filter_cons_of_pos hs, List.map_cons]
    · rw [if_neg hs, List.nil_append, ih, List.filter_cons_of_neg hs]

theorem mainAll_lines (hn : n ≤ 2 ^ 30) (hF : ∀ c ∈ F, ∀ x ∈ c, x ≠ 0 ∧ x.natAbs ≤ n) {all : List Out}
    (hm : Cli.mainAll env k t loc format n F = .ok (some all)) (ht : t.OneLine) (hl : ∀ e, 0x0a#8 ∉ loc e) :
    ∀ o ∈ all, o.OneLine := by
  obtain ⟨_, _, _, _, _, _, _, _, _, _, _, h⟩ := mainAll_outs hn hF hm
  obtain ⟨out, Ls, sat, reports, h1, h2, h3, h4, h5, -, h6⟩ := mainOut_outs hn hF h ht
  exact oneLine_all rfl (mainAll_oneLine hn hF hm hl) h5

theorem Cli.logger_src (v q : Nat) (src : Bool) : (Cli.logger v q src).logSourceLocations = src := rfl

theorem Cli.logger_mono (v : Nat) (src : Bool) :
    (Cli.logger v 0 src).levelLimit ≤ (Cli.logger (v + 1) 0 src).levelLimit := by
  match v with
  | 0 | 1 | 2 | v + 3 => simp [Cli.logger, Cli.logLevel, Logger.setLogLevel, Logger.setLogSourceLocations, LogLevel.toU8]

/-- C107, levels: whoever asks for more (one `-v` more) gets the same lines in the same order, with others in
between. -/
theorem C107_levels (hn : n ≤ 2 ^ 30) (hF : ∀ c ∈ F, ∀ x ∈ c, x ≠ 0 ∧ x.natAbs ≤ n) {all : List Out}
    (hm : Cli.mainAll env k t loc format n F = .ok (some all)) (ht : t.OneLine) (hl : ∀ e, 0x0a#8 ∉ loc e)
    (v : Nat) (src : Bool) :
    (lines (all.flatMap (Out.bytes (Cli.logger v 0 src)))).Sublist
      (lines (all.flatMap (Out.bytes (Cli.logger (v + 1) 0 src)))) := by
  have h := mainAll_lines hn hF hm ht hl
  rw [lines_shown _ _ h, lines_shown _ _ h, Cli.logger_src, Cli.logger_src]
  refine List.Sublist.map _ (List.monotone_filter_right _ fun o ho => ?_)
  cases o with
  | line => rfl
  | log level a b =>
    have := Cli.logger_mono v src
    simp only [Out.shown, decide_eq_true_eq] at ho ⊢
    omega

/-- C107, default: without flags, no messages are printed: the lines are the banner, the reports, the statistics and
the answer. -/
theorem C107_default (hn : n ≤ 2 ^ 30) (hF : ∀ c ∈ F, ∀ x ∈ c, x ≠ 0 ∧ x.natAbs ≤ n) {all : List Out}
    (hm : Cli.mainAll env k t loc format n F = .ok (some all)) (ht : t.OneLine) (hl : ∀ e, 0x0a#8 ∉ loc e) :
    ∃ out Ls sat reports, Cli.main env k format n F = .ok (some out) ∧ Cli.Right F n format out ∧
      Ls.map (List.map Lit.dimacs) = F ∧ Cli.Reported env Ls k sat reports ∧
      lines (all.flatMap (Out.bytes (Cli.logger 0 0 false))) = Logger.text "c Starlit SAT Solver" ::
        reports.mapIdx (fun i r => r.line (t.millis i)) ++
        t.stats.map (fun x => Logger.text "c" ++ x.2.flatMap (fun i => 0x20#8 :: i.text)) ++ out.lines := by
  obtain ⟨_, _, _, _, _, _, _, _, _, _, _, h⟩ := mainAll_outs hn hF hm
  exact C100_default hn hF h ht rfl (mainAll_oneLine hn hF hm hl)

/-- C107, quiet: with `-q`, standard output is the right answer and nothing else. -/
theorem C107_quiet (hn : n ≤ 2 ^ 30) (hF : ∀ c ∈ F, ∀ x ∈ c, x ≠ 0 ∧ x.natAbs ≤ n) {all : List Out}
    (hm : Cli.mainAll env k t loc format n F = .ok (some all)) (ht : t.OneLine) (hl : ∀ e, 0x0a#8 ∉ loc e)
    (q : Nat) (src : Bool) :
    ∃ out, Cli.main env k format n F = .ok (some out) ∧ Cli.Right F n format out ∧
      lines (all.flatMap (Out.bytes (Cli.logger 0 (q + 1) src))) = out.lines := by
  obtain ⟨_, _, _, _, _, _, _, _, _, _, _, h⟩ := mainAll_outs hn hF hm
  exact C100_quiet hn hF h ht rfl (mainAll_oneLine hn hF hm hl) q src

end

/-! ## Reading it all -/

/-- The lines that start with `c`. -/
def Reader.comments (bs : List Byte) : List (List Byte) := (lines bs).filter (fun l => l.head? == some 0x63#8)

/-- The messages among the lines that start with `c`. -/
def Reader.messages (bs : List Byte) : List Event := (comments bs).filterMap readLine

theorem time_plain (n m : Nat) (hm : m < 100) :
    ∀ b ∈ Drat.asciiDigits n ++ 0x2e#8 :: Fmt.zeros2 m, clean b = b ∧ b ≠ 0x20#8 := by
  have h : ∀ b ∈ Fmt.zeros2 m, clean b = b ∧ b ≠ 0x20#8 := by revert m; decide +kernel
  intro b hb
  rcases List.mem_append.1 hb with hb | hb
  · exact ⟨(digits_plain n b hb).1, (digits_plain n b hb).2.1⟩
  · rcases List.mem_cons.1 hb with rfl | hb
    · decide
    · exact h b hb

theorem readWords_red (time : List Byte) (rest : List (List Byte)) :
    readWords [Logger.text "c", time, Logger.text "red:"] rest = none := by
  have key : ∀ K : List (List Byte), K[2]? ≠ some (Logger.text "red:") →
      [Logger.text "c", time, Logger.text "red:"] ≠ K := fun K h e => h (e ▸ rfl)
  unfold readWords
  rw [if_neg (key _ (by decide +kernel)), if_neg (key _ (by decide +kernel)), if_neg (key _ (by decide +kernel)),
    if_neg (key _ (by decide +kernel)), if_neg (key _ (by decide +kernel)), if_neg (key _ (by decide +kernel)),
    if_neg (key _ (by decide +kernel)), if_neg (key _ (by decide +kernel))]

/-- A report is not read as a message. -/
theorem readLine_report (millis : Nat) (r : Report) : readLine (r.line millis) = none := by
  have hz : (millis / 10) % 100 < 100 := Nat.mod_lt _ (by decide)
  obtain ⟨rest, e⟩ : ∃ rest, r.line millis = Logger.text "c" ++ 0x20#8 :: ((Drat.asciiDigits (millis / 10 / 100 : Nat) ++
      0x2e#8 :: Fmt.zeros2 (millis / 10 % 100)) ++ 0x20#8 :: (Logger.text "red:" ++ 0x20#8 :: rest)) := by
    refine ⟨Fmt.width 2 r.reductions ++ ((r.items millis).drop 3).flatMap (fun i => 0x20#8 :: i.text), ?_⟩
    simp [Report.line, Report.items, LogItem.text]
  have ht := time_plain (millis / 10 / 100) _ hz
  generalize ew : Drat.asciiDigits (millis / 10 / 100 : Nat) ++ 0x2e#8 :: Fmt.zeros2 (millis / 10 % 100) = w at e ht
  have hw : w ≠ [] := by rw [← ew]; simp
  have hm : w.map clean = w := by
    rw [List.map_congr_left fun b hb => (ht b hb).1]; exact List.map_id _
  have h : words ((r.line millis).map clean) =
      Logger.text "c" :: w :: Logger.text "red:" :: words (rest.map clean) := by
    rw [e]
    simp only [List.map_append, List.map_cons, hm]
    have hs : clean 0x20#8 = 0x20#8 := by decide
    have h1 : (Logger.text "c").map clean = Logger.text "c" := by decide
    have h2 : (Logger.text "red:").map clean = Logger.text "red:" := by decide
    rw [hs, h1, h2, words_append (by decide) (by decide), words_append (fun h => (ht _ h).2 rfl) hw,
      words_append (by decide) (by decide)]
  rw [readLine, h]
  exact readWords_red w _

/-- A message can be read from the text of a call of the logger, a report cannot. -/
theorem outs_read {t : Cli.Texts} {loc : Event → List Byte} (said : List Said)
    (h : ∀ e ∈ said.filterMap Said.event?, e.Ok) (i : Nat) :
    ((Said.outs t loc i said).map (Out.text false)).filterMap readLine = said.filterMap Said.event? := by
  have hr : ∀ l j (r : Report), (t.report l j r).text false = r.line (t.millis j) := by
    intro l j r
    simp [Cli.Texts.report, Out.text, Report.line, Logger.pref]
  induction said generalizing i with
  | nil => rfl
  | cons x said ih =>
    cases x with
    | reported r =>
      rw [Said.outs, List.map_cons, hr, List.filterMap_cons_none (readLine_report _ _),
        List.filterMap_cons_none (by rfl)]
      exact ih (fun e he => h e (by rwa [List.filterMap_cons_none (by rfl)])) _
    | answered r =>
      rw [Said.outs, List.map_cons, hr, List.filterMap_cons_none (readLine_report _ _),
        List.filterMap_cons_none (by rfl)]
      exact ih (fun e he => h e (by rwa [List.filterMap_cons_none (by rfl)])) _
    | event e =>
      have e1 : (Out.log e.level (loc e) e.items).text false = e.line := by
        rw [Event.line, combine_flatMap]
        simp [Out.text]
      have e2 : List.filterMap Said.event? (.event e :: said) = e :: List.filterMap Said.event? said := rfl
      rw [e2] at h ⊢
      rw [Said.outs, List.map_cons, e1, List.filterMap_cons_some (readLine_line (h e (by simp))),
        ih (fun e he => h e (by simp [he]))]

theorem outs_comment {t : Cli.Texts} {loc : Event → List Byte} (said : List Said) (i : Nat) :
    ∀ l ∈ (Said.outs t loc i said).map (Out.text false), l.head? = some 0x63#8 := by
  induction said generalizing i with
  | nil => simp [Said.outs]
  | cons x said ih =>
    intro l hl
    cases x with
    | reported r =>
      rcases List.mem_cons.1 hl with rfl | hl
      · rfl
      · exact ih _ l hl
    | answered r =>
      rcases List.mem_cons.1 hl with rfl | hl
      · rfl
      · exact ih _ l hl
    | event e =>
      rcases List.mem_cons.1 hl with rfl | hl
      · cases e <;> rfl
      · exact ih _ l hl

section
variable {env : Env} {k : Nat} {t : Cli.Texts} {loc : Event → List Byte} {format : Option Cli.ProofFormat} {n : Nat}
  {F : List (List Int)}

theorem mainAll_printed (b : List Byte) (items : List LogItem) (said : List Said) (i : Nat)
    (stats : List (List Byte × List LogItem)) (ls : List (List Byte)) :
    (Out.log .info b items :: Said.outs t loc i said ++ stats.map (fun x => Out.log .info x.1 x.2) ++
      ls.map Out.line).filterMap Out.printed = ls := by
  have e1 : (Said.outs t loc i said).filterMap Out.printed = [] := by
    induction said generalizing i with
    | nil => rfl
    | cons x said ih => cases x <;> exact ih _
  have e2 : (stats.map (fun x => Out.log .info x.1 x.2)).filterMap Out.printed = [] := by
    rw [List.filterMap_eq_nil_iff]
    intro o ho
    obtain ⟨x, hx, rfl⟩ := List.mem_map.1 ho
    rfl
  have e3 : (ls.map Out.line).filterMap Out.printed = ls := by
    rw [List.filterMap_map]
    exact List.filterMap_some
  rw [List.cons_append, List.cons_append, List.filterMap_cons_none (by rfl), List.filterMap_append,
    List.filterMap_append, e1, e2, e3]
  rfl

/-- C107, messages: the messages of the run can be read from the output of `-vvv` (given that the statistics do not look like
messages): whoever follows them ends up with the answer of the program, unless the formula was found to be unsatisfiable before
the search began. -/
theorem C107_follow (hn : n ≤ 2 ^ 30) (hF : ∀ c ∈ F, ∀ x ∈ c, x ≠ 0 ∧ x.natAbs ≤ n) {all : List Out}
    (hm : Cli.mainAll env k t loc format n F = .ok (some all)) (ht : t.OneLine) (hl : ∀ e, 0x0a#8 ∉ loc e)
    (hs : ∀ x ∈ t.stats, readLine (Logger.text "c" ++ x.2.flatMap (fun i => 0x20#8 :: i.text)) = none) :
    ∃ sat, (answer (all.flatMap (Out.bytes (Cli.logger 3 0 false)))).head? =
        some (Logger.text (if sat then "s SATISFIABLE" else "s UNSATISFIABLE")) ∧
      ((∃ ds, readLog (messages (all.flatMap (Out.bytes (Cli.logger 3 0 false)))) [] = some (ds, some sat)) ∨
        sat = false ∧ ∀ ev ∈ messages (all.flatMap (Out.bytes (Cli.logger 3 0 false))),
          ev = .restart ∨ ev = .reduce ∨ ∃ a, ev = .backtrack a 0) := by
  obtain ⟨Ls, s1, s2, sat, said, ls, hd, hin, he, hh, ha, h⟩ := mainAll_outs hn hF hm
  have h1 := mainAll_lines hn hF hm ht hl
  obtain ⟨h2, h3, -⟩ := solveSaid_ok he
  have hreach : Solver.Reachable env Ls s1 := .input hin
  obtain ⟨out, h4, h5, h6⟩ := C107_answer hn hF hm ht hl 3 0 false
  obtain ⟨out', _, _, _, h4', -, -, -, -, h7, -⟩ := mainOut_outs hn hF h ht
  cases h4.symm.trans h4'
  rw [← printed_all rfl, ha, mainAll_printed] at h7
  subst h7
  refine ⟨sat, by rw [h6, hh], ?_⟩
  have hmsg : messages (all.flatMap (Out.bytes (Cli.logger 3 0 false))) = said.filterMap Said.event? := by
    have hok : ∀ e ∈ said.filterMap Said.event?, e.Ok := by
      intro ev hev
      cases hu : s1.search.prop.unsat with
      | true =>
        rcases C105_known hreach hu h2 ev hev with rfl | rfl | ⟨a, rfl⟩ <;> trivial
      | false =>
        have hr := solveLog_records k hreach hu h2
        cases ev with
        | decision l => exact hr.lits l hev
        | uip C => exact (hr.valid C hev).1
        | restart | reduce | unsat | sat | collect _ _ | backtrack _ _ => trivial
    unfold messages comments
    have hshown : all.filter (Out.shown (Cli.logger 3 0 false)) = all := by
      refine List.filter_eq_self.2 fun o _ => ?_
      cases o with
      | line => rfl
      | log level => cases level <;> rfl
    rw [lines_shown _ _ h1, Cli.logger_src, hshown, ha]
    have e0 : readLine ((Out.log .info t.banner [.message (Logger.text "Starlit SAT Solver")]).text false) = none :=
      show readLine (Logger.text "c Starlit SAT Solver") = none by decide +kernel
    have e1 : ((t.stats.map (fun x => Out.log .info x.1 x.2)).map (Out.text false)).filterMap readLine = [] := by
      refine List.filterMap_eq_nil_iff.2 fun l hl => ?_
      simp only [List.map_map, List.mem_map, Function.comp] at hl
      obtain ⟨x, hx, rfl⟩ := hl
      simpa [Out.text, Logger.pref] using hs x hx
    have e2 : ((out.lines.map Out.line).map (Out.text false)).filter (fun l => l.head? == some 0x63#8) = [] := by
      refine List.filter_eq_nil_iff.2 fun l hl => ?_
      simp only [List.map_map, List.mem_map, Function.comp] at hl
      obtain ⟨x, hx, rfl⟩ := hl
      simpa [Out.text] using (h5.lines_ok x hx).2
    have e3 : ((t.stats.map (fun x => Out.log .info x.1 x.2)).map (Out.text false)).filter
        (fun l => l.head? == some 0x63#8) = (t.stats.map (fun x => Out.log .info x.1 x.2)).map (Out.text false) := by
      refine List.filter_eq_self.2 fun l hl => ?_
      simp only [List.map_map, List.mem_map, Function.comp] at hl
      obtain ⟨x, hx, rfl⟩ := hl
      rfl
    have e4 : ((Said.outs t loc 0 said).map (Out.text false)).filter (fun l => l.head? == some 0x63#8) =
        (Said.outs t loc 0 said).map (Out.text false) :=
      List.filter_eq_self.2 fun l hl => by simpa using outs_comment said 0 l hl
    rw [List.map_append, List.map_append, List.map_cons, List.filter_append, List.filter_append,
      List.filter_cons_of_pos (by rfl), e2, e3, e4, List.append_nil, List.filterMap_append,
      List.filterMap_cons_none e0, outs_read _ hok, e1, List.append_nil]
  rw [hmsg]
  cases hu : s1.search.prop.unsat with
  | true =>
    refine .inr ⟨?_, C105_known hreach hu h2⟩
    have := (solve_unsat hu (fst_of_ok (Solver.solveLog_eq env k s1) h2)).2
    cases sat
    · rfl
    · exact absurd rfl this
  | false =>
    obtain ⟨L, S, hi⟩ := hreach.inv
    have hlen := hi.prop.decided_length
    have h0 := C105_read hreach hu h2
    have hz : s1.search.prop.trail.decided = [] := by
      obtain ⟨S', hi'⟩ := hin.inv
      rw [← List.length_eq_zero_iff, hlen, Trail.decisionLevel, hi'.decisions]
      rfl
    rw [hz] at h0
    exact .inl ⟨_, h0⟩

end

/-! ## Reports and messages -/

section
variable {env : Env} {F : List (List Lit)} {s s' : Solver} {r : Option Bool} {es : List Event}

theorem restartLog_count (e : s.maybeRestartLog = .ok (s', es)) : s'.ctx.search = s.ctx.search.plus (tally es) := by
  unfold Solver.maybeRestartLog at e
  split at e
  · obtain ⟨⟨⟨ctx, search⟩, es1⟩, e1, e⟩ := bind_eq_ok.1 e
    cases e
    unfold restartLog at e1
    simp only at e1
    split at e1
    · obtain ⟨⟨p, cb⟩, e2, e1⟩ := bind_eq_ok.1 e1
      cases e1; rfl
    · cases e1; rfl
  · cases e; rfl

theorem reduceLog_count (h : Solver.Reachable env F s) (e : s.maybeReduceLog env = .ok (s', es)) :
    s'.ctx.search = s.ctx.search.plus (tally es) := by
  unfold Solver.maybeReduceLog at e
  obtain ⟨s1, e1, e⟩ := bind_eq_ok.1 e
  cases e
  rcases C55_reduce h e1 with ⟨h1, rfl⟩ | ⟨h1, h2, h3, h4, h5, h6, h7, h8, h9⟩
  · rw [if_neg (by omega)]; rfl
  · rw [if_pos h1]
    cases hx : s'.ctx.search
    rw [hx] at h4 h6 h7 h8
    simp only at h4 h6 h7 h8
    subst h4 h6 h7 h8
    rfl

theorem searchLog_count (h : Solver.Reachable env F s) {ctx' : Ctx} {search' : Search}
    (e : searchStepLog env s.ctx s.search = .ok ((ctx', search', r), es)) :
    ctx'.search = s.ctx.search.plus (tally es) := by
  cases hu : s.search.prop.unsat with
  | false => exact (searchStepLog_records h hu e).count
  | true =>
    unfold searchStepLog at e
    rw [if_pos hu] at e
    cases e; rfl

/-- The numbers of a report are those of the counters. -/
def Report.Says (rep : Report) (c : SearchStats) : Prop :=
  rep.reductions = c.reductions ∧ rep.restarts = c.restarts ∧ rep.conflicts = c.conflicts

/-- Every report says what the messages before it say. -/
def Counts (c : SearchStats) (said : List Said) : Prop :=
  ∀ a x b rep, said = a ++ x :: b → x.report? = some rep → rep.Says (c.plus (tally (a.filterMap Said.event?)))

theorem Counts.append {c : SearchStats} {A B : List Said} (hA : Counts c A)
    (hB : Counts (c.plus (tally (A.filterMap Said.event?))) B) : Counts c (A ++ B) := by
  intro a x b rep e hx
  rcases List.append_eq_append_iff.1 e with ⟨a', rfl, e'⟩ | ⟨c', rfl, e'⟩
  · have := hB a' x b rep e' hx
    rwa [SearchStats.plus_assoc, ← tally_append, ← List.filterMap_append] at this
  · cases c' with
    | nil =>
      have := hB [] x b rep (by simpa using e'.symm) hx
      simpa [tally, SearchStats.plus_zero] using this
    | cons y c' =>
      simp only [List.cons_append, List.cons.injEq] at e'
      obtain ⟨rfl, -⟩ := e'
      exact hA a x c' rep rfl hx

theorem Counts.events (c : SearchStats) (es : List Event) : Counts c (es.map Said.event) := by
  intro a x b rep e hx
  have : x ∈ es.map Said.event := by rw [e]; simp
  obtain ⟨ev, _, rfl⟩ := List.mem_map.1 this
  cases hx

theorem Counts.one {c : SearchStats} {x : Said} {rep : Report} (hx : x.report? = some rep) (h : rep.Says c) :
    Counts c [x] := by
  intro a y b rep' e hy
  cases a with
  | nil =>
    simp only [List.nil_append, List.cons.injEq] at e
    obtain ⟨rfl, -⟩ := e
    cases hx.symm.trans hy
    exact h
  | cons z a => simp at e

theorem Counts.nil (c : SearchStats) : Counts c [] := by
  intro a x b rep e
  simp at e

theorem scheduleStepSaid_counts (h : Solver.Reachable env F s) {said : List Said}
    (e : s.scheduleStepSaid env = .ok ((s', r), said)) :
    Counts s.ctx.search said ∧ s'.ctx.search = s.ctx.search.plus (tally (said.filterMap Said.event?)) := by
  unfold Solver.scheduleStepSaid at e
  obtain ⟨⟨s1, es1⟩, e1, e⟩ := bind_eq_ok.1 e
  obtain ⟨⟨s2, es2⟩, e2, e⟩ := bind_eq_ok.1 e
  obtain ⟨⟨⟨ctx, search, r'⟩, es3⟩, e3, e⟩ := bind_eq_ok.1 e
  cases e
  have h1 := h.restart (fst_of_ok (Solver.maybeRestartLog_eq _) e1)
  have h2 := h1.reduce (fst_of_ok (Solver.maybeReduceLog_eq _ _) e2)
  have c1 := restartLog_count e1
  have c2 := reduceLog_count h1 e2
  have c3 := searchLog_count h2 e3
  have hrep : List.filterMap Said.event?
      (if s1.ctx.search.conflicts ≥ s1.schedule.nextReduce then [Said.reported (report s2.ctx)] else []) = [] := by
    split <;> rfl
  refine ⟨?_, ?_⟩
  · refine Counts.append (Counts.append (Counts.append (.events _ _) (.events _ _)) ?_) (.events _ _)
    rw [List.filterMap_append, Said.events_map, Said.events_map, tally_append, ← SearchStats.plus_assoc, ← c1, ← c2]
    split
    · exact .one rfl ⟨rfl, rfl, rfl⟩
    · exact .nil _
  · simp only [List.filterMap_append, Said.events_map, hrep, List.append_nil]
    rw [c3, c2, c1, SearchStats.plus_assoc, SearchStats.plus_assoc, ← tally_append, ← tally_append, List.append_assoc]

theorem solveSaid_counts : ∀ {k : Nat} {s s' : Solver} {r : Option Bool} {said : List Said},
    Solver.Reachable env F s → s.solveSaid env k = .ok ((s', r), said) → Counts s.ctx.search said
  | 0, s, _, _, _, _, e => by cases e; exact .nil _
  | k + 1, s, s', r, said, h, e => by
    unfold Solver.solveSaid at e
    obtain ⟨⟨⟨s1, r1⟩, out⟩, e1, e⟩ := bind_eq_ok.1 e
    obtain ⟨c1, c2⟩ := scheduleStepSaid_counts h e1
    cases r1 with
    | some b =>
      cases e
      refine c1.append ?_
      rw [← c2]
      exact .one rfl ⟨rfl, rfl, rfl⟩
    | none =>
      simp only at e
      obtain ⟨⟨⟨s2, r2⟩, out2⟩, e2, e⟩ := bind_eq_ok.1 e
      cases e
      refine c1.append ?_
      rw [← c2]
      exact solveSaid_counts (h.schedule (fst_of_ok (Solver.scheduleStepLog_eq _ _) (scheduleStepSaid_ok e1).1)) e2

/-- C107, reports: in the log of a run of the program, every progress report says how many messages about reductions, restarts
and conflicts came before it. -/
theorem C107_counts {k : Nat} (h : Solver.Input env F s) {said a b : List Said} {x : Said} {rep : Report}
    (e : s.solveSaid env k = .ok ((s', r), said)) (hs : said = a ++ x :: b) (hx : x.report? = some rep) :
    rep.reductions = (a.filter (· = .event .reduce)).length ∧
    rep.restarts = (a.filter (· = .event .restart)).length ∧
    rep.conflicts = (a.filter fun y => match y with
      | .event (.uip _) | .event .unsat => true
      | _ => false).length := by
  have h1 := solveSaid_counts (.input h) e a x b rep hs hx
  rw [h.start.search] at h1
  obtain ⟨h2, h3, h4⟩ := h1
  rw [h2, h3, h4]
  clear hs e h2 h3 h4
  simp only [SearchStats.plus, Nat.zero_add]
  induction a with
  | nil => exact ⟨rfl, rfl, rfl⟩
  | cons y a ih =>
    obtain ⟨i1, i2, i3⟩ := ih
    cases y with
    | reported r => exact ⟨i1, i2, i3⟩
    | answered r => exact ⟨i1, i2, i3⟩
    | event ev =>
      have e2 : List.filterMap Said.event? (.event ev :: a) = ev :: List.filterMap Said.event? a := rfl
      rw [e2]
      cases ev <;> simp [tally, i1, i2, i3]

end

/-- The whole output for the pigeon hole formula with three pigeons and two holes, with a reduction after every
conflict, at the level `trace`. -/
def Example.fullOutput : List String :=
  ["c Starlit SAT Solver",
   "c D: restart",
   "c D: reduce",
   "c 1.23 red:  1 res:   1 cfl:     0 bin:  9 red:   0 irr:   0 var:   6 100%",
   "c D: garbage collection Utilization { allocated: 0, used: 0 }",
   "c T: decision: -1",
   "c D: garbage collection Utilization { allocated: 0, used: 0 }",
   "c T: 1-uip clause: [-2]",
   "c T: backtrack from: 1 to: 0",
   "c D: reduce",
   "c 1.36 red:  2 res:   1 cfl:     1 bin:  9 red:   0 irr:   0 var:   6 100%",
   "c D: garbage collection Utilization { allocated: 0, used: 0 }",
   "c V: unsatisfiable",
   "c 1.48 red:  2 res:   1 cfl:     2 bin:  9 red:   0 irr:   0 var:   6 100%",
   "c satisfiable: false",
   "s UNSATISFIABLE"]

/-- The source locations of the example. -/
def Example.locations (_ : Event) : List Byte := Logger.text "search.rs:112"

/-- The hypotheses of C107 can be met. -/
theorem C107_example : ∃ all,
    Cli.mainAll Example.envReduce 30 Example.texts Example.locations none 6 (Example.php 3 2) = .ok (some all) ∧
    Example.texts.OneLine ∧ (∀ e, 0x0a#8 ∉ Example.locations e) ∧
    (∀ x ∈ Example.texts.stats,
      readLine (Logger.text "c" ++ x.2.flatMap (fun i => 0x20#8 :: i.text)) = none) ∧
    all.flatMap (Out.bytes (Cli.logger 3 0 false)) =
      Example.fullOutput.flatMap (fun l => Logger.text l ++ [0x0a#8]) ∧
    readLog (messages (all.flatMap (Out.bytes (Cli.logger 3 0 false)))) [] = some ([], some false) ∧
    (lines (all.flatMap (Out.bytes (Cli.logger 0 0 false)))).length = 6 ∧
    (lines (all.flatMap (Out.bytes (Cli.logger 1 0 false)))).length = 7 ∧
    (lines (all.flatMap (Out.bytes (Cli.logger 2 0 false)))).length = 13 := by
  have h : ((Cli.mainAll Example.envReduce 30 Example.texts Example.locations none 6 (Example.php 3 2)).map
      (fun o => o.map (fun all =>
        (decide (all.flatMap (Out.bytes (Cli.logger 3 0 false)) =
            Example.fullOutput.flatMap (fun l => Logger.text l ++ [0x0a#8])),
          decide (readLog (messages (all.flatMap (Out.bytes (Cli.logger 3 0 false)))) [] = some ([], some false)),
          (lines (all.flatMap (Out.bytes (Cli.logger 0 0 false)))).length,
          (lines (all.flatMap (Out.bytes (Cli.logger 1 0 false)))).length,
          (lines (all.flatMap (Out.bytes (Cli.logger 2 0 false)))).length)))) =
      .ok (some (true, true, 6, 7, 13)) := by decide +kernel
  cases e : Cli.mainAll Example.envReduce 30 Example.texts Example.locations none 6 (Example.php 3 2) with
  | error => rw [e] at h; simp [Except.map] at h
  | ok o =>
    cases o with
    | none => rw [e] at h; simp [Except.map] at h
    | some all =>
      rw [e] at h
      simp only [Except.map, Option.map_some, Except.ok.injEq, Option.some.injEq, Prod.mk.injEq,
        decide_eq_true_eq] at h
      refine ⟨all, rfl, ⟨by decide, by decide, by decide, by decide⟩, fun _ => (by decide : 0x0a#8 ∉ Logger.text "search.rs:112"),
        by decide +kernel, h.1,
        h.2.1, h.2.2.1, h.2.2.2.1, h.2.2.2.2⟩

end Starlit
