import Verif.Solver.Output
import Verif.Props.EndToEnd
import Verif.Props.Schedule
import Verif.Props.Guided

/-!
# C100: everything on standard output
-/

namespace Starlit

namespace Reader

/-- The parts of a text that end with the separator, and what follows the last separator. -/
def split (sep : Byte) : List Byte → List (List Byte)
  | [] => []
  | b :: bs =>
    if b = sep then [] :: split sep bs
    else match split sep bs with
      | [] => [[b]]
      | l :: ls => (b :: l) :: ls

/-- The lines of a text. -/
def lines (bs : List Byte) : List (List Byte) := split 0x0a#8 bs

/-- The words of a line. -/
def words (bs : List Byte) : List (List Byte) := (split 0x20#8 bs).filter (fun w => !w.isEmpty)

/-- What a program that asks for the answer reads: all lines but those that start with `c`. -/
def answer (bs : List Byte) : List (List Byte) := (lines bs).filter (fun l => l.head? != some 0x63#8)

/-- A word is a number or something else. -/
def word (w : List Byte) : Nat ⊕ List Byte :=
  match TextFormat.parseNat w with
  | some (n, []) => .inl n
  | _ => .inr w

end Reader

open Reader

theorem split_append {sep : Byte} {l : List Byte} (h : sep ∉ l) (rest : List Byte) :
    split sep (l ++ sep :: rest) = l :: split sep rest := by
  induction l with
  | nil => simp [split]
  | cons b l ih =>
    simp only [List.mem_cons, not_or] at h
    simp [split, ih h.2, Ne.symm h.1]

theorem split_self {sep : Byte} {l : List Byte} (h : sep ∉ l) (hn : l ≠ []) : split sep l = [l] := by
  induction l with
  | nil => exact absurd rfl hn
  | cons b l ih =>
    simp only [List.mem_cons, not_or] at h
    cases l with
    | nil => simp [split, Ne.symm h.1]
    | cons c l =>
      have := ih h.2 (by simp)
      rw [split, if_neg (Ne.symm h.1), this]

theorem words_space (bs : List Byte) : words (0x20#8 :: bs) = words bs := by
  simp [words, split]

theorem words_append {w : List Byte} (h : 0x20#8 ∉ w) (hn : w ≠ []) (rest : List Byte) :
    words (w ++ 0x20#8 :: rest) = w :: words rest := by
  unfold words
  rw [split_append h]
  cases w with
  | nil => exact absurd rfl hn
  | cons b w => simp

theorem words_self {w : List Byte} (h : 0x20#8 ∉ w) (hn : w ≠ []) : words w = [w] := by
  unfold words
  rw [split_self h hn]
  cases w with
  | nil => exact absurd rfl hn
  | cons b w => simp

theorem words_replicate (k : Nat) (bs : List Byte) :
    words (List.replicate k 0x20#8 ++ bs) = words bs := by
  induction k with
  | zero => simp
  | succ k ih => rw [List.replicate_succ, List.cons_append, words_space, ih]

theorem digit_mem (fuel n : Nat) : ∀ b ∈ Drat.digits fuel n, ∃ d < 10, b = BitVec.ofNat 8 (48 + d) := by
  induction fuel generalizing n with
  | zero => simp [Drat.digits]
  | succ fuel ih =>
    intro b hb
    simp only [Drat.digits, List.mem_append, List.mem_singleton] at hb
    rcases hb with hb | rfl
    · split at hb
      · simp at hb
      · exact ih _ b hb
    · exact ⟨n % 10, Nat.mod_lt _ (by decide), rfl⟩

theorem asciiDigits_nat (n : Nat) : Drat.asciiDigits n = Drat.digits (n + 1) n := by
  simp [Drat.asciiDigits]

theorem asciiDigits_nonempty (n : Nat) : Drat.asciiDigits n ≠ [] := by
  rw [asciiDigits_nat]; simp [Drat.digits]

theorem digit_ne {d : Nat} (h : d < 10) :
    BitVec.ofNat 8 (48 + d) ≠ 0x20#8 ∧ BitVec.ofNat 8 (48 + d) ≠ 0x0a#8 := by
  revert d; decide

theorem asciiDigits_mem (n : Nat) : 0x20#8 ∉ Drat.asciiDigits n ∧ 0x0a#8 ∉ Drat.asciiDigits n := by
  rw [asciiDigits_nat]
  constructor
  · intro h
    obtain ⟨d, hd, e⟩ := digit_mem _ _ _ h
    exact (digit_ne hd).1 e.symm
  · intro h
    obtain ⟨d, hd, e⟩ := digit_mem _ _ _ h
    exact (digit_ne hd).2 e.symm

theorem parseNat_ascii (n : Nat) (rest : List Byte)
    (h : ∀ b bs, rest = b :: bs → TextFormat.digitOf b = none) :
    TextFormat.parseNat (Drat.asciiDigits n ++ rest) = some (n, rest) := by
  rw [asciiDigits_nat]; exact parseNat_digits n rest h

theorem word_digits (n : Nat) : word (Drat.asciiDigits n) = .inl n := by
  have := parseNat_ascii n [] (by simp)
  rw [List.append_nil] at this
  simp [word, this]

/-- Two digits. -/
theorem zeros2_length {n : Nat} (h : n < 100) : (Fmt.zeros2 n).length = 2 := by
  revert n; decide +kernel

theorem zeros2_parse {n : Nat} (h : n < 100) : TextFormat.parseNat (Fmt.zeros2 n) = some (n, []) := by
  revert n; decide +kernel

theorem zeros2_mem {n : Nat} (h : n < 100) : 0x20#8 ∉ Fmt.zeros2 n ∧ 0x0a#8 ∉ Fmt.zeros2 n := by
  revert n; decide +kernel

/-- The line of a report. -/
def Report.line (millis : Nat) (r : Report) : List Byte :=
  Logger.text "c" ++ (r.items millis).flatMap (fun i => 0x20#8 :: i.text)

theorem words_width (w n : Nat) (rest : List Byte) :
    words (0x20#8 :: (Fmt.width w n ++ 0x20#8 :: rest)) = Drat.asciiDigits n :: words rest := by
  rw [words_space, Fmt.width, List.append_assoc, words_replicate,
    words_append (asciiDigits_mem n).1 (asciiDigits_nonempty n)]

theorem width_mem (w n : Nat) : 0x0a#8 ∉ Fmt.width w n := by
  unfold Fmt.width
  simp only [List.mem_append, not_or]
  refine ⟨?_, (asciiDigits_mem n).2⟩
  intro h
  have := List.eq_of_mem_replicate h
  revert this; decide

theorem Report.items_lf (millis : Nat) (r : Report) : ∀ i ∈ r.items millis, 0x0a#8 ∉ i.text := by
  have hz : (millis / 10) % 100 < 100 := Nat.mod_lt _ (by decide)
  intro i hi
  simp only [Report.items, List.mem_cons, List.not_mem_nil, or_false] at hi
  rcases hi with rfl | rfl | rfl | rfl | rfl | rfl | rfl | rfl | rfl | rfl | rfl | rfl | rfl | rfl | rfl | rfl
  all_goals simp only [LogItem.text]
  all_goals first
    | exact width_mem _ _
    | decide
    | skip
  · simp only [List.mem_append, List.mem_cons, not_or]
    exact ⟨(asciiDigits_mem _).2, by decide, (zeros2_mem hz).2⟩
  · simp only [List.mem_append, not_or]
    exact ⟨(asciiDigits_mem _).2, by decide⟩

/-- C100, lines of reports: a progress report can be read back: cut at spaces, the line is `c`, the time, seven labels each followed by the
number it stands for, and the percentage.  The labels `red:` of the reductions and `red:` of the redundant clauses are the
same text: only the order tells them apart. -/
theorem C100_report_line (millis : Nat) (r : Report) : ∃ time percent,
    (words (r.line millis)).map word =
      [.inr (Logger.text "c"), .inr time,
       .inr (Logger.text "red:"), .inl r.reductions, .inr (Logger.text "res:"), .inl r.restarts,
       .inr (Logger.text "cfl:"), .inl r.conflicts, .inr (Logger.text "bin:"), .inl r.binary,
       .inr (Logger.text "red:"), .inl r.redundant, .inr (Logger.text "irr:"), .inl r.irredundant,
       .inr (Logger.text "var:"), .inl r.varsLeft.toNat, .inr percent] ∧
    TextFormat.parseNat percent = some (r.percent.toNat, Logger.text "%") ∧
    ∃ frac, TextFormat.parseNat time = some (millis / 1000, 0x2e#8 :: frac) ∧ frac.length = 2 ∧
      TextFormat.parseNat frac = some (millis / 10 % 100, []) := by
  have hz : (millis / 10) % 100 < 100 := Nat.mod_lt _ (by decide)
  have ht : TextFormat.parseNat (Drat.asciiDigits (millis / 10 / 100 : Nat) ++
      0x2e#8 :: Fmt.zeros2 (millis / 10 % 100)) =
      some (millis / 1000, 0x2e#8 :: Fmt.zeros2 (millis / 10 % 100)) := by
    rw [parseNat_ascii _ _ (by intro b bs h; cases h; decide), Nat.div_div_eq_div_mul]
  have hp : TextFormat.parseNat (Drat.asciiDigits r.percent.toNat ++ Logger.text "%") =
      some (r.percent.toNat, Logger.text "%") :=
    parseNat_ascii _ _ (by intro b bs h; cases h; decide)
  refine ⟨_, _, ?_, hp, _, ht, zeros2_length hz, zeros2_parse hz⟩
  have e : r.line millis =
      Logger.text "c" ++ 0x20#8 :: ((Drat.asciiDigits (millis / 10 / 100 : Nat) ++
        0x2e#8 :: Fmt.zeros2 (millis / 10 % 100)) ++ 0x20#8 ::
      (Logger.text "red:" ++ 0x20#8 :: (Fmt.width 2 r.reductions ++ 0x20#8 ::
      (Logger.text "res:" ++ 0x20#8 :: (Fmt.width 3 r.restarts ++ 0x20#8 ::
      (Logger.text "cfl:" ++ 0x20#8 :: (Fmt.width 5 r.conflicts ++ 0x20#8 ::
      (Logger.text "bin:" ++ 0x20#8 :: (Fmt.width 2 r.binary ++ 0x20#8 ::
      (Logger.text "red:" ++ 0x20#8 :: (Fmt.width 3 r.redundant ++ 0x20#8 ::
      (Logger.text "irr:" ++ 0x20#8 :: (Fmt.width 3 r.irredundant ++ 0x20#8 ::
      (Logger.text "var:" ++ 0x20#8 :: (Fmt.width 3 r.varsLeft.toNat ++ 0x20#8 ::
      (Drat.asciiDigits r.percent.toNat ++ Logger.text "%")))))))))))))))) := by
    simp [Report.line, Report.items, LogItem.text]
  have wt : ∀ w n rest, words (Fmt.width w n ++ 0x20#8 :: rest) = Drat.asciiDigits n :: words rest := by
    intro w n rest; rw [← words_width w n rest, words_space]
  have wl : ∀ (t : List Byte) rest, 0x20#8 ∉ t → t ≠ [] → words (t ++ 0x20#8 :: rest) = t :: words rest :=
    fun t rest h1 h2 => words_append h1 h2 rest
  rw [e, wl _ _ (by decide) (by decide), wl _ _ ?_ (by simp), wl _ _ (by decide) (by decide), wt,
    wl _ _ (by decide) (by decide), wt, wl _ _ (by decide) (by decide), wt, wl _ _ (by decide) (by decide), wt,
    wl _ _ (by decide) (by decide), wt, wl _ _ (by decide) (by decide), wt, wl _ _ (by decide) (by decide), wt,
    words_self ?_ (by simp [asciiDigits_nonempty])]
  · simp only [List.map_cons, List.map_nil, word_digits]
    have w1 : word (Drat.asciiDigits (millis / 10 / 100 : Nat) ++ 0x2e#8 :: Fmt.zeros2 (millis / 10 % 100)) =
        .inr (Drat.asciiDigits (millis / 10 / 100 : Nat) ++ 0x2e#8 :: Fmt.zeros2 (millis / 10 % 100)) := by
      simp only [word, ht]
    have w2 : word (Drat.asciiDigits r.percent.toNat ++ Logger.text "%") =
        .inr (Drat.asciiDigits r.percent.toNat ++ Logger.text "%") := by
      unfold word; rw [hp]; rfl
    rw [w1, w2]
    rfl
  · simp only [List.mem_append, not_or]
    exact ⟨(asciiDigits_mem _).1, by decide⟩
  · simp only [List.mem_append, List.mem_cons, not_or]
    exact ⟨(asciiDigits_mem _).1, by decide, (zeros2_mem hz).1⟩

/-! ## The reports of a run -/

section
variable {env : Env} {F : List (List Lit)} {s s' : Solver}

theorem scheduleStepOut_eq (s : Solver) :
    (s.scheduleStepOut env).map (fun x => (x.1, x.2.1)) = s.scheduleStep env := by
  unfold Solver.scheduleStepOut Solver.scheduleStep
  cases s.maybeRestart with
  | error => rfl
  | ok s1 =>
    simp only [bind_ok]
    cases s1.maybeReduce env with
    | error => rfl
    | ok s2 =>
      simp only [bind_ok]
      cases searchStep env s2.ctx s2.search <;> rfl

/-- Printing reports does not change the run. -/
theorem solveOut_eq (k : Nat) (s : Solver) :
    (s.solveOut env k).map (fun x => (x.1, x.2.1)) = s.solve env k := by
  induction k generalizing s with
  | zero => rfl
  | succ k ih =>
    unfold Solver.solveOut Solver.solve
    rw [← scheduleStepOut_eq]
    cases s.scheduleStepOut env with
    | error => rfl
    | ok x =>
      obtain ⟨s1, r, out⟩ := x
      simp only [bind_ok, Except.map]
      cases r with
      | some b => rfl
      | none =>
        simp only
        rw [← ih s1]
        cases Solver.solveOut env k s1 <;> rfl

theorem mapM_ok {α β : Type} {f : α → β} {x : M α} {a : α} (h : x = .ok a) : x.map f = .ok (f a) := by
  rw [h]; rfl

/-- An iteration prints one report if it reduces and none otherwise. -/
theorem scheduleStepOut_reports (h : Solver.Reachable env F s) {r : Option Bool} {out : List Report}
    (e : s.scheduleStepOut env = .ok (s', r, out)) :
    (s'.ctx.search.reductions = s.ctx.search.reductions ∧ out = []) ∨
    (s'.ctx.search.reductions = s.ctx.search.reductions + 1 ∧ ∃ s2, Solver.Reachable env F s2 ∧
      out = [report s2.ctx] ∧ s2.ctx.search.reductions = s.ctx.search.reductions + 1 ∧
      s2.ctx.search.conflicts = s.ctx.search.conflicts) := by
  have hc := scheduleStep_counters h ((scheduleStepOut_eq s).symm.trans (mapM_ok e))
  simp only at hc
  unfold Solver.scheduleStepOut at e
  obtain ⟨s1, e1, e⟩ := bind_eq_ok.1 e
  obtain ⟨s2, e2, e⟩ := bind_eq_ok.1 e
  obtain ⟨⟨ctx, search, r'⟩, e3, e⟩ := bind_eq_ok.1 e
  cases e
  have q1 : s1.ctx.search.conflicts = s.ctx.search.conflicts ∧
      s1.schedule.nextReduce = s.schedule.nextReduce := by
    obtain ⟨L, S, hi⟩ := h.inv
    obtain ⟨s3, e4, _, hc⟩ := maybeRestart_spec hi
    cases e1.symm.trans e4
    rcases hc with ⟨_, rfl⟩ | ⟨_, h2, h3⟩
    · exact ⟨rfl, rfl⟩
    · obtain ⟨ctx', sx, e5, _, h4, _⟩ := restart_spec hi
      rw [h2] at e5
      simp only [Except.ok.injEq, Prod.mk.injEq] at e5
      rw [e5.1, h4, h3]
      exact ⟨rfl, rfl⟩
  have h1 := h.restart e1
  have h2 := h1.reduce e2
  have hn := maybeReduce_next h1 e2
  have hst : ctx.search.reductions = s2.ctx.search.reductions := by
    cases searchStep_cases h2 e3 with
    | already => rfl
    | fail hp => simp [Ctx.conflict, hp.search]
    | learn hp h0 e9 =>
      obtain ⟨_, _, _, _, _, _, A⟩ := hp.analyze h0 e9
      rw [A.search]
      simp [Ctx.conflict, hp.search]
    | decide hp => simp [Ctx.decision, hp.search]
    | sat hp => rw [hp.search]
  rcases hc.2.2 with ⟨c1, c2, _⟩ | ⟨c1, c2, _⟩
  · refine .inl ⟨c2, ?_⟩
    rw [if_neg (by omega)]
  · refine .inr ⟨c2, s2, h2, ?_, by simp only at c2; omega, ?_⟩
    · rw [if_pos (by omega)]
    · rw [hn.1]; exact q1.1

/-- The reports of a call of `solve`: one per reduction, in order, each with the number of the reduction and the number
of conflicts at that time, and one for the answer. -/
theorem solveOut_reports {rs : List Nat} (h : Solver.Reductions env F s rs) {k : Nat} {r : Option Bool}
    {out : List Report} (e : s.solveOut env k = .ok (s', r, out)) :
    ∃ new mid, Solver.Reductions env F s' (new ++ rs) ∧
      s'.ctx.search.reductions = s.ctx.search.reductions + new.length ∧
      out = mid ++ (if r.isSome then [report s'.ctx] else []) ∧
      mid.map Report.reductions = (List.range new.length).map (s.ctx.search.reductions + · + 1) ∧
      mid.map Report.conflicts = new.reverse ∧
      ∀ x ∈ mid, ∃ s2, Solver.Reachable env F s2 ∧ x = report s2.ctx := by
  induction k generalizing s rs out with
  | zero => cases e; exact ⟨[], [], h, rfl, rfl, rfl, rfl, by simp⟩
  | succ k ih =>
    unfold Solver.solveOut at e
    obtain ⟨⟨s1, r1, out1⟩, e1, e⟩ := bind_eq_ok.1 e
    have e1' := (scheduleStepOut_eq s).symm.trans (mapM_ok e1)
    simp only at e1'
    have key : ∃ new mid, Solver.Reductions env F s1 (new ++ rs) ∧
        s1.ctx.search.reductions = s.ctx.search.reductions + new.length ∧ out1 = mid ∧
        mid.map Report.reductions = (List.range new.length).map (s.ctx.search.reductions + · + 1) ∧
        mid.map Report.conflicts = new.reverse ∧
        ∀ x ∈ mid, ∃ s2, Solver.Reachable env F s2 ∧ x = report s2.ctx := by
      rcases scheduleStepOut_reports h.reachable e1 with ⟨h1, rfl⟩ | ⟨h1, s2, h2, rfl, h3, h4⟩
      · exact ⟨[], [], h.same e1' h1, h1, rfl, rfl, rfl, by simp⟩
      · refine ⟨[s.ctx.search.conflicts], [report s2.ctx], h.reduce e1' (by omega), h1, rfl, ?_, ?_, ?_⟩
        · simp [report, h3]
        · simp [report, h4]
        · intro x hx
          exact ⟨s2, h2, by simpa using hx⟩
    obtain ⟨new1, mid1, g1, g2, rfl, g4, g5, g6⟩ := key
    cases r1 with
    | some b =>
      cases e
      exact ⟨new1, out1, g1, g2, by simp, g4, g5, g6⟩
    | none =>
      obtain ⟨⟨s2, r2, out2⟩, e2, e⟩ := bind_eq_ok.1 e
      cases e
      obtain ⟨new2, mid2, k1, k2, k3, k4, k5, k6⟩ := ih g1 e2
      refine ⟨new2 ++ new1, out1 ++ mid2, by simpa using k1, by simp; omega, by rw [k3]; simp, ?_, ?_, ?_⟩
      · rw [List.map_append, g4, k4, List.length_append, Nat.add_comm new2.length, List.range_add, List.map_append,
          List.map_map]
        congr 1
        apply List.map_congr_left
        intro i _
        simp only [Function.comp]; omega
      · rw [List.map_append, g5, k5, List.reverse_append]
      · intro x hx
        rcases List.mem_append.1 hx with hx | hx
        · exact g6 x hx
        · exact k6 x hx

end

/-! ## The lines of the answer -/

theorem parseDigits_rest (acc : Nat) (bs : List Byte) :
    ∀ b ∈ bs, TextFormat.digitOf b ≠ none ∨ b ∈ (TextFormat.parseDigits acc bs).2 := by
  induction bs generalizing acc with
  | nil => simp
  | cons c bs ih =>
    intro b hb
    cases hd : TextFormat.digitOf c with
    | none => right; simpa [TextFormat.parseDigits, hd] using hb
    | some d =>
      rcases List.mem_cons.1 hb with rfl | hb
      · left; simp [hd]
      · have := ih (acc * 10 + d) b hb
        simpa [TextFormat.parseDigits, hd] using this

theorem parseInt_rest {bs r : List Byte} {n : Int} (h : TextFormat.parseInt bs = some (n, r)) :
    0x0a#8 ∈ bs → 0x0a#8 ∈ r := by
  have nat : ∀ {bs r : List Byte} {n : Nat}, TextFormat.parseNat bs = some (n, r) → 0x0a#8 ∈ bs → 0x0a#8 ∈ r := by
    intro bs r n h hb
    cases bs with
    | nil => simp at hb
    | cons b bs =>
      cases hd : TextFormat.digitOf b with
      | none => simp [TextFormat.parseNat, hd] at h
      | some d =>
        simp only [TextFormat.parseNat, hd, Option.map_some, Option.some.injEq] at h
        rcases List.mem_cons.1 hb with rfl | hb
        · exact absurd hd (by simp [show TextFormat.digitOf 0x0a#8 = none by decide])
        · rcases parseDigits_rest d bs _ hb with h1 | h1
          · exact absurd (by decide) h1
          · rw [h] at h1; exact h1
  intro hb
  cases bs with
  | nil => simp at hb
  | cons b bs =>
    simp only [TextFormat.parseInt] at h
    split at h
    · rename_i hm
      cases hq : TextFormat.parseNat bs with
      | none => simp [hq] at h
      | some q =>
        simp only [hq, Option.map_some, Option.some.injEq, Prod.mk.injEq] at h
        rcases List.mem_cons.1 hb with hb | hb
        · rw [hm] at hb; exact absurd hb (by decide)
        · have := nat hq hb
          rw [← h.2]; exact this
    · cases hq : TextFormat.parseNat (b :: bs) with
      | none => simp [hq] at h
      | some q =>
        simp only [hq, Option.map_some, Option.some.injEq, Prod.mk.injEq] at h
        rw [← h.2]; exact nat hq hb

theorem parseItems_lf {fuel : Nat} {bs : List Byte} {ns : List Int} (h : parseItems fuel bs = some ns) :
    0x0a#8 ∉ bs := by
  induction fuel generalizing bs ns with
  | zero => cases bs <;> simp [parseItems] at h ⊢
  | succ fuel ih =>
    cases bs with
    | nil => simp
    | cons b bs =>
      simp only [parseItems] at h
      split at h
      · rename_i hb
        cases hq : TextFormat.parseInt bs with
        | none => simp [hq] at h
        | some q =>
          simp only [hq, Option.bind_some] at h
          cases hr : parseItems fuel q.2 with
          | none => simp [hr] at h
          | some ms =>
            intro hm
            rcases List.mem_cons.1 hm with hm | hm
            · rw [hb] at hm; exact absurd hm (by decide)
            · exact ih hr (parseInt_rest hq hm)
      · simp at h

theorem parseModel_lines {ls : List (List Byte)} {ns : List Int} (h : parseModel ls = some ns) :
    ∀ l ∈ ls, 0x0a#8 ∉ l ∧ l.head? = some 0x76#8 := by
  induction ls generalizing ns with
  | nil => simp
  | cons l ls ih =>
    simp only [parseModel] at h
    cases hq : parseModelLine l with
    | none => simp [hq] at h
    | some q =>
      simp only [hq, Option.bind_some] at h
      cases hr : parseModel ls with
      | none => simp [hr] at h
      | some ms =>
        intro m hm
        rcases List.mem_cons.1 hm with rfl | hm
        · cases m with
          | nil => simp [parseModelLine] at hq
          | cons b bs =>
            simp only [parseModelLine] at hq
            split at hq
            · rename_i hb
              subst hb
              refine ⟨?_, rfl⟩
              intro hx
              rcases List.mem_cons.1 hx with hx | hx
              · exact absurd hx (by decide)
              · exact parseItems_lf hq hx
            · simp at hq
        · exact ih hr m hm

theorem Cli.Right.lines_ok {F : List (List Int)} {n : Nat} {format : Option Cli.ProofFormat} {out : Cli.Outcome}
    (h : Cli.Right F n format out) : ∀ l ∈ out.lines, 0x0a#8 ∉ l ∧ l.head? ≠ some 0x63#8 := by
  rcases h.2 with ⟨h, _⟩ | ⟨vs, ns, h, hp, _⟩
  · rw [h]; decide
  · rw [h]
    intro l hl
    rcases List.mem_cons.1 hl with rfl | hl
    · decide
    · have := parseModel_lines hp l hl
      rw [this.2]
      exact ⟨this.1, by decide⟩

/-! ## Standard output -/

/-- The text contains no line feed. -/
def Out.OneLine : Out → Prop
  | .log _ location items => 0x0a#8 ∉ location ∧ ∀ i ∈ items, 0x0a#8 ∉ i.text
  | .line text => 0x0a#8 ∉ text

/-- The call belongs to a level that is more verbose than `info`. -/
def Out.isDetail : Out → Bool
  | .log level _ _ => level != .info
  | .line _ => false

/-- The lines that were printed with `println!`. -/
def Out.printed : Out → Option (List Byte)
  | .log _ _ _ => none
  | .line text => some text

theorem answer_line {l : List Byte} (h : 0x0a#8 ∉ l) (rest : List Byte) :
    answer (l ++ 0x0a#8 :: rest) = (if l.head? = some 0x63#8 then [] else [l]) ++ answer rest := by
  unfold answer lines
  rw [split_append h]
  by_cases hl : l.head? = some 0x63#8 <;> simp [hl]

/-- A reader that skips the lines that start with `c` reads exactly the lines printed with `println!`, whatever is
logged in between and whatever the level is. -/
theorem answer_outs (lg : Logger) (outs : List Out) (h1 : ∀ o ∈ outs, o.OneLine)
    (h2 : ∀ o ∈ outs, ∀ l, o.printed = some l → l.head? ≠ some 0x63#8) :
    answer (outs.flatMap (Out.bytes lg)) = outs.filterMap Out.printed := by
  induction outs with
  | nil => rfl
  | cons o outs ih =>
    have ih := ih (fun x hx => h1 x (by simp [hx])) (fun x hx => h2 x (by simp [hx]))
    have ho := h1 o (by simp)
    rw [List.flatMap_cons]
    cases o with
    | line text =>
      have := h2 (.line text) (by simp) text rfl
      simp only [Out.bytes, List.append_assoc, List.singleton_append]
      rw [answer_line ho, if_neg this, ih]
      simp [Out.printed]
    | log level location items =>
      simp only [Out.bytes]
      by_cases hw : lg.log level location items = []
      · rw [hw, List.nil_append, ih, List.filterMap_cons]; rfl
      · obtain ⟨line, e, hl, hh, _⟩ := C44_log_line lg level location items ho.1 ho.2 hw
        rw [e, List.append_assoc, List.singleton_append, answer_line hl, if_pos hh, ih, List.filterMap_cons]
        rfl

/-- The line of a call at level `info` without source locations, or of a `println!`. -/
def Out.infoLine : Out → List Byte
  | .log _ _ items => Logger.text "c" ++ items.flatMap (fun i => 0x20#8 :: i.text)
  | .line text => text

theorem lines_line {l : List Byte} (h : 0x0a#8 ∉ l) (rest : List Byte) :
    lines (l ++ 0x0a#8 :: rest) = l :: lines rest := split_append h rest

/-- Without flags, the lines are those of level `info` and those printed with `println!`. -/
theorem lines_default (outs : List Out) (h1 : ∀ o ∈ outs, o.OneLine) :
    lines (outs.flatMap (Out.bytes (Cli.logger 0 0 false))) =
      (outs.filter (fun o => !o.isDetail)).map Out.infoLine := by
  induction outs with
  | nil => rfl
  | cons o outs ih =>
    have ih := ih (fun x hx => h1 x (by simp [hx]))
    have ho := h1 o (by simp)
    rw [List.flatMap_cons]
    cases o with
    | line text =>
      simp only [Out.bytes, List.append_assoc, List.singleton_append]
      rw [lines_line ho, ih]
      simp [Out.isDetail, Out.infoLine]
    | log level location items =>
      simp only [Out.bytes]
      cases level with
      | info =>
        have e : (Cli.logger 0 0 false).log .info location items =
            (Logger.text "c" ++ items.flatMap (fun i => 0x20#8 :: i.text)) ++ [0x0a#8] := by
          show Logger.performLog _ _ _ _ = _
          unfold Logger.performLog
          rw [combine_flatMap]
          simp [Logger.pref, Cli.logger, Logger.setLogSourceLocations]
        rw [e, List.append_assoc, List.singleton_append, lines_line ?_, ih]
        · simp [Out.isDetail, Out.infoLine]
        · simp only [List.mem_append, List.mem_flatMap, not_or, not_exists, not_and]
          refine ⟨by decide, ?_⟩
          intro i hi hm
          rcases List.mem_cons.1 hm with hm | hm
          · exact absurd hm (by decide)
          · exact ho.2 i hi hm
      | verbose => exact ih
      | debug => exact ih
      | trace => exact ih

/-- With `-q`, the lines are those printed with `println!`. -/
theorem lines_quiet (q : Nat) (src : Bool) (outs : List Out) (h1 : ∀ o ∈ outs, o.OneLine) :
    lines (outs.flatMap (Out.bytes (Cli.logger 0 (q + 1) src))) = outs.filterMap Out.printed := by
  induction outs with
  | nil => rfl
  | cons o outs ih =>
    have ih := ih (fun x hx => h1 x (by simp [hx]))
    have ho := h1 o (by simp)
    rw [List.flatMap_cons]
    cases o with
    | line text =>
      simp only [Out.bytes, List.append_assoc, List.singleton_append]
      rw [lines_line ho, ih]
      simp [Out.printed]
    | log level location items =>
      have e : (Cli.logger 0 (q + 1) src).log level location items = [] := by
        unfold Logger.log
        rw [if_neg]
        simp [Cli.logger, Cli.logLevel, Logger.setLogLevel, Logger.setLogSourceLocations]
      simp only [Out.bytes]
      rw [e, List.nil_append, ih, List.filterMap_cons]; rfl

/-- The texts contain no line feed. -/
def Cli.Texts.OneLine (t : Cli.Texts) : Prop :=
  0x0a#8 ∉ t.banner ∧ 0x0a#8 ∉ t.reported ∧ 0x0a#8 ∉ t.answered ∧
    ∀ x ∈ t.stats, 0x0a#8 ∉ x.1 ∧ ∀ i ∈ x.2, 0x0a#8 ∉ i.text

/-- What the reports of a run say: the reductions are numbered, the numbers of conflicts are those at which reductions
are due, the last report is that of the final state, and all of them are reports of states of the run. -/
structure Cli.Reported (env : Env) (Ls : List (List Lit)) (k : Nat) (sat : Bool) (reports : List Report) : Prop where
  run : ∃ s1 s2, Solver.Input env Ls s1 ∧ s1.solve env k = .ok (s2, some sat) ∧
    reports.length = s2.ctx.search.reductions + 1 ∧
    reports.getLast? = some (report s2.ctx) ∧
    reports.map Report.reductions =
      (List.range s2.ctx.search.reductions).map (· + 1) ++ [s2.ctx.search.reductions] ∧
    ((∀ j < s2.ctx.search.reductions, 0 < env.reduceInterval (j + 1)) →
      reports.map Report.conflicts =
        (List.range s2.ctx.search.reductions).map (reduceThreshold env) ++ [s2.ctx.search.conflicts])
  states : ∀ x ∈ reports, ∃ s, Solver.Reachable env Ls s ∧ x = report s.ctx

theorem mainOut_spec (env : Env) (k : Nat) (t : Cli.Texts) (format : Option Cli.ProofFormat) (n : Nat)
    (F : List (List Int)) (hn : n ≤ 2 ^ 30) (hF : ∀ c ∈ F, ∀ x ∈ c, x ≠ 0 ∧ x.natAbs ≤ n) :
    match Cli.main env k format n F with
    | .ok none => Cli.mainOut env k t format n F = .ok none
    | .ok (some out) => ∃ Ls sat reports, Ls.map (List.map Lit.dimacs) = F ∧
        Cli.Reported env Ls k sat reports ∧
        Cli.mainOut env k t format n F = .ok (some (
          .log .info t.banner [.message (Logger.text "Starlit SAT Solver")] ::
          reports.mapIdx (fun i r =>
            t.report (if i + 1 < reports.length then t.reported else t.answered) i r) ++
          t.stats.map (fun x => .log .info x.1 x.2) ++ out.lines.map .line))
    | .error err => Cli.mainOut env k t format n F = .error err := by
  obtain ⟨Ls, hr, hd, hv⟩ := readClauses_eq hn hF
  unfold Cli.main Cli.mainOut
  simp only
  rw [hr]
  generalize hs0 : (if format.isSome then (Solver.default env).writeProof else Solver.default env) = s0
  have hin0 : Solver.Input env [] s0 := by
    rw [← hs0]; split
    · exact .proof .new
    · exact .new
  cases e1 : s0.addClauses Ls with
  | error err => rfl
  | ok s1 =>
    have hin : Solver.Input env Ls s1 := by simpa using Solver.Input.addClauses Ls hin0 hv e1
    simp only [bind_ok]
    have hso := solveOut_eq (env := env) k s1
    cases e2 : s1.solveOut env k with
    | error err =>
      rw [e2] at hso
      rw [← hso]; rfl
    | ok x =>
      obtain ⟨s2, r, reports⟩ := x
      rw [e2] at hso
      have hso : s1.solve env k = .ok (s2, r) := hso.symm
      rw [hso]
      simp only [bind_ok]
      cases r with
      | none => rfl
      | some sat =>
        simp only
        have hrep : Cli.Reported env Ls k sat reports := by
          have hinp := Solver.Reductions.input hin
          obtain ⟨new, mid, h1, h2, h3, h4, h5, h6⟩ := solveOut_reports hinp e2
          have hz : s1.ctx.search.reductions = 0 := by rw [hin.start.search]
          rw [hz] at h2 h4
          simp only [Option.isSome_some, if_true] at h3
          have hlen : mid.length = new.length := by simpa using congrArg List.length h4
          have hR : s2.ctx.search.reductions = new.length := by omega
          refine ⟨⟨s1, s2, hin, hso, ?_, ?_, ?_, ?_⟩, ?_⟩
          · rw [h3]; simp; omega
          · rw [h3]; simp
          · rw [h3, List.map_append, h4, hR]
            simp [report, hR]
          · intro hpos
            have hs := C46_schedule h1 (by simpa [hR] using hpos)
            rw [List.append_nil] at hs
            rw [h3, List.map_append, h5, hs.1, hR]
            simp [report]
          · intro x hx
            rw [h3] at hx
            rcases List.mem_append.1 hx with hx | hx
            · exact h6 x hx
            · exact ⟨s2, .solve (.input hin) hso, by simpa using hx⟩
        cases sat with
        | false =>
          simp only [Bool.false_eq_true, if_false, pure_eq, bind_ok]
          cases e4 : Cli.result false (fun i => ([] : List (Option Bool)).getD i none) n with
          | error err => rfl
          | ok y => exact ⟨Ls, false, reports, hd, hrep, rfl⟩
        | true =>
          simp only [if_true]
          cases e3 : Cli.readValues s2 (List.range n) with
          | error err => rfl
          | ok vs =>
            simp only [bind_ok]
            cases e4 : Cli.result true (fun i => vs.getD i none) n with
            | error err => rfl
            | ok y => exact ⟨Ls, true, reports, hd, hrep, rfl⟩

section
variable {env : Env} {k : Nat} {t : Cli.Texts} {format : Option Cli.ProofFormat} {n : Nat} {F : List (List Int)}

/-- The pieces of output. -/
theorem mainOut_outs (hn : n ≤ 2 ^ 30) (hF : ∀ c ∈ F, ∀ x ∈ c, x ≠ 0 ∧ x.natAbs ≤ n) {outs : List Out}
    (hm : Cli.mainOut env k t format n F = .ok (some outs)) (ht : t.OneLine) :
    ∃ out Ls sat reports, Cli.main env k format n F = .ok (some out) ∧ Cli.Right F n format out ∧
      Ls.map (List.map Lit.dimacs) = F ∧ Cli.Reported env Ls k sat reports ∧
      (∀ o ∈ outs, o.OneLine) ∧ outs.filterMap Out.printed = out.lines ∧
      outs.map Out.infoLine = Logger.text "c Starlit SAT Solver" ::
        reports.mapIdx (fun i r => r.line (t.millis i)) ++
        t.stats.map (fun x => Logger.text "c" ++ x.2.flatMap (fun i => 0x20#8 :: i.text)) ++ out.lines := by
  have h := mainOut_spec env k t format n F hn hF
  have hr := C52_cli_right env k format n F hn hF
  cases e : Cli.main env k format n F with
  | error err => rw [e] at h; simp only at h; rw [hm] at h; simp at h
  | ok o =>
    cases o with
    | none => rw [e] at h; simp only at h; rw [hm] at h; simp at h
    | some out =>
      rw [e] at h hr
      simp only at h hr
      obtain ⟨Ls, sat, reports, h1, h2, h3⟩ := h
      rw [hm] at h3
      simp only [Except.ok.injEq, Option.some.injEq] at h3
      refine ⟨out, Ls, sat, reports, rfl, hr, h1, h2, ?_, ?_, ?_⟩
      · intro o ho
        rw [h3] at ho
        simp only [List.cons_append, List.mem_cons, List.mem_append, List.mem_map, List.mem_mapIdx] at ho
        rcases ho with rfl | (⟨i, hi, rfl⟩ | ⟨x, hx, rfl⟩) | ⟨l, hl, rfl⟩
        · exact ⟨ht.1, by decide⟩
        · refine ⟨?_, Report.items_lf _ _⟩
          split
          · exact ht.2.1
          · exact ht.2.2.1
        · exact ht.2.2.2 x hx
        · exact (hr.lines_ok l hl).1
      · rw [h3]
        have e1 : (reports.mapIdx (fun i r =>
            t.report (if i + 1 < reports.length then t.reported else t.answered) i r)).filterMap Out.printed = [] := by
          rw [List.filterMap_eq_nil_iff]
          intro o ho
          obtain ⟨i, hi, rfl⟩ := List.mem_mapIdx.1 ho
          rfl
        have e2 : (t.stats.map (fun x => Out.log .info x.1 x.2)).filterMap Out.printed = [] := by
          rw [List.filterMap_eq_nil_iff]
          intro o ho
          obtain ⟨x, hx, rfl⟩ := List.mem_map.1 ho
          rfl
        have e3 : (out.lines.map Out.line).filterMap Out.printed = out.lines := by
          rw [List.filterMap_map]
          exact List.filterMap_some
        rw [List.cons_append, List.cons_append, List.filterMap_cons]
        show List.filterMap _ _ = _
        rw [List.filterMap_append, List.filterMap_append, e1, e2, e3]
        rfl
      · rw [h3]
        simp only [List.cons_append, List.map_cons, List.map_append, List.map_map]
        have e1 : (reports.mapIdx (fun i r =>
            t.report (if i + 1 < reports.length then t.reported else t.answered) i r)).map Out.infoLine =
            reports.mapIdx (fun i r => r.line (t.millis i)) := by
          apply List.ext_getElem? fun i => ?_
          simp only [List.getElem?_map, List.getElem?_mapIdx, Option.map_map]
          rfl
        have e2 : out.lines.map (Out.infoLine ∘ Out.line) = out.lines := List.map_id _
        rw [e1, e2]
        rfl

theorem oneLine_all {outs all : List Out} (ha : all.filter (fun o => !o.isDetail) = outs)
    (hd : ∀ o ∈ all, o.isDetail = true → o.OneLine) (ho : ∀ o ∈ outs, o.OneLine) : ∀ o ∈ all, o.OneLine := by
  intro o hx
  cases hb : o.isDetail with
  | true => exact hd o hx hb
  | false => exact ho o (ha ▸ List.mem_filter.2 ⟨hx, by simp [hb]⟩)

theorem printed_all {outs all : List Out} (ha : all.filter (fun o => !o.isDetail) = outs) :
    all.filterMap Out.printed = outs.filterMap Out.printed := by
  subst ha
  induction all with
  | nil => rfl
  | cons o all ih =>
    cases o with
    | line x => simp [Out.isDetail, Out.printed, ih]
    | log l a b =>
      have e : List.filterMap Out.printed (Out.log l a b :: all) = List.filterMap Out.printed all := rfl
      rw [e, ih]
      cases l <;> rfl

/-- C100, answer: whatever the flags, and whatever messages of the more verbose levels are logged at whatever places, the
lines of standard output that do not start with `c` are the right answer: the one line that starts with `s` and the
lines of the model. -/
theorem C100_answer (hn : n ≤ 2 ^ 30) (hF : ∀ c ∈ F, ∀ x ∈ c, x ≠ 0 ∧ x.natAbs ≤ n) {outs all : List Out}
    (hm : Cli.mainOut env k t format n F = .ok (some outs)) (ht : t.OneLine)
    (ha : all.filter (fun o => !o.isDetail) = outs) (hd : ∀ o ∈ all, o.isDetail = true → o.OneLine)
    (v q : Nat) (src : Bool) :
    ∃ out, Cli.main env k format n F = .ok (some out) ∧ Cli.Right F n format out ∧
      answer (all.flatMap (Out.bytes (Cli.logger v q src))) = out.lines := by
  obtain ⟨out, Ls, sat, reports, h1, h2, -, -, h3, h4, -⟩ := mainOut_outs hn hF hm ht
  refine ⟨out, h1, h2, ?_⟩
  rw [answer_outs _ _ (oneLine_all ha hd h3) ?_, printed_all ha, h4]
  intro o ho l hl
  have : l ∈ all.filterMap Out.printed := List.mem_filterMap.2 ⟨o, ho, hl⟩
  rw [printed_all ha, h4] at this
  exact (h2.lines_ok l this).2

/-- C100, without flags: standard output is the banner, one report for every reduction and one for the answer, the
statistics, and the right answer, each on a line of its own. -/
theorem C100_default (hn : n ≤ 2 ^ 30) (hF : ∀ c ∈ F, ∀ x ∈ c, x ≠ 0 ∧ x.natAbs ≤ n) {outs all : List Out}
    (hm : Cli.mainOut env k t format n F = .ok (some outs)) (ht : t.OneLine)
    (ha : all.filter (fun o => !o.isDetail) = outs) (hd : ∀ o ∈ all, o.isDetail = true → o.OneLine) :
    ∃ out Ls sat reports, Cli.main env k format n F = .ok (some out) ∧ Cli.Right F n format out ∧
      Ls.map (List.map Lit.dimacs) = F ∧ Cli.Reported env Ls k sat reports ∧
      lines (all.flatMap (Out.bytes (Cli.logger 0 0 false))) = Logger.text "c Starlit SAT Solver" ::
        reports.mapIdx (fun i r => r.line (t.millis i)) ++
        t.stats.map (fun x => Logger.text "c" ++ x.2.flatMap (fun i => 0x20#8 :: i.text)) ++ out.lines := by
  obtain ⟨out, Ls, sat, reports, h1, h2, h3, h4, h5, -, h6⟩ := mainOut_outs hn hF hm ht
  refine ⟨out, Ls, sat, reports, h1, h2, h3, h4, ?_⟩
  rw [lines_default _ (oneLine_all ha hd h5), ha, h6]

/-- C100, with `-q`: standard output is the right answer and nothing else. -/
theorem C100_quiet (hn : n ≤ 2 ^ 30) (hF : ∀ c ∈ F, ∀ x ∈ c, x ≠ 0 ∧ x.natAbs ≤ n) {outs all : List Out}
    (hm : Cli.mainOut env k t format n F = .ok (some outs)) (ht : t.OneLine)
    (ha : all.filter (fun o => !o.isDetail) = outs) (hd : ∀ o ∈ all, o.isDetail = true → o.OneLine)
    (q : Nat) (src : Bool) :
    ∃ out, Cli.main env k format n F = .ok (some out) ∧ Cli.Right F n format out ∧
      lines (all.flatMap (Out.bytes (Cli.logger 0 (q + 1) src))) = out.lines := by
  obtain ⟨out, Ls, sat, reports, h1, h2, -, -, h3, h4, -⟩ := mainOut_outs hn hF hm ht
  exact ⟨out, h1, h2, by rw [lines_quiet _ _ _ (oneLine_all ha hd h3), printed_all ha, h4]⟩

/-- C100: the output is there whenever the program finishes, and none of it is left to the more verbose levels. -/
theorem C100_complete (hn : n ≤ 2 ^ 30) (hF : ∀ c ∈ F, ∀ x ∈ c, x ≠ 0 ∧ x.natAbs ≤ n) {out : Cli.Outcome}
    (h : Cli.main env k format n F = .ok (some out)) :
    ∃ outs, Cli.mainOut env k t format n F = .ok (some outs) ∧ ∀ o ∈ outs, o.isDetail = false := by
  have := mainOut_spec env k t format n F hn hF
  rw [h] at this
  simp only at this
  obtain ⟨_, _, _, _, _, h⟩ := this
  refine ⟨_, h, ?_⟩
  intro o ho
  simp only [List.cons_append, List.mem_cons, List.mem_append, List.mem_map, List.mem_mapIdx] at ho
  rcases ho with rfl | (⟨i, hi, rfl⟩ | ⟨x, hx, rfl⟩) | ⟨l, hl, rfl⟩ <;> rfl

end

/-- A message that is shown with `-vv` only. -/
def Example.detail : Out := .log .debug (Logger.text "search.rs:112") [.message (Logger.text "restart")]

/-- The texts of the example: the clock shows 127 milliseconds more at every report. -/
def Example.texts : Cli.Texts where
  millis i := 1234 + 127 * i
  banner := Logger.text "main.rs:61"
  reported := Logger.text "state.rs:38"
  answered := Logger.text "solver.rs:64"
  stats := [(Logger.text "main.rs:96", [.message (Logger.text "satisfiable:"), .value (Logger.text "false")])]

/-- C100: the whole output for the pigeon hole formula with three pigeons and two holes, with a reduction after every
conflict, and with a message of the level `debug` that is not shown without flags. -/
theorem C100_example : ∃ outs all, Cli.mainOut Example.envReduce 30 Example.texts none 6 (Example.php 3 2) =
      .ok (some outs) ∧ Example.texts.OneLine ∧ all.filter (fun o => !o.isDetail) = outs ∧ all ≠ outs ∧
    (∀ o ∈ all, o.isDetail = true → o.OneLine) ∧
    all.flatMap (Out.bytes (Cli.logger 0 0 false)) =
      ["c Starlit SAT Solver",
       "c 1.23 red:  1 res:   1 cfl:     0 bin:  9 red:   0 irr:   0 var:   6 100%",
       "c 1.36 red:  2 res:   1 cfl:     1 bin:  9 red:   0 irr:   0 var:   6 100%",
       "c 1.48 red:  2 res:   1 cfl:     2 bin:  9 red:   0 irr:   0 var:   6 100%",
       "c satisfiable: false",
       "s UNSATISFIABLE"].flatMap (fun l => Logger.text l ++ [0x0a#8]) ∧
    (lines (all.flatMap (Out.bytes (Cli.logger 3 0 true)))).length = 7 ∧
    answer (all.flatMap (Out.bytes (Cli.logger 3 0 true))) = [Logger.text "s UNSATISFIABLE"] := by
  have h : ((Cli.mainOut Example.envReduce 30 Example.texts none 6 (Example.php 3 2)).map (fun o => o.map (fun outs =>
      (decide ((Example.detail :: outs).filter (fun o => !o.isDetail) = outs),
        decide ((Example.detail :: outs).flatMap (Out.bytes (Cli.logger 0 0 false)) =
          ["c Starlit SAT Solver",
           "c 1.23 red:  1 res:   1 cfl:     0 bin:  9 red:   0 irr:   0 var:   6 100%",
           "c 1.36 red:  2 res:   1 cfl:     1 bin:  9 red:   0 irr:   0 var:   6 100%",
           "c 1.48 red:  2 res:   1 cfl:     2 bin:  9 red:   0 irr:   0 var:   6 100%",
           "c satisfiable: false",
           "s UNSATISFIABLE"].flatMap (fun l => Logger.text l ++ [0x0a#8])),
        (lines ((Example.detail :: outs).flatMap (Out.bytes (Cli.logger 3 0 true)))).length,
        decide (answer ((Example.detail :: outs).flatMap (Out.bytes (Cli.logger 3 0 true))) =
          [Logger.text "s UNSATISFIABLE"]))))) = .ok (some (true, true, 7, true)) := by decide +kernel
  cases e : Cli.mainOut Example.envReduce 30 Example.texts none 6 (Example.php 3 2) with
  | error => rw [e] at h; simp [Except.map] at h
  | ok o =>
    cases o with
    | none => rw [e] at h; simp [Except.map] at h
    | some outs =>
      rw [e] at h
      simp only [Except.map, Option.map_some, Except.ok.injEq, Option.some.injEq, Prod.mk.injEq,
        decide_eq_true_eq] at h
      refine ⟨outs, Example.detail :: outs, rfl, ?_, h.1, by simp, ?_, h.2.1, h.2.2.1, h.2.2.2⟩
      · refine ⟨by decide, by decide, by decide, by decide⟩
      · intro o ho hd
        rcases List.mem_cons.1 ho with rfl | ho
        · exact ⟨by decide, by decide⟩
        · rw [← h.1] at ho
          have := (List.mem_filter.1 ho).2
          rw [hd] at this
          exact absurd this (by decide)

end Starlit
