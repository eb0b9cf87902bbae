import Verif.Solver.MainIO
import Verif.Props.EndToEnd

/-!
# C76: an answer is printed only with the whole proof in the file
-/

namespace Starlit

/-- Writes that all succeed: each block is written after the ones before it. -/
def Device.Accepts (dev : Device) (blocks : List (List Byte)) : Prop :=
  ∀ pre b post, blocks = pre ++ b :: post → dev pre.flatten b = none

theorem Device.Accepts.nil (dev : Device) : dev.Accepts [] := by
  intro pre b post e
  simp at e

theorem Device.Accepts.snoc {dev : Device} {blocks : List (List Byte)} {b : List Byte} (h : dev.Accepts blocks)
    (hb : dev blocks.flatten b = none) : dev.Accepts (blocks ++ [b]) := by
  intro pre c post e
  rw [List.append_eq_append_iff] at e
  rcases e with ⟨as, rfl, e⟩ | ⟨bs, rfl, e⟩
  · cases as with
    | nil =>
      simp only [List.nil_append, List.cons.injEq] at e
      rw [← e.1, List.append_nil]; exact hb
    | cons x as => simp at e
  · cases bs with
    | nil =>
      simp only [List.nil_append, List.cons.injEq] at e
      rw [e.1]
      simpa using hb
    | cons x bs =>
      simp only [List.cons_append, List.cons.injEq] at e
      obtain ⟨rfl, e⟩ := e
      exact h pre c bs rfl

/-- The state of the writer after `all` was given to it: without an error, file and buffer together hold `all`, and
the file was written by successful writes; with an error, the file holds a beginning of `all`. -/
structure DeferredWriter.Holds (dev : Device) (w : DeferredWriter) (all : List Byte) : Prop where
  ok : w.failed = false → w.file ++ w.buf = all ∧ ∃ blocks, blocks.flatten = w.file ∧ dev.Accepts blocks
  pre : w.file <+: all

namespace DeferredWriter

variable {dev : Device} {w : DeferredWriter} {all : List Byte}

theorem Holds.new (cap : Nat) : (DeferredWriter.new cap).Holds dev [] :=
  ⟨fun _ => ⟨rfl, [], rfl, .nil dev⟩, List.prefix_refl _⟩

theorem Holds.append (h : w.Holds dev all) (bytes : List Byte) :
    ({ w with buf := w.buf ++ bytes } : DeferredWriter).Holds dev (all ++ bytes) := by
  refine ⟨fun hf => ⟨?_, (h.ok hf).2⟩, h.pre.trans (List.prefix_append _ _)⟩
  rw [← (h.ok hf).1]; simp

/-- A direct write, when the buffer is empty. -/
theorem Holds.writeOut (h : w.Holds dev all) (hb : w.buf = []) (bytes : List Byte) :
    (w.writeOut dev bytes).Holds dev (all ++ bytes) ∧ (w.writeOut dev bytes).buf = [] := by
  unfold DeferredWriter.writeOut
  split
  · next hf => exact ⟨⟨fun h' => (by rw [hf] at h'; cases h'), h.pre.trans (List.prefix_append _ _)⟩, hb⟩
  · next hf =>
    obtain ⟨h1, blocks, h2, h3⟩ := h.ok (by simpa using hf)
    rw [hb, List.append_nil] at h1
    split
    · next hd =>
      refine ⟨⟨fun _ => ⟨by simp [hb, h1], blocks ++ [bytes], by simp [h2], h3.snoc (by rw [h2]; exact hd)⟩, ?_⟩, hb⟩
      simp [h1]
    · next k hd =>
      refine ⟨⟨fun h' => (by cases h'), ?_⟩, hb⟩
      simp only [h1]
      exact (List.prefix_append_right_inj all).2 (List.take_prefix _ _)

theorem Holds.flush (h : w.Holds dev all) :
    (w.flushDeferErr dev).Holds dev all ∧ (w.flushDeferErr dev).buf = [] := by
  refine ⟨?_, rfl⟩
  unfold flushDeferErr DeferredWriter.writeOut
  split
  · next hf => exact ⟨fun h' => (by rw [show w.failed = false from h'] at hf; cases hf), h.pre⟩
  · next hf =>
    obtain ⟨h1, blocks, h2, h3⟩ := h.ok (by simpa using hf)
    split
    · next hd =>
      refine ⟨fun _ => ⟨by simp [h1], blocks ++ [w.buf], by simp [h2], h3.snoc (by rw [h2]; exact hd)⟩, ?_⟩
      simp [h1]
    · next k hd =>
      refine ⟨fun h' => (by cases h'), ?_⟩
      rw [← h1]
      exact (List.prefix_append_right_inj w.file).2 (List.take_prefix _ _)

theorem Holds.write (h : w.Holds dev all) (bytes : List Byte) :
    (w.writeAllDeferErr dev bytes).Holds dev (all ++ bytes) := by
  unfold writeAllDeferErr
  split
  · exact h.append bytes
  · split
    · have h1 := (h.append (bytes.take (w.cap - w.buf.length))).flush.1
      have h2 := h1.append (bytes.drop (w.cap - w.buf.length))
      rw [List.append_assoc, List.take_append_drop] at h2
      exact h2
    · exact (h.flush.1.writeOut h.flush.2 bytes).1

theorem Holds.foldl : ∀ (calls : List (List Byte)) {w : DeferredWriter} {all : List Byte}, w.Holds dev all →
    (calls.foldl (writeAllDeferErr dev) w).Holds dev (all ++ calls.flatten)
  | [], _, _, h => by simpa using h
  | c :: cs, _, _, h => by
    have := Holds.foldl cs (h.write c)
    simpa using this

end DeferredWriter

theorem BinaryDrat.litCalls_flatten (ls : List Lit) : (litCalls ls).flatten = writeLits ls := by
  have key : ∀ bs : List Byte, (bs.map fun b => [b]).flatten = bs := by
    intro bs; induction bs with
    | nil => rfl
    | cons b bs ih => simp [ih]
  unfold litCalls writeLits
  rw [List.flatten_append]
  congr 1
  induction ls with
  | nil => rfl
  | cons l ls ih => simp only [List.flatMap_cons, List.flatten_append, ih, key]

theorem Drat.clauseCalls_flatten (ls : List Lit) : (clauseCalls ls).flatten = writeClause ls := by
  unfold clauseCalls writeClause
  rw [List.flatten_append]
  congr 1
  induction ls with
  | nil => rfl
  | cons l ls ih => simp only [List.flatMap_cons, List.flatten_append, ih]; simp

/-- The calls write the bytes of the format. -/
theorem Cli.ProofFormat.calls_flatten (f : Cli.ProofFormat) (log : List ProofStep) :
    (log.flatMap f.calls).flatten = f.bytes log := by
  induction log with
  | nil => cases f <;> rfl
  | cons s log ih =>
    rw [List.flatMap_cons, List.flatten_append, ih]
    cases f <;> cases s <;>
      simp [Cli.ProofFormat.calls, Cli.ProofFormat.bytes, Drat.calls, BinaryDrat.calls, Drat.output,
        BinaryDrat.output, Drat.write, BinaryDrat.write, BinaryDrat.litCalls_flatten, Drat.clauseCalls_flatten]

theorem Cli.ProofFormat.write_holds (f : Cli.ProofFormat) (dev : Device) (cap : Nat) (log : List ProofStep) :
    (f.write dev (.new cap) log).Holds dev (f.bytes log) := by
  have := DeferredWriter.Holds.foldl (dev := dev) (log.flatMap f.calls) (.new cap)
  rw [f.calls_flatten, List.nil_append] at this
  exact this

/-- `close_proof` succeeds only if all bytes are in the file. -/
theorem Cli.closeProof_spec {f : Cli.ProofFormat} {dev : Device} {cap : Nat} {log : List ProofStep} :
    ((Cli.closeProof dev (f.write dev (.new cap) log)).2 = true →
      (Cli.closeProof dev (f.write dev (.new cap) log)).1.file = f.bytes log ∧
      ∃ blocks, blocks.flatten = f.bytes log ∧ dev.Accepts blocks) ∧
    (Cli.closeProof dev (f.write dev (.new cap) log)).1.file <+: f.bytes log := by
  obtain ⟨h, hb⟩ := (f.write_holds dev cap log).flush
  refine ⟨?_, h.pre⟩
  intro ht
  obtain ⟨h1, blocks, h2, h3⟩ := h.ok (by simpa [Cli.closeProof, DeferredWriter.checkIoError] using ht)
  rw [hb, List.append_nil] at h1
  exact ⟨h1, blocks, by rw [h2, h1], h3⟩

/-- Nothing fails on a device that does not fail. -/
theorem Cli.closeProof_ok {f : Cli.ProofFormat} {dev : Device} {cap : Nat} {log : List ProofStep}
    (hd : ∀ a b, dev a b = none) : (Cli.closeProof dev (f.write dev (.new cap) log)).2 = true := by
  have out : ∀ (w : DeferredWriter) (b : List Byte), w.failed = false → (w.writeOut dev b).failed = false := by
    intro w b hw
    unfold DeferredWriter.writeOut
    rw [hw, hd]; rfl
  have flush : ∀ w : DeferredWriter, w.failed = false → (w.flushDeferErr dev).failed = false :=
    fun w hw => out w w.buf hw
  have all : ∀ (w : DeferredWriter) (b : List Byte), w.failed = false → (w.writeAllDeferErr dev b).failed = false := by
    intro w b hw
    unfold DeferredWriter.writeAllDeferErr
    split
    · exact hw
    · split
      · exact flush _ hw
      · exact out _ _ (flush _ hw)
  have fold : ∀ (cs : List (List Byte)) (w : DeferredWriter), w.failed = false →
      (cs.foldl (DeferredWriter.writeAllDeferErr dev) w).failed = false := by
    intro cs
    induction cs with
    | nil => exact fun _ h => h
    | cons c cs ih => exact fun w h => ih _ (all w c h)
  have := flush _ (fold (log.flatMap f.calls) (.new cap) rfl)
  unfold Cli.closeProof DeferredWriter.checkIoError Cli.ProofFormat.write
  simp only [this, Bool.not_false]

section
variable {env : Env} {k : Nat} {format : Option Cli.ProofFormat} {pf : Cli.ProofFile} {input : Cli.InputFile}
  {out : Cli.Outcome} {n : Nat}

/-- The solver before the input is read. -/
def Cli.start (env : Env) (format : Option Cli.ProofFormat) : Solver :=
  if format.isSome then (Solver.default env).writeProof else Solver.default env

theorem Cli.start_input : Solver.Input env [] (Cli.start env format) := by
  unfold Cli.start
  split
  · exact .proof .new
  · exact .new

theorem Cli.result_code {b : Bool} {value : Nat → Option Bool} {lines : List (List Byte)} {code : Nat}
    (e : Cli.result b value n = .ok (lines, code)) : code = 20 := by
  unfold Cli.result at e
  split at e
  · obtain ⟨_, _, e⟩ := bind_eq_ok.1 e
    cases e; rfl
  · cases e; rfl

/-- After reading the clauses and solving, printing does not fail. -/
theorem Cli.main_eq {F : List (List Int)} (hn : n ≤ 2 ^ 30) (hF : ∀ c ∈ F, ∀ x ∈ c, x ≠ 0 ∧ x.natAbs ≤ n)
    {s s2 : Solver} {b : Bool} (e1 : Cli.readClauses (Cli.start env format) F = .ok s)
    (e2 : s.solve env k = .ok (s2, some b)) : ∃ vs lines,
      (if b then Cli.readValues s2 (List.range n) else pure []) = .ok vs ∧
      Cli.result b (fun i => vs.getD i none) n = .ok (lines, 20) ∧ lines ≠ [] ∧
      Cli.main env k format n F =
        .ok (some ⟨lines, 20, format.map fun f => f.bytes (s2.ctx.proof.getD [])⟩) := by
  obtain ⟨Ls, hr, _, hv⟩ := readClauses_eq hn hF
  have e1' := e1
  rw [hr] at e1'
  have hin : Solver.Input env Ls s := by simpa using Solver.Input.addClauses Ls Cli.start_input hv e1'
  have hre : Solver.Reachable env Ls s2 := .solve (.input hin) e2
  have hrest : ∃ vs lines, (if b then Cli.readValues s2 (List.range n) else pure []) = .ok vs ∧
      Cli.result b (fun i => vs.getD i none) n = .ok (lines, 20) ∧ lines ≠ [] := by
    cases b with
    | false => exact ⟨[], [Logger.text "s UNSATISFIABLE"], rfl, rfl, by simp⟩
    | true =>
      have hM : MAX_INDEX = 2 ^ 30 - 1 := by decide
      obtain ⟨vs, ev, _⟩ := readValues_eq hre (is := List.range n) (by
        intro i hi
        have := List.mem_range.1 hi
        omega)
      obtain ⟨lines, code, er, _⟩ := C37_cli_output_partial (fun i => vs.getD i none) n (by omega)
      obtain rfl := Cli.result_code er
      exact ⟨vs, _, by rw [if_pos rfl]; exact ev, er, by simp⟩
  obtain ⟨vs, lines, h1, h2, h3⟩ := hrest
  refine ⟨vs, lines, h1, h2, h3, ?_⟩
  unfold Cli.main
  simp only
  unfold Cli.start at e1
  rw [e1, bind_ok, e2, bind_ok]
  cases b with
  | false =>
    cases h1
    simp only [Bool.false_eq_true, if_false]
    rw [pure_eq, bind_ok, h2, bind_ok]
    rfl
  | true =>
    rw [if_pos rfl] at h1
    simp only [if_true]
    rw [h1, bind_ok, h2, bind_ok]
    rfl

/-- What the program leaves, compared with the program without failures (`Cli.main`). -/
theorem Cli.mainIO_cases (e : Cli.mainIO env k format pf input = .ok (some out)) :
    -- the proof file exists or cannot be created
    (format.isSome ∧ (pf.old.isSome ∨ pf.creatable = false) ∧ out = ⟨[], 1, pf.old⟩) ∨
    (¬ (format.isSome ∧ (pf.old.isSome ∨ pf.creatable = false)) ∧
      -- the input cannot be read
      (((input.readable = false ∨ input.header = none) ∧ out = Cli.failure format pf (Cli.start env format)) ∨
       (input.readable = true ∧ input.complete = false ∧ ∃ n s, input.header = some n ∧
          Cli.readClauses (Cli.start env format) input.clauses = .ok s ∧ out = Cli.failure format pf s) ∨
      -- the proof cannot be written, or everything succeeds
       (input.readable = true ∧ input.complete = true ∧ ∃ n s s2 b, input.header = some n ∧
        Cli.readClauses (Cli.start env format) input.clauses = .ok s ∧ s.solve env k = .ok (s2, some b) ∧
        ((∃ f pre, format = some f ∧ pre <+: f.bytes (s2.ctx.proof.getD []) ∧ out = ⟨[], 1, some pre⟩) ∨
          (Cli.main env k format n input.clauses = .ok (some out) ∧ ∀ f, format = some f →
            ∃ bytes blocks, out.proof = some bytes ∧ blocks.flatten = bytes ∧ pf.dev.Accepts blocks))))) := by
  unfold Cli.mainIO at e
  by_cases h0 : format.isSome ∧ (pf.old.isSome ∨ pf.creatable = false)
  · rw [if_pos h0] at e
    cases e
    exact .inl ⟨h0.1, h0.2, rfl⟩
  rw [if_neg h0] at e
  refine .inr ⟨h0, ?_⟩
  simp only at e
  by_cases h1 : input.readable = false
  · rw [if_pos h1] at e
    cases e
    exact .inl ⟨.inl h1, rfl⟩
  rw [if_neg h1] at e
  cases hh : input.header with
  | none =>
    rw [hh] at e
    cases e
    exact .inl ⟨.inr rfl, rfl⟩
  | some n =>
    rw [hh] at e
    right
    obtain ⟨s, e1, e⟩ := bind_eq_ok.1 e
    by_cases h2 : input.complete = false
    · rw [if_pos h2] at e
      cases e
      exact .inl ⟨by simpa using h1, h2, n, s, rfl, e1, rfl⟩
    rw [if_neg h2] at e
    right
    obtain ⟨⟨s2, r⟩, e2, e⟩ := bind_eq_ok.1 e
    cases r with
    | none => cases e
    | some b =>
      refine ⟨by simpa using h1, by simpa using h2, n, s, s2, b, rfl, e1, e2, ?_⟩
      simp only at e
      split at e
      · next hc =>
        cases e
        left
        cases format with
        | none => simp at hc
        | some f => exact ⟨f, _, rfl, Cli.closeProof_spec.2, rfl⟩
      · next hc =>
        right
        have hfile : (format.map fun f => Cli.closeProof pf.dev (f.write pf.dev (.new pf.cap)
            (s2.ctx.proof.getD []))).map (fun c => c.1.file) =
            format.map (fun f => f.bytes (s2.ctx.proof.getD [])) := by
          cases format with
          | none => rfl
          | some f =>
            simp only [Option.map_some, Option.some.injEq]
            exact (Cli.closeProof_spec.1 (by simpa using hc)).1
        rw [hfile] at e
        have hm : Cli.main env k format n input.clauses = .ok (some out) := by
          unfold Cli.main
          simp only
          rw [e1, bind_ok, e2, bind_ok]
          exact e
        refine ⟨hm, ?_⟩
        rintro f rfl
        obtain ⟨k1, blocks, k2, k3⟩ := (Cli.closeProof_spec (f := f) (dev := pf.dev) (cap := pf.cap)
          (log := s2.ctx.proof.getD [])).1 (by simpa using hc)
        refine ⟨_, blocks, ?_, k2, k3⟩
        split at e
        · obtain ⟨vs, _, e⟩ := bind_eq_ok.1 e
          obtain ⟨_, _, e⟩ := bind_eq_ok.1 e
          cases e; rfl
        · obtain ⟨vs, _, e⟩ := bind_eq_ok.1 e
          obtain ⟨_, _, e⟩ := bind_eq_ok.1 e
          cases e; rfl

/-- The numbers in the input are those that the CNF format allows: up to the variable count of the header, which is
at most 2 ^ 30. -/
def Cli.InputFile.Allowed (input : Cli.InputFile) : Prop :=
  ∀ n, input.header = some n → n ≤ 2 ^ 30 ∧ ∀ c ∈ input.clauses, ∀ x ∈ c, x ≠ 0 ∧ x.natAbs ≤ n

/-- C76: whatever the files and the device do, an answer is printed only if the input was read to its end, the
proof file is new, the answer and the proof in the file are right, as in C52, and every write to the file
succeeded. -/
theorem C76_answer (e : Cli.mainIO env k format pf input = .ok (some out)) (ho : out.lines ≠ [])
    (hv : input.Allowed) :
    input.readable = true ∧ input.complete = true ∧
    (∃ n, input.header = some n ∧ Cli.Right input.clauses n format out) ∧
    ∀ f, format = some f → pf.old = none ∧
      ∃ bytes blocks, out.proof = some bytes ∧ blocks.flatten = bytes ∧ pf.dev.Accepts blocks := by
  rcases Cli.mainIO_cases e with ⟨_, _, rfl⟩ | ⟨h0, ⟨_, rfl⟩ | ⟨_, _, m, s, hm, _, rfl⟩ | ⟨h1, h2, m, s, s2, b, h3, _, _, h4⟩⟩
  · exact absurd rfl ho
  · exact absurd rfl ho
  · exact absurd rfl ho
  · rcases h4 with ⟨f, pre, _, _, rfl⟩ | ⟨h4, h5⟩
    · exact absurd rfl ho
    · have := C52_cli_right env k format m input.clauses (hv m h3).1 (hv m h3).2
      rw [h4] at this
      refine ⟨h1, h2, ⟨m, h3, this⟩, ?_⟩
      intro f hf
      refine ⟨?_, h5 f hf⟩
      subst hf
      cases ho : pf.old with
      | none => rfl
      | some b => exact absurd ⟨rfl, .inl (by rw [ho]; rfl)⟩ h0

/-- C76: if no answer is printed, the exit code is 1, which is not the code of an answer, and a proof file that was
created holds a beginning of the proof; it is empty if nothing was solved. -/
theorem C76_failure (e : Cli.mainIO env k format pf input = .ok (some out)) (hv : input.Allowed) :
    (out.lines ≠ [] → out.code = 20) ∧
    (out.lines = [] → out.code = 1 ∧
      ∀ f, format = some f → pf.old = none → pf.creatable = true → ∃ bytes, out.proof = some bytes ∧
        (bytes = [] ∨ ∃ n out' all, input.header = some n ∧
          Cli.main env k format n input.clauses = .ok (some out') ∧ out'.proof = some all ∧ bytes <+: all)) := by
  have empty : ∀ (f : Cli.ProofFormat) (s : Solver), s.ctx.proof = some [] →
      (Cli.failure (some f) pf s).proof = some [] := by
    intro f s hs
    have h := ((f.write_holds pf.dev pf.cap []).flush).1.pre
    unfold Cli.failure
    rw [hs]
    rw [show f.bytes [] = [] by cases f <;> rfl, List.prefix_nil] at h
    simp only [Option.map_some, Option.getD_some, h]
  have hstart : ∀ f, format = some f → (Cli.start env format).ctx.proof = some [] := by
    rintro f rfl; rfl
  rcases Cli.mainIO_cases e with ⟨h1, h2, rfl⟩ | ⟨h0, ⟨_, rfl⟩ | ⟨_, _, m, s, hm, h1, rfl⟩ | ⟨h1, h2, m, s, s2, b, h3, e1, e2, h4⟩⟩
  · refine ⟨fun h => absurd rfl h, fun _ => ⟨rfl, ?_⟩⟩
    rintro f rfl h3 h4
    rw [h3, h4] at h2
    simp at h2
  · refine ⟨fun h => absurd rfl h, fun _ => ⟨rfl, ?_⟩⟩
    rintro f rfl - -
    exact ⟨[], empty f _ (hstart f rfl), .inl rfl⟩
  · refine ⟨fun h => absurd rfl h, fun _ => ⟨rfl, ?_⟩⟩
    rintro f rfl - -
    refine ⟨[], empty f s ?_, .inl rfl⟩
    obtain ⟨Ls, hr, _, hv⟩ := readClauses_eq (hv m hm).1 (hv m hm).2
    rw [hr] at h1
    obtain ⟨S0, hi0⟩ := (Cli.start_input (env := env) (format := some f)).inv
    obtain ⟨-, -, -, -, hp⟩ := (addClauses_spec Ls hi0 hv).ok_elim h1
    rw [hp, hstart f rfl]
  · obtain ⟨vs, lines, _, _, h5, h6⟩ := Cli.main_eq (hv m h3).1 (hv m h3).2 e1 e2
    rcases h4 with ⟨f, pre, rfl, h7, rfl⟩ | ⟨h7, _⟩
    · refine ⟨fun h => absurd rfl h, fun _ => ⟨rfl, ?_⟩⟩
      rintro f' e' - -
      cases e'
      exact ⟨pre, rfl, .inr ⟨m, _, _, h3, h6, rfl, h7⟩⟩
    · rw [h6] at h7
      cases h7
      exact ⟨fun _ => rfl, fun h => absurd h h5⟩

/-- C76: a proof file that exists is not changed, and there is no answer. -/
theorem C76_no_overwrite {f : Cli.ProofFormat} {old : List Byte} (ho : pf.old = some old) :
    Cli.mainIO env k (some f) pf input = .ok (some ⟨[], 1, some old⟩) := by
  unfold Cli.mainIO
  rw [if_pos ⟨rfl, .inl (by rw [ho]; rfl)⟩, ho]
  rfl

/-- C76: and without failures the program is that of C52. -/
theorem C76_success (hd : ∀ a b, pf.dev a b = none) (ho : pf.old = none) (hc : pf.creatable = true)
    (hr : input.readable = true) (hh : input.header = some n) (hi : input.complete = true) :
    Cli.mainIO env k format pf input = Cli.main env k format n input.clauses := by
  unfold Cli.mainIO
  rw [if_neg (by simp [ho, hc])]
  simp only
  rw [if_neg (by simp [hr]), hh]
  unfold Cli.main
  simp only
  rw [hi]
  simp only [Bool.true_eq_false, if_false]
  congr 1
  funext s
  congr 1
  funext sr
  obtain ⟨s2, r⟩ := sr
  cases r with
  | none => rfl
  | some b =>
    simp only
    have hfile : (format.map fun f => Cli.closeProof pf.dev (f.write pf.dev (.new pf.cap)
        (s2.ctx.proof.getD []))).map (fun c => c.1.file) =
        format.map (fun f => f.bytes (s2.ctx.proof.getD [])) := by
      cases format with
      | none => rfl
      | some f =>
        simp only [Option.map_some, Option.some.injEq]
        exact (Cli.closeProof_spec.1 (Cli.closeProof_ok hd)).1
    rw [if_neg, hfile]
    cases format with
    | none => simp
    | some f => simp [Cli.closeProof_ok hd]

end

/-- A device with room for `n` bytes. -/
def Device.ofSize (n : Nat) : Device := fun file bytes =>
  if file.length + bytes.length ≤ n then none else some (n - file.length)

/-- The hypotheses of C76 are met.  A formula with a proof of three bytes: on a device with room for three bytes the
answer is printed, with room for two bytes it is not, although the solver has the answer, whatever the capacity of
the buffer; neither is it printed if the input ends with an error. -/
theorem C76_example :
    let F : List (List Int) := [[1, 2], [-1, 2], [1, -2], [-1, -2, 3], [-3, -1]]
    let run := fun room cap complete => Cli.mainIO Example.env 100 (some .binaryDrat)
      ⟨none, true, .ofSize room, cap⟩ ⟨true, some 3, F, complete⟩
    (∀ complete, (⟨true, some 3, F, complete⟩ : Cli.InputFile).Allowed) ∧
    run 3 1 true = .ok (some ⟨[Logger.text "s UNSATISFIABLE"], 20, some [0x61#8, 0x02#8, 0x00#8]⟩) ∧
    run 3 100 true = .ok (some ⟨[Logger.text "s UNSATISFIABLE"], 20, some [0x61#8, 0x02#8, 0x00#8]⟩) ∧
    run 2 1 true = .ok (some ⟨[], 1, some [0x61#8, 0x02#8]⟩) ∧
    run 2 100 true = .ok (some ⟨[], 1, some [0x61#8, 0x02#8]⟩) ∧
    run 3 100 false = .ok (some ⟨[], 1, some []⟩) := by
  refine ⟨?_, by decide +kernel, by decide +kernel, by decide +kernel, by decide +kernel, by decide +kernel⟩
  intro _ n hn
  cases hn
  exact (by decide : 3 ≤ 2 ^ 30 ∧ ∀ c ∈ ([[1, 2], [-1, 2], [1, -2], [-1, -2, 3], [-3, -1]] : List (List Int)),
    ∀ x ∈ c, x ≠ 0 ∧ x.natAbs ≤ 3)

end Starlit
