import Verif.Props.Io
import Verif.Props.WholeRun

/-!
# C109: the program fails only for a cause outside of it
-/

namespace Starlit

namespace DeferredWriter

variable {dev : Device} {room : Nat} {w : DeferredWriter} {all : List Byte}

theorem writeOut_room (hd : ∀ a b, a.length + b.length ≤ room → dev a b = none) (hf : w.failed = false)
    {b : List Byte} (hr : w.file.length + b.length ≤ room) : (w.writeOut dev b).failed = false := by
  unfold writeOut
  rw [hf, hd _ _ hr]
  rfl

theorem flush_room (hd : ∀ a b, a.length + b.length ≤ room → dev a b = none) (h : w.Holds dev all)
    (hf : w.failed = false) (hr : all.length ≤ room) : (w.flushDeferErr dev).failed = false := by
  refine writeOut_room hd hf ?_
  have := congrArg List.length (h.ok hf).1
  rw [List.length_append] at this
  omega

theorem write_room (hd : ∀ a b, a.length + b.length ≤ room → dev a b = none) (h : w.Holds dev all)
    (hf : w.failed = false) {bytes : List Byte} (hr : all.length + bytes.length ≤ room) :
    (w.writeAllDeferErr dev bytes).failed = false := by
  unfold writeAllDeferErr
  split
  · exact hf
  · split
    · refine flush_room hd (h.append (bytes.take (w.cap - w.buf.length))) hf ?_
      rw [List.length_append, List.length_take]
      omega
    · have h1 := flush_room hd h hf (by omega)
      refine writeOut_room hd h1 ?_
      have h2 := (h.flush.1.ok h1).1
      rw [h.flush.2, List.append_nil] at h2
      rw [h2]
      exact hr

theorem foldl_room (hd : ∀ a b, a.length + b.length ≤ room → dev a b = none) : ∀ (calls : List (List Byte))
    {w : DeferredWriter} {all : List Byte}, w.Holds dev all → w.failed = false →
    all.length + calls.flatten.length ≤ room → (calls.foldl (writeAllDeferErr dev) w).failed = false
  | [], _, _, _, hf, _ => hf
  | c :: cs, w, all, h, hf, hr => by
    rw [List.flatten_cons, List.length_append] at hr
    refine foldl_room hd cs (h.write c) (write_room hd h hf (by omega)) ?_
    rw [List.length_append]
    omega

end DeferredWriter

/-- Nothing fails on a device that has room for the proof. -/
theorem Cli.closeProof_room {f : Cli.ProofFormat} {dev : Device} {cap : Nat} {log : List ProofStep}
    (hd : ∀ a b, a.length + b.length ≤ (f.bytes log).length → dev a b = none) :
    (Cli.closeProof dev (f.write dev (.new cap) log)).2 = true := by
  have h1 := DeferredWriter.foldl_room hd (log.flatMap f.calls) (.new cap) rfl (by rw [f.calls_flatten]; simp)
  have h2 := DeferredWriter.flush_room hd (f.write_holds dev cap log) h1 (Nat.le_refl _)
  unfold Cli.closeProof DeferredWriter.checkIoError
  simp only [h2, Bool.not_false]

section
variable {env : Env} {k : Nat} {format : Option Cli.ProofFormat} {pf : Cli.ProofFile} {input : Cli.InputFile}
  {out : Cli.Outcome} {n : Nat}

theorem Cli.main_parts {F : List (List Int)} (e : Cli.main env k format n F = .ok (some out)) :
    ∃ s s2 b, Cli.readClauses (Cli.start env format) F = .ok s ∧ s.solve env k = .ok (s2, some b) ∧
      out.proof = format.map fun f => f.bytes (s2.ctx.proof.getD []) := by
  unfold Cli.main at e
  simp only at e
  obtain ⟨s, e1, e⟩ := bind_eq_ok.1 e
  obtain ⟨⟨s2, r⟩, e2, e⟩ := bind_eq_ok.1 e
  cases r with
  | none => cases e
  | some b =>
    refine ⟨s, s2, b, e1, e2, ?_⟩
    simp only at e
    split at e
    · obtain ⟨vs, _, e⟩ := bind_eq_ok.1 e
      obtain ⟨_, _, e⟩ := bind_eq_ok.1 e
      cases e; rfl
    · obtain ⟨vs, _, e⟩ := bind_eq_ok.1 e
      obtain ⟨_, _, e⟩ := bind_eq_ok.1 e
      cases e; rfl

/-- Failures of files do not keep the program from finishing. -/
theorem Cli.mainIO_finishes (hv : input.Allowed)
    (hm : ∀ n, input.header = some n → ∃ out, Cli.main env k format n input.clauses = .ok (some out)) :
    ∃ out, Cli.mainIO env k format pf input = .ok (some out) := by
  unfold Cli.mainIO
  split
  · exact ⟨_, rfl⟩
  simp only
  split
  · exact ⟨_, rfl⟩
  cases hh : input.header with
  | none => exact ⟨_, rfl⟩
  | some n =>
    obtain ⟨out, e⟩ := hm n hh
    obtain ⟨s, s2, b, e1, e2, _⟩ := Cli.main_parts e
    obtain ⟨vs, lines, e3, e4, _, _⟩ := Cli.main_eq (hv n hh).1 (hv n hh).2 e1 e2
    unfold Cli.start at e1
    simp only
    rw [e1, bind_ok]
    split
    · exact ⟨_, rfl⟩
    rw [e2, bind_ok]
    simp only
    split
    · exact ⟨_, rfl⟩
    cases b with
    | false =>
      cases e3
      simp only [Bool.false_eq_true, if_false]
      rw [pure_eq, bind_ok, e4, bind_ok]
      exact ⟨_, rfl⟩
    | true =>
      rw [if_pos rfl] at e3
      simp only [if_true]
      rw [e3, bind_ok, e4, bind_ok]
      exact ⟨_, rfl⟩

/-- C109: a device with room for the proof suffices: if no write fails that leaves the file no longer than the proof, and the
files can be read and created, the outcome is that of the program without failures (C52), with the whole proof in the file. -/
theorem C109_room (hv : input.Allowed) (hm : Cli.main env k format n input.clauses = .ok (some out))
    (hd : ∀ bytes, out.proof = some bytes → ∀ a b, a.length + b.length ≤ bytes.length → pf.dev a b = none)
    (ho : format.isSome = true → pf.old = none ∧ pf.creatable = true) (hr : input.readable = true) (hh : input.header = some n)
    (hi : input.complete = true) : Cli.mainIO env k format pf input = .ok (some out) := by
  obtain ⟨out', e⟩ := Cli.mainIO_finishes (env := env) (k := k) (format := format) (pf := pf) hv (by
    intro m hm'
    cases hh.symm.trans hm'
    exact ⟨out, hm⟩)
  rw [e]
  obtain ⟨s, s2, b, e1, e2, hp⟩ := Cli.main_parts hm
  rcases Cli.mainIO_cases e with ⟨h', h, _⟩ | ⟨_, ⟨h, _⟩ | ⟨_, h, _⟩ | ⟨_, _, m, s', s2', b', h3, e1', e2', h4⟩⟩
  · rw [(ho h').1, (ho h').2] at h; simp at h
  · rw [hr, hh] at h; simp at h
  · rw [hi] at h; simp at h
  · cases hh.symm.trans h3
    rcases h4 with ⟨f, pre, rfl, _, h5⟩ | ⟨h4, _⟩
    · exfalso
      cases e1.symm.trans e1'
      cases e2.symm.trans e2'
      have hcl := Cli.closeProof_room (cap := pf.cap) (hd _ hp)
      obtain ⟨vs, lines, e3, e4, hl, _⟩ := Cli.main_eq (hv n hh).1 (hv n hh).2 e1 e2
      unfold Cli.mainIO at e
      rw [if_neg (by simp [ho rfl])] at e
      simp only at e
      unfold Cli.start at e1
      rw [if_neg (by simp [hr]), hh] at e
      simp only at e
      rw [e1, bind_ok, if_neg (by simp [hi]), e2, bind_ok] at e
      simp only [Option.map_some, Option.any_some, hcl, Bool.not_true, Bool.false_eq_true, if_false] at e
      cases b with
      | false =>
        cases e3
        simp only [Bool.false_eq_true, if_false] at e
        rw [pure_eq, bind_ok, e4, bind_ok] at e
        simp only [pure_eq, Except.ok.injEq, Option.some.injEq] at e
        rw [h5] at e
        injection e with e
        exact hl e
      | true =>
        rw [if_pos rfl] at e3
        simp only [if_true] at e
        rw [e3, bind_ok, e4, bind_ok] at e
        simp only [pure_eq, Except.ok.injEq, Option.some.injEq] at e
        rw [h5] at e
        injection e with e
        exact hl e
    · rw [hm] at h4
      cases h4
      rfl

/-- C109: the proof is not longer than a function of the number of variables in the header. -/
theorem C109_proof {F : List (List Int)} (hn : n ≤ 2 ^ 30) (hF : ∀ c ∈ F, ∀ x ∈ c, x ≠ 0 ∧ x.natAbs ≤ n)
    {f : Cli.ProofFormat} (hm : Cli.main env k (some f) n F = .ok (some out)) :
    ∃ bytes, out.proof = some bytes ∧ bytes.length ≤ 2 * conflictBound n * lineBytes n f := by
  obtain ⟨s, s2, b, e1, e2, hp⟩ := Cli.main_parts hm
  obtain ⟨Ls, hr, hd, hv⟩ := readClauses_eq hn hF
  rw [hr] at e1
  have hin : Solver.Input env Ls s := by simpa using Solver.Input.addClauses Ls Cli.start_input hv e1
  have hvars : formulaVars Ls ≤ n := formulaVars_le fun c hc l hl => by
    have h1 := (hF (c.map Lit.dimacs) (hd ▸ List.mem_map_of_mem hc) l.dimacs (List.mem_map_of_mem hl)).2
    have h2 := Lit.dimacs_eq (hv c hc l hl)
    rw [h2] at h1
    split at h1 <;> omega
  refine ⟨_, hp, ?_⟩
  cases hl : s2.ctx.proof with
  | none => cases f <;> simp [Cli.ProofFormat.bytes, Drat.output, BinaryDrat.output]
  | some log =>
    refine Nat.le_trans (C106_proof hin e2 hl f) (Nat.mul_le_mul (Nat.mul_le_mul_left _ (conflictBound_mono hvars)) ?_)
    unfold lineBytes
    cases f <;> simp only <;> omega

/-- A cause for failure outside of the program: the proof file cannot be created, the input cannot be read or is not
in CNF format, or a write to the proof file fails although the file is not longer than proofs can be. -/
def Cli.Cause (format : Option Cli.ProofFormat) (pf : Cli.ProofFile) (input : Cli.InputFile) : Prop :=
  (format.isSome = true ∧ (pf.old.isSome = true ∨ pf.creatable = false)) ∨ input.readable = false ∨ input.header = none ∨
    input.complete = false ∨ ∃ f a b, format = some f ∧ pf.dev a b ≠ none ∧
      a.length + b.length ≤ 2 * conflictBound 23 * lineBytes 23 f

/-- C109: for inputs with up to 23 variables and room for `2 ^ 29` words of clauses, the program finishes, whatever the files
and the device do.  Without a cause it prints an answer; if it prints an answer, it is right, and so is the proof in the file;
if it prints none, the exit code is 1 and there is a cause. -/
theorem C109_always (env : Env) (format : Option Cli.ProofFormat) (pf : Cli.ProofFile) (input : Cli.InputFile)
    (hn : ∀ n, input.header = some n → n ≤ 23 ∧ ∀ c ∈ input.clauses, ∀ x ∈ c, x ≠ 0 ∧ x.natAbs ≤ n)
    (hu : (input.clauses.filter fun c => c.length = 1).length < 2 ^ 31)
    (hw : (input.clauses.map fun c => if 2 < c.length then c.length + 3 else 0).sum ≤ 2 ^ 29) {k : Nat}
    (hk : iterationBound 23 ≤ k) :
    ∃ out, Cli.mainIO env k format pf input = .ok (some out) ∧
      ((out.lines ≠ [] ∧ out.code = 20 ∧ ∃ n, input.header = some n ∧ Cli.Right input.clauses n format out) ∨
        (out.lines = [] ∧ out.code = 1 ∧ Cli.Cause format pf input)) := by
  have hv : input.Allowed := fun n h => ⟨by have := (hn n h).1; omega, (hn n h).2⟩
  have hm : ∀ n, input.header = some n → ∃ out, Cli.main env k format n input.clauses = .ok (some out) := by
    intro n h
    obtain ⟨out, e, _⟩ := C95_cli env format n input.clauses (hn n h).1 (hn n h).2 hu hw hk
    exact ⟨out, e⟩
  obtain ⟨out, e⟩ := Cli.mainIO_finishes (pf := pf) hv hm
  refine ⟨out, e, ?_⟩
  by_cases hl : out.lines = []
  · refine .inr ⟨hl, ((C76_failure e hv).2 hl).1, ?_⟩
    by_contra hno
    unfold Cli.Cause at hno
    simp only [not_or, Bool.not_eq_false] at hno
    obtain ⟨h1, h2, h3, h4, h5⟩ := hno
    obtain ⟨n, hh⟩ := Option.ne_none_iff_exists'.1 h3
    obtain ⟨out', e'⟩ := hm n hh
    have hsame : Cli.mainIO env k format pf input = .ok (some out') := by
      refine C109_room hv e' ?_ (fun hs => by simpa [hs] using h1) h2 hh h4
      cases format with
      | none =>
        obtain ⟨_, _, _, _, _, hp⟩ := Cli.main_parts e'
        intro bytes hb
        rw [hp] at hb
        cases hb
      | some f =>
        obtain ⟨bytes, hb, hlen⟩ := C109_proof (hv n hh).1 (hv n hh).2 e'
        intro bytes' hb' a b hab
        cases hb.symm.trans hb'
        by_contra hne
        have h7 := conflictBound_mono (hn n hh).1
        have h8 : lineBytes n f ≤ lineBytes 23 f := by
          have := (hn n hh).1
          unfold lineBytes
          cases f <;> simp only <;> omega
        exact h5 ⟨f, a, b, rfl, hne, Nat.le_trans hab (Nat.le_trans hlen (Nat.mul_le_mul (Nat.mul_le_mul_left _ h7) h8))⟩
    cases e.symm.trans hsame
    obtain ⟨s, s2, b, e1, e2, _⟩ := Cli.main_parts e'
    obtain ⟨vs, lines, _, _, hne, e3⟩ := Cli.main_eq (hv n hh).1 (hv n hh).2 e1 e2
    cases e'.symm.trans e3
    exact hne hl
  · obtain ⟨_, _, ⟨n, h1, h2⟩, _⟩ := C76_answer e hl hv
    exact .inl ⟨hl, (C76_failure e hv).1 hl, n, h1, h2⟩

end

/-- The hypotheses of C109 are met: three variables and a proof of three bytes.  With room for three bytes there is an answer;
with room for two there is none, and the cause is the device. -/
theorem C109_example :
    let F : List (List Int) := [[1, 2], [-1, 2], [1, -2], [-1, -2, 3], [-3, -1]]
    let input : Cli.InputFile := ⟨true, some 3, F, true⟩
    let pf := fun room => (⟨none, true, .ofSize room, 100⟩ : Cli.ProofFile)
    (∀ n, input.header = some n → n ≤ 23 ∧ ∀ c ∈ input.clauses, ∀ x ∈ c, x ≠ 0 ∧ x.natAbs ≤ n) ∧
    (input.clauses.filter fun c => c.length = 1).length < 2 ^ 31 ∧
    (input.clauses.map fun c => if 2 < c.length then c.length + 3 else 0).sum ≤ 2 ^ 29 ∧
    Cli.main Example.env 100 (some .binaryDrat) 3 F =
      .ok (some ⟨[Logger.text "s UNSATISFIABLE"], 20, some [0x61#8, 0x02#8, 0x00#8]⟩) ∧
    (∀ a b : List Byte, a.length + b.length ≤ 3 → (pf 3).dev a b = none) ∧
    Cli.mainIO Example.env 100 (some .binaryDrat) (pf 3) input =
      .ok (some ⟨[Logger.text "s UNSATISFIABLE"], 20, some [0x61#8, 0x02#8, 0x00#8]⟩) ∧
    Cli.mainIO Example.env 100 (some .binaryDrat) (pf 2) input = .ok (some ⟨[], 1, some [0x61#8, 0x02#8]⟩) ∧
    Cli.Cause (some .binaryDrat) (pf 2) input := by
  refine ⟨?_, by decide, by decide, by decide +kernel, ?_, by decide +kernel, by decide +kernel, ?_⟩
  · intro n hn
    cases hn
    exact (by decide : 3 ≤ 23 ∧ ∀ c ∈ ([[1, 2], [-1, 2], [1, -2], [-1, -2, 3], [-3, -1]] : List (List Int)),
      ∀ x ∈ c, x ≠ 0 ∧ x.natAbs ≤ 3)
  · intro a b h
    simp only [Device.ofSize]
    rw [if_pos h]
  · exact .inr (.inr (.inr (.inr ⟨.binaryDrat, [], [0x61#8, 0x02#8, 0x00#8], rfl, by decide, by decide⟩)))

end Starlit
