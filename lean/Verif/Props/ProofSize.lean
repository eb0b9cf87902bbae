import Verif.Props.Capacity
import Verif.Props.Counters
import Verif.Props.Cli
import Verif.Solver.Main

/-!
# C88: the size of proof files
-/

namespace Starlit

/-- Every clause added in the log has at most `n` literals. -/
def AddedShort (n : Nat) (log : List ProofStep) : Prop := ∀ c, .add c ∈ log → c.length ≤ n

section
variable {env : Env} {F : List (List Lit)} {s : Solver} {log : List ProofStep}

theorem Solver.Reachable.added_short (h : Solver.Reachable env F s) (hl : s.ctx.proof = some log) :
    AddedShort (formulaVars F) log := by
  induction h generalizing log with
  | @input s h =>
    obtain ⟨S, hi⟩ := h.inv
    rcases hi.proof with e | e
    · rw [e] at hl; cases hl
    · rw [e] at hl; cases hl
      intro c hc
      cases hc
  | @restart s s' hr e ih =>
    rcases C55_restart hr e with ⟨_, rfl⟩ | ⟨_, _, _, _, _, _, hp, _⟩
    · exact ih hl
    · rw [hp] at hl; exact ih hl
  | @reduce s s' hr e ih =>
    rcases C55_reduce hr e with ⟨_, rfl⟩ | ⟨_, _, _, _, _, _, _, _, hd⟩
    · exact ih hl
    · cases hp : s.ctx.proof with
      | none => rw [hd.1 hp] at hl; cases hl
      | some old =>
        obtain ⟨new, e1, e2⟩ := hd.2 old hp
        rw [e1] at hl
        cases hl
        intro c hc
        rcases List.mem_append.1 hc with hc | hc
        · exact ih hp c hc
        · have : 0 < additions new := by
            unfold additions
            exact List.length_pos_of_mem (List.mem_filter.2 ⟨hc, rfl⟩)
          omega
  | @step s ctx search r hr e ih =>
    simp only at hl
    cases searchStep_cases hr e with
    | already => exact ih hl
    | fail hp _ =>
      have h1 := hp.proof
      simp only [Ctx.conflict] at hl
      exact ih (h1 ▸ hl)
    | decide hp _ _ _ =>
      have h1 := hp.proof
      simp only [Ctx.decision] at hl
      exact ih (h1 ▸ hl)
    | sat hp _ => exact ih (hp.proof ▸ hl)
    | @learn p1 p p' ctx1 ctx' c an cb hp h0 ea =>
      obtain ⟨S2, S', C, lvl, target, hi, A⟩ := hp.analyze h0 ea
      have h2 := A.proof
      unfold Ctx.logProof at h2
      simp only [Ctx.conflict] at h2
      rw [hl, hp.proof] at h2
      obtain ⟨old, e1, rfl⟩ := Option.map_eq_some_iff.1 h2.symm
      intro d hd
      rcases List.mem_append.1 hd with hd | hd
      · exact ih e1 d hd
      · simp only [List.mem_singleton, ProofStep.add.injEq] at hd
        rw [hd]
        exact A.asserting.length_le hi

/-- An accepted log has at most as many deletions as additions, and no line is longer than the longest clause that
was added. -/
theorem Accepted.lines {F : DB} {L : DB} {n : Nat} (h : Accepted F log L) (hs : AddedShort n log) :
    log.length + Multiset.card L = 2 * additions log ∧
    (∀ x ∈ log, x.lits.length ≤ n ∧ ∀ l ∈ x.lits, l.Valid) ∧
    ∀ C ∈ L, Multiset.card C ≤ n ∧ ∀ l ∈ C, l.Valid := by
  induction h with
  | nil => exact ⟨rfl, by simp, by simp⟩
  | @add log L c _ _ hv ih =>
    obtain ⟨h1, h2, h3⟩ := ih fun d hd => hs d (List.mem_append_left _ hd)
    have hc := hs c (by simp)
    refine ⟨?_, ?_, ?_⟩
    · rw [List.length_append, Multiset.card_cons, additions_append]
      simp only [additions, List.filter_cons_of_pos, List.filter_nil, List.length_singleton] at h1 ⊢
      omega
    · intro x hx
      rcases List.mem_append.1 hx with hx | hx
      · exact h2 x hx
      · rw [List.mem_singleton.1 hx]; exact ⟨hc, hv⟩
    · intro C hC
      rcases Multiset.mem_cons.1 hC with rfl | hC
      · exact ⟨by simpa using hc, by simpa using hv⟩
      · exact h3 C hC
  | @delete log L c _ _ ih =>
    obtain ⟨h1, h2, h3⟩ := ih fun d hd => hs d (List.mem_append_left _ hd)
    obtain ⟨h4, h5⟩ := h3 _ (Multiset.mem_cons_self _ _)
    refine ⟨?_, ?_, fun C hC => h3 C (Multiset.mem_cons_of_mem hC)⟩
    · rw [Multiset.card_cons] at h1
      rw [List.length_append, additions_append]
      simp only [additions] at h1 ⊢
      simp
      omega
    · intro x hx
      rcases List.mem_append.1 hx with hx | hx
      · exact h2 x hx
      · rw [List.mem_singleton.1 hx]
        exact ⟨by simpa [ProofStep.lits] using h4, by simpa [ProofStep.lits] using h5⟩

end

theorem writeCode_length_le : ∀ (fuel code k : Nat), code < 2 ^ (7 * (k + 1)) →
    (BinaryDrat.writeCode fuel code).length ≤ k + 1
  | 0, _, _, _ => by simp [BinaryDrat.writeCode]
  | fuel + 1, code, 0, h => by
    unfold BinaryDrat.writeCode
    rw [if_neg (by simpa using h)]
    simp
  | fuel + 1, code, k + 1, h => by
    unfold BinaryDrat.writeCode
    split
    · have := writeCode_length_le fuel (code >>> 7) k (by
        rw [Nat.shiftRight_eq_div_pow, Nat.div_lt_iff_lt_mul (by decide), ← pow_add]
        rwa [show 7 * (k + 1) + 7 = 7 * (k + 1 + 1) by omega])
      simpa using this
    · simp

/-- A literal takes at most five bytes in the binary format. -/
theorem BinaryDrat.writeLit_length {l : Lit} (h : l.Valid) : (BinaryDrat.writeLit l).length ≤ 5 := by
  refine writeCode_length_le 9 _ 4 ?_
  have h1 := Lit.valid_iff_index.1 h.neg
  rw [MAX_INDEX_eq] at h1
  have h2 := Lit.code_lt_of_index_lt (show l.neg.index < 2 ^ 30 by omega)
  omega

/-- A literal takes at most twelve bytes in the text format, with the space. -/
theorem Drat.lit_length {l : Lit} (h : l.Valid) : (Drat.asciiDigits l.dimacs ++ [ascii ' ']).length ≤ 12 := by
  have := asciiDigits_length l.dimacs (by
    have h1 := Lit.valid_iff_index.1 h
    rw [MAX_INDEX_eq] at h1
    rw [Lit.dimacs_eq h]
    split <;> omega)
  simpa using this

theorem flatMap_length_le {α β : Type} (f : α → List β) (b : Nat) : ∀ (l : List α), (∀ x ∈ l, (f x).length ≤ b) →
    (l.flatMap f).length ≤ l.length * b
  | [], _ => by simp
  | x :: r, h => by
    have h1 := flatMap_length_le f b r fun y hy => h y (List.mem_cons_of_mem _ hy)
    have h2 := h x List.mem_cons_self
    rw [List.flatMap_cons, List.length_append, List.length_cons, Nat.add_mul, Nat.one_mul]
    omega

/-- The bytes of a line with at most `n` literals. -/
def lineBytes (n : Nat) : Cli.ProofFormat → Nat
  | .drat => 12 * n + 4
  | .binaryDrat => 5 * n + 2

theorem bytes_length_le {n : Nat} {log : List ProofStep} (f : Cli.ProofFormat)
    (h : ∀ x ∈ log, x.lits.length ≤ n ∧ ∀ l ∈ x.lits, l.Valid) :
    (f.bytes log).length ≤ log.length * lineBytes n f := by
  cases f with
  | binaryDrat =>
    refine flatMap_length_le _ _ _ ?_
    intro x hx
    obtain ⟨h1, h2⟩ := h x hx
    have : ∀ ls : List Lit, ls.length ≤ n → (∀ l ∈ ls, l.Valid) → (BinaryDrat.writeLits ls).length ≤ 5 * n + 1 := by
      intro ls h1 h2
      have := flatMap_length_le BinaryDrat.writeLit 5 ls fun l hl => BinaryDrat.writeLit_length (h2 l hl)
      unfold BinaryDrat.writeLits
      rw [List.length_append, List.length_singleton]
      omega
    unfold lineBytes
    cases x with
    | add ls => have := this ls h1 h2; simp only [BinaryDrat.write, List.length_cons]; omega
    | delete ls => have := this ls h1 h2; simp only [BinaryDrat.write, List.length_cons]; omega
  | drat =>
    refine flatMap_length_le _ _ _ ?_
    intro x hx
    obtain ⟨h1, h2⟩ := h x hx
    have : ∀ ls : List Lit, ls.length ≤ n → (∀ l ∈ ls, l.Valid) → (Drat.writeClause ls).length ≤ 12 * n + 2 := by
      intro ls h1 h2
      have := flatMap_length_le (fun l => Drat.asciiDigits l.dimacs ++ [ascii ' ']) 12 ls
        fun l hl => Drat.lit_length (h2 l hl)
      unfold Drat.writeClause
      rw [List.length_append]
      simp only [List.length_cons, List.length_nil]
      omega
    unfold lineBytes
    cases x with
    | add ls => have := this ls h1 h2; simp only [Drat.write]; omega
    | delete ls =>
      have := this ls h1 h2
      simp only [Drat.write, List.length_append, List.length_cons, List.length_nil]; omega

/-- C88: after `c` conflicts the proof has at most `2 * c` lines with at most `n` literals each. -/
theorem C88_lines {env : Env} {F : List (List Lit)} {s : Solver} {log : List ProofStep}
    (h : Solver.Reachable env F s) (hl : s.ctx.proof = some log) :
    log.length ≤ 2 * s.ctx.search.conflicts ∧ ∀ x ∈ log, x.lits.length ≤ formulaVars F := by
  obtain ⟨L, S, hi⟩ := h.inv
  obtain ⟨log', a, hl', _⟩ := hi.proof
  rw [hl] at hl'
  simp only [reduceCtorEq, Option.some.injEq, false_or] at hl'
  subst hl'
  obtain ⟨h1, h2, _⟩ := a.lines (h.added_short hl)
  refine ⟨?_, fun x hx => (h2 x hx).1⟩
  have hc := C55_run h
  have : additions log ≤ s.ctx.search.conflicts := by
    cases hu : s.search.prop.unsat with
    | false => rw [hc.open_ hu log hl]
    | true => rcases hc.closed hu log hl with e | ⟨e1, e2⟩ <;> omega
  omega

/-- C88: the proof file has at most `2 * c * (12 * n + 4)` bytes as text and at most `2 * c * (5 * n + 2)` bytes in
the binary format, for `c` conflicts and `n` variables. -/
theorem C88_bytes {env : Env} {F : List (List Lit)} {s : Solver} {log : List ProofStep}
    (h : Solver.Reachable env F s) (hl : s.ctx.proof = some log) (f : Cli.ProofFormat) :
    (f.bytes log).length ≤ 2 * s.ctx.search.conflicts * lineBytes (formulaVars F) f := by
  obtain ⟨L, S, hi⟩ := h.inv
  obtain ⟨log', a, hl', _⟩ := hi.proof
  rw [hl] at hl'
  simp only [reduceCtorEq, Option.some.injEq, false_or] at hl'
  subst hl'
  obtain ⟨h1, h2, _⟩ := a.lines (h.added_short hl)
  exact Nat.le_trans (bytes_length_le f h2) (Nat.mul_le_mul_right _ (C88_lines h hl).1)

/-- A case for C88: a proof with 16 lines, two of them deletions, after 14 conflicts. -/
theorem C88_example : ∃ s log,
    Solver.Reachable Example.envReduce (Example.cnf (Example.php 5 4)) s ∧ s.ctx.proof = some log ∧
    s.ctx.search.conflicts = 14 ∧ log.length = 16 ∧ additions log = 14 := by
  obtain ⟨s, log, h1, h2, h3, h4, h5, _⟩ := C55_example
  exact ⟨s, log, h1, h3, by rw [h2], h4, h5⟩

end Starlit
