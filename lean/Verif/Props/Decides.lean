import Verif.Props.Exponential
import Verif.Props.SolveCost
import Verif.Props.EndToEnd

/-!
# C95: small formulas are decided

The number of conflicts is bounded by the number of variables (C87), the arena by the number of conflicts (C83), and
`solve()` fails only if the arena is full (C58): formulas with up to 23 variables always get the right answer, without any
condition on the run.
-/

namespace Starlit

/-- The number of conflicts that suffices for `n` variables. -/
def conflictBound (n : Nat) : Nat := (n - 9 + 1) * 2 ^ n

/-- The number of iterations that suffices for `n` variables. -/
def iterationBound (n : Nat) : Nat := conflictBound n + n * (conflictBound n + conflictBound n / 512 + 2) + 1

/-- The formula, and a clause for each of the conflicts, fit into the arena. -/
structure Fits (F : List (List Lit)) : Prop where
  valid : ∀ c ∈ F, ∀ l ∈ c, l.Valid
  length : ∀ c ∈ F, c.length < 2 ^ 31
  units : (unitLits F).length < 2 ^ 31
  words : formulaWords F + conflictBound (formulaVars F) * (formulaVars F + 3) < 2 ^ 32

theorem conflictBound_mono {n m : Nat} (h : n ≤ m) : conflictBound n ≤ conflictBound m :=
  Nat.mul_le_mul (by omega) (Nat.pow_le_pow_right (by omega) h)

section
variable {env : Env} {F : List (List Lit)} {s s' : Solver}

/-- The arena never has `2 ^ 32` words. -/
theorem Fits.arena (hF : Fits F) (h : Solver.Input env F s) {k : Nat} {r : Option Bool}
    (e : s.solve env k = .ok (s', r)) : s'.words < 2 ^ 32 := by
  have h1 := C87_conflicts h e
  have h2 := ((Solver.Reachable.input h).solve e).sizes.1
  have h3 := hF.words
  have h4 := Nat.mul_le_mul_right (formulaVars F + 3) h1
  unfold conflictBound at h3
  omega

/-- C95: if there is room, `solve()` answers after a number of iterations that depends on the number of variables only,
and the answer is right. -/
theorem C95_answer (hF : Fits F) (h : Solver.Input env F s) {k : Nat} (hk : iterationBound (formulaVars F) ≤ k) :
    ∃ s' b, s.solve env k = .ok (s', some b) ∧ (b = true ↔ ∃ α, FormulaSat α F) ∧ s'.words < 2 ^ 32 := by
  have hr : Solver.Reachable env F s := .input h
  have ok : ∀ err, s.solve env k ≠ .error err := by
    intro err e
    obtain ⟨j, s', _, h2, h3⟩ := C58_cause hF.units k hr e
    have := hF.arena h h2
    omega
  rcases C87_answer h rfl rfl (k := k) (by unfold iterationBound conflictBound at hk; omega) with ⟨s', b, e⟩ | e | e
  · refine ⟨s', b, e, ?_, hF.arena h e⟩
    cases b with
    | true =>
      obtain ⟨α, hα, _⟩ := C02_sat_correct hr e
      exact ⟨fun _ => ⟨α, hα⟩, fun _ => rfl⟩
    | false =>
      have := C01_unsat_correct hr e
      exact ⟨(fun h => by cases h), fun ⟨α, hα⟩ => absurd hα (this α)⟩
  · exact absurd e (ok _)
  · exact absurd e (ok _)

theorem iterationBound_mono {n m : Nat} (h : n ≤ m) : iterationBound n ≤ iterationBound m := by
  have h1 := conflictBound_mono h
  have h2 := Nat.mul_le_mul h (show conflictBound n + conflictBound n / 512 + 2 ≤
    conflictBound m + conflictBound m / 512 + 2 by omega)
  unfold iterationBound
  omega

/-- Formulas with at most 23 variables leave room for `2 ^ 29` words of clauses. -/
theorem Fits.small (h1 : ∀ c ∈ F, ∀ l ∈ c, l.Valid) (h2 : (unitLits F).length < 2 ^ 31)
    (h3 : ∀ c ∈ F, ∀ l ∈ c, l.index < 23) (h4 : formulaWords F ≤ 2 ^ 29) : Fits F := by
  have hv := formulaVars_le h3
  have hb := Nat.mul_le_mul (conflictBound_mono hv) (Nat.add_le_add_right hv 3)
  have hc : conflictBound 23 * (23 + 3) = 3271557120 := by decide
  refine ⟨h1, fun c hc => ?_, h2, by omega⟩
  have : longWords c ≤ formulaWords F := List.single_le_sum (by simp) _ (List.mem_map_of_mem hc)
  unfold longWords at this
  split at this <;> omega

/-- C95: for up to 23 variables and `2 ^ 29` words for the clauses, adding the clauses and solving always gives an answer, and
the answer is right. -/
theorem C95_small (env : Env) (h1 : ∀ c ∈ F, ∀ l ∈ c, l.Valid) (h2 : (unitLits F).length < 2 ^ 31)
    (h3 : ∀ c ∈ F, ∀ l ∈ c, l.index < 23) (h4 : formulaWords F ≤ 2 ^ 29) {k : Nat} (hk : iterationBound 23 ≤ k) :
    ∃ s s' b, (Solver.default env).addClauses F = .ok s ∧ s.solve env k = .ok (s', some b) ∧
      (b = true ↔ ∃ α, FormulaSat α F) := by
  have hF : Fits F := .small h1 h2 h3 h4
  have h0 : (Solver.default env).words = 0 := rfl
  obtain ⟨s, e, _⟩ := C58_addClauses (env := env) F .new h1 (by simpa using h2) (by omega) hF.length
  have hin : Solver.Input env F s := by simpa using Solver.Input.new.addClauses F h1 e
  obtain ⟨s', b, e', hb, _⟩ := C95_answer hF hin (Nat.le_trans (iterationBound_mono (formulaVars_le h3)) hk)
  exact ⟨s, s', b, e, e', hb⟩

end

/-- C95: for every CNF file with up to 23 variables and room for `2 ^ 29` words of clauses, the program finishes and leaves a
right outcome, as specified for C52: it cannot stop for another reason. -/
theorem C95_cli (env : Env) (format : Option Cli.ProofFormat) (n : Nat) (F : List (List Int)) (hn : n ≤ 23)
    (hF : ∀ c ∈ F, ∀ x ∈ c, x ≠ 0 ∧ x.natAbs ≤ n) (hu : (F.filter fun c => c.length = 1).length < 2 ^ 31)
    (hw : (F.map fun c => if 2 < c.length then c.length + 3 else 0).sum ≤ 2 ^ 29) {k : Nat} (hk : iterationBound 23 ≤ k) :
    ∃ out, Cli.main env k format n F = .ok (some out) ∧ Cli.Right F n format out := by
  have key : ∃ out, Cli.main env k format n F = .ok (some out) := by
    obtain ⟨Ls, hr, hd, hv⟩ := readClauses_eq (n := n) (by omega) hF
    have h2 : (unitLits Ls).length < 2 ^ 31 := by
      refine Nat.lt_of_le_of_lt ?_ hu
      rw [← hd, List.filter_map, List.length_map]
      clear hr hd hv
      induction Ls with
      | nil => simp [unitLits]
      | cons c Ls ih =>
        match c with
        | [] => simpa [unitLits] using ih
        | [a] => simpa [unitLits] using ih
        | a :: b :: c => simpa [unitLits] using ih
    have h3 : ∀ c ∈ Ls, ∀ l ∈ c, l.index < 23 := by
      intro c hc l hl
      have h1 := (hF (c.map Lit.dimacs) (hd ▸ List.mem_map_of_mem hc) l.dimacs (List.mem_map_of_mem hl)).2
      have h2 := Lit.dimacs_eq (hv c hc l hl)
      rw [h2] at h1
      split at h1 <;> omega
    have h4 : formulaWords Ls ≤ 2 ^ 29 := by
      rw [← hd, List.map_map] at hw
      refine Nat.le_trans (Nat.le_of_eq ?_) hw
      unfold formulaWords
      congr 1
      refine List.map_congr_left fun c _ => ?_
      simp [longWords]
    unfold Cli.main
    simp only
    rw [hr]
    generalize hs0 : (if format.isSome then (Solver.default env).writeProof else Solver.default env) = s0
    have hin0 : Solver.Input env [] s0 := by
      rw [← hs0]; split
      · exact .proof .new
      · exact .new
    have hw0 : s0.words = 0 := by rw [← hs0]; split <;> rfl
    have hfit : Fits Ls := .small hv h2 h3 h4
    obtain ⟨s, e, _⟩ := C58_addClauses Ls hin0 hv (by simpa using h2) (by omega) hfit.length
    have hin : Solver.Input env Ls s := by simpa using hin0.addClauses Ls hv e
    obtain ⟨s', b, e', _, _⟩ := C95_answer hfit hin (Nat.le_trans (iterationBound_mono (formulaVars_le h3)) hk)
    rw [e, bind_ok, e', bind_ok]
    cases b with
    | false => exact ⟨_, rfl⟩
    | true =>
      have hm : MAX_INDEX = 2 ^ 30 - 1 := by decide
      obtain ⟨vs, ev, _⟩ := readValues_eq ((Solver.Reachable.input hin).solve e') (is := List.range n) (by
        intro i hi
        have := List.mem_range.1 hi
        omega)
      obtain ⟨lines, code, er, _⟩ := C37_cli_output_partial (fun i => vs.getD i none) n (by omega)
      simp only [if_true]
      rw [ev, bind_ok, er, bind_ok]
      exact ⟨_, rfl⟩
  obtain ⟨out, e⟩ := key
  have := C52_cli_right env k format n F (by omega) hF
  rw [e] at this
  exact ⟨out, e, this⟩

/-- The hypotheses of C95 are met: a formula with 23 variables, of which the last two clauses make it unsatisfiable. -/
theorem C95_example : ∃ F : List (List Int), (∀ c ∈ F, ∀ x ∈ c, x ≠ 0 ∧ x.natAbs ≤ 23) ∧
    (F.filter fun c => c.length = 1).length < 2 ^ 31 ∧
    (F.map fun c => if 2 < c.length then c.length + 3 else 0).sum ≤ 2 ^ 29 ∧
    Cli.main Example.env 100 (some .drat) 23 F =
      .ok (some ⟨[Logger.text "s UNSATISFIABLE"], 20, some (Logger.text "23 1 0" ++ [0x0a#8] ++ Logger.text "-23 0" ++ [0x0a#8])⟩) :=
  ⟨[[1, 2, 23], [-1, 2, 23], [-2, 23], [-23, 22], [-22, -23]], by decide +kernel⟩

end Starlit
