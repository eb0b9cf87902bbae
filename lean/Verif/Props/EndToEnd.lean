import Verif.Checker
import Verif.Solver.Main
import Verif.Props.Cli
import Verif.Props.Termination
import Verif.Props.Logging

/-!
# C52: the command line program as a whole
-/

namespace Starlit

/-- The lines of a proof file. -/
def Cli.ProofFormat.parse : Cli.ProofFormat → List Byte → Option (List DratLine)
  | .drat => TextFormat.parse
  | .binaryDrat => BinaryFormat.parse

/-- The output is right for the formula: `s UNSATISFIABLE` is printed for an unsatisfiable formula, the
exit code is 20 and the proof file, if one was asked for, is accepted by the checker; `s SATISFIABLE` is followed by lines
that list literals of different variables among which every clause has one. -/
def Cli.Right (F : List (List Int)) (varCount : Nat) (format : Option Cli.ProofFormat)
    (out : Cli.Outcome) : Prop :=
  (format = none → out.proof = none) ∧
  ((out.lines = [Logger.text "s UNSATISFIABLE"] ∧ out.code = 20 ∧ (¬ ∃ α, CnfSat α F) ∧
      ∀ f, format = some f → ∃ bytes lines, out.proof = some bytes ∧ f.parse bytes = some lines ∧
        DratCheck.check F lines = true) ∨
    (∃ vs ns, out.lines = Logger.text "s SATISFIABLE" :: vs ∧ parseModel vs = some (ns ++ [0]) ∧
      (ns.map Int.natAbs).Pairwise (· < ·) ∧ (∀ n ∈ ns, n ≠ 0 ∧ n.natAbs ≤ varCount) ∧
      (∀ c ∈ F, ∃ n ∈ c, n ∈ ns) ∧
      ∀ f, format = some f → ∃ bytes lines, out.proof = some bytes ∧ f.parse bytes = some lines ∧
        DratCheck.steps F lines ≠ none))

theorem readClause_eq {n : Nat} (hn : n ≤ 2 ^ 30) : ∀ {c : List Int},
    (∀ x ∈ c, x ≠ 0 ∧ x.natAbs ≤ n) →
    ∃ ls, Cli.readClause c = .ok ls ∧ ls.map Lit.dimacs = c ∧ (∀ l ∈ ls, l.Valid)
  | [], _ => ⟨[], rfl, rfl, by simp⟩
  | x :: c, h => by
    obtain ⟨ls, h1, h2, h3⟩ := readClause_eq hn (c := c) (fun y hy => h y (by simp [hy]))
    obtain ⟨hx0, hx⟩ := h x (by simp)
    have hM : MAX_DIMACS = 2 ^ 30 := by decide
    obtain ⟨l, e, hv, hd, -⟩ := C24_dimacs_roundtrip.2.1 x hx0 (by rw [hM]; omega) (by rw [hM]; omega)
    refine ⟨l :: ls, ?_, by simp [h2, hd], ?_⟩
    · unfold Cli.readClause
      rw [e, bind_ok, h1, bind_ok]; rfl
    · intro y hy
      rcases List.mem_cons.1 hy with rfl | hy
      · exact hv
      · exact h3 y hy

theorem readClauses_eq {n : Nat} (hn : n ≤ 2 ^ 30) : ∀ {F : List (List Int)},
    (∀ c ∈ F, ∀ x ∈ c, x ≠ 0 ∧ x.natAbs ≤ n) →
    ∃ Ls : List (List Lit), (∀ s, Cli.readClauses s F = s.addClauses Ls) ∧
      Ls.map (List.map Lit.dimacs) = F ∧ (∀ c ∈ Ls, ∀ l ∈ c, l.Valid)
  | [], _ => ⟨[], fun _ => rfl, rfl, by simp⟩
  | c :: F, h => by
    obtain ⟨Ls, h1, h2, h3⟩ := readClauses_eq hn (F := F) (fun d hd => h d (by simp [hd]))
    obtain ⟨ls, e, hd, hv⟩ := readClause_eq hn (h c (by simp))
    refine ⟨ls :: Ls, ?_, by simp [h2, hd], ?_⟩
    · intro s
      unfold Cli.readClauses Solver.addClauses
      rw [e, bind_ok]
      cases s.addClause ls with
      | error => rfl
      | ok s' => exact h1 s'
    · intro d hd
      rcases List.mem_cons.1 hd with rfl | hd
      · exact hv
      · exact h3 d hd

theorem litSat_dimacs {α : Nat → Bool} {l : Lit} (h : l.Valid) :
    LitSat (fun i => α (i + 1)) l ↔ NumSat α l.dimacs := by
  unfold LitSat NumSat
  rw [Lit.dimacs_eq h]
  cases l.isPositive with
  | true =>
    have h1 : ((l.index : Int) + 1).natAbs = l.index + 1 := by omega
    have h2 : 0 < (l.index : Int) + 1 := by omega
    simp only [if_true]
    rw [h1, decide_eq_true h2]
  | false =>
    have h1 : (-((l.index : Int) + 1)).natAbs = l.index + 1 := by omega
    have h2 : ¬ 0 < -((l.index : Int) + 1) := by omega
    simp only [Bool.false_eq_true, if_false]
    rw [h1, decide_eq_false h2]

theorem readValues_eq {env : Env} {F : List (List Lit)} {s : Solver} (h : Solver.Reachable env F s) :
    ∀ {is : List Nat}, (∀ i ∈ is, i ≤ MAX_INDEX) →
      ∃ vs, Cli.readValues s is = .ok vs ∧ vs.length = is.length ∧
        ∀ (j i : Nat), is[j]? = some i → ∃ v, vs[j]? = some v ∧ ∀ l : Lit, l.Valid → l.index = i →
          l.isPositive = true → s.value l = .ok v
  | [], _ => ⟨[], rfl, rfl, by simp⟩
  | i :: is, hi => by
    obtain ⟨vs, h1, h2, h3⟩ := readValues_eq h (is := is) (fun j hj => hi j (by simp [hj]))
    obtain ⟨l, e, hv, hl, hp, -⟩ := C24_index_roundtrip.2.1 i true (hi i (by simp))
    obtain ⟨v, ev⟩ := C04_value_no_panic h l
    refine ⟨v :: vs, ?_, by simp [h2], ?_⟩
    · unfold Cli.readValues
      rw [e, bind_ok, ev, bind_ok, h1, bind_ok]; rfl
    · intro j k hj
      cases j with
      | zero =>
        simp only [List.getElem?_cons_zero, Option.some.injEq] at hj
        subst hj
        refine ⟨v, rfl, ?_⟩
        intro m _ hm1 hm2
        have : m = l := Lit.ext_index (hm1.trans hl.symm) (hm2.trans hp.symm)
        rw [this]; exact ev
      | succ j =>
        simp only [List.getElem?_cons_succ] at hj ⊢
        exact h3 j k hj

theorem modelLits_sorted (value : Nat → Option Bool) (n : Nat) :
    ((modelLits value n).map Int.natAbs).Pairwise (· < ·) := by
  unfold modelLits
  rw [List.map_filterMap, List.pairwise_filterMap]
  refine List.pairwise_lt_range.imp ?_
  intro a b hab x hx y hy
  have key : ∀ (i z : Nat), Option.map Int.natAbs ((value i).map (fun b => if b then ((i + 1 : Nat) : Int)
      else -((i + 1 : Nat) : Int))) = some z → z = i + 1 := by
    intro i z hz
    cases hv : value i with
    | none => rw [hv] at hz; simp at hz
    | some b =>
      rw [hv] at hz
      simp only [Option.map_some, Option.some.injEq] at hz
      rw [← hz]
      cases b
      · exact Int.natAbs_neg _
      · rfl
  rw [key a x hx, key b y hy]; omega

theorem mem_modelLits {value : Nat → Option Bool} {n : Nat} {x : Int} (h : x ∈ modelLits value n) :
    x ≠ 0 ∧ x.natAbs ≤ n := by
  obtain ⟨i, hi, e⟩ := List.mem_filterMap.1 h
  have := List.mem_range.1 hi
  cases hv : value i with
  | none => rw [hv] at e; simp at e
  | some b =>
    rw [hv] at e
    simp only [Option.map_some, Option.some.injEq] at e
    cases b <;> simp at e <;> omega

theorem toDB_nums {Ls : List (List Lit)} :
    DratCheck.db (Ls.map (List.map Lit.dimacs)) = DratCheck.nums (toDB Ls) := by
  unfold DratCheck.db DratCheck.nums toDB
  rw [Multiset.map_coe, List.map_map, List.map_map]
  congr 1

theorem toDB_valid {Ls : List (List Lit)} (h : ∀ c ∈ Ls, ∀ l ∈ c, l.Valid) :
    ∀ K ∈ toDB Ls, ∀ l ∈ K, l.Valid := by
  intro K hK
  unfold toDB at hK
  rw [Multiset.mem_coe, List.mem_map] at hK
  obtain ⟨c, hc, rfl⟩ := hK
  exact h c hc

/-- The proof file is parsed as the log. -/
theorem parse_bytes (f : Cli.ProofFormat) {log : List ProofStep}
    (h : ∀ c, .add c ∈ log ∨ .delete c ∈ log → ∀ l ∈ c, l.Valid) :
    f.parse (f.bytes log) = some (log.map ProofStep.line) := by
  have hv : ∀ s ∈ log, ∀ l ∈ s.lits, l.Valid := by
    intro s hs
    cases s with
    | add c => exact h c (.inl hs)
    | delete c => exact h c (.inr hs)
  cases f with
  | drat => exact C26_text_drat log hv
  | binaryDrat => exact C25_binary_drat log hv

/-- C52: for every formula that the CNF format allows (numbers up to the variable count of the header, which
is at most 2 ^ 30), the program, whenever it finishes, leaves a right outcome; it stops without one only
for a full clause arena or sizes outside the model. -/
theorem C52_cli_right (env : Env) (k : Nat) (format : Option Cli.ProofFormat) (n : Nat)
    (F : List (List Int)) (hn : n ≤ 2 ^ 30) (hF : ∀ c ∈ F, ∀ x ∈ c, x ≠ 0 ∧ x.natAbs ≤ n) :
    match Cli.main env k format n F with
    | .ok none => True
    | .ok (some out) => Cli.Right F n format out
    | .error err => err = .arenaFull ∨ err = .tooBig := by
  obtain ⟨Ls, hr, hd, hv⟩ := readClauses_eq hn hF
  unfold Cli.main
  simp only
  rw [hr]
  generalize hs0 : (if format.isSome then (Solver.default env).writeProof else Solver.default env) = s0
  have hin0 : Solver.Input env [] s0 := by
    rw [← hs0]; split
    · exact .proof .new
    · exact .new
  have hp0 : s0.ctx.proof = format.map (fun _ => []) := by
    rw [← hs0]; cases format <;> rfl
  obtain ⟨S0, hi0⟩ := hin0.inv
  have hsp := addClauses_spec Ls hi0 hv
  cases e1 : s0.addClauses Ls with
  | error err =>
    rw [e1] at hsp
    show err = _ ∨ err = _
    cases err <;> simp [Wp] at hsp ⊢
  | ok s1 =>
    have hin : Solver.Input env Ls s1 := by simpa using Solver.Input.addClauses Ls hin0 hv e1
    obtain ⟨-, -, -, -, hp1⟩ := hsp.ok_elim e1
    rw [bind_ok]
    have hre := Solver.Reachable.input hin
    cases e2 : s1.solve env k with
    | error err => exact C04_no_panic hre k err e2
    | ok sr =>
      obtain ⟨s2, r⟩ := sr
      rw [bind_ok]
      cases r with
      | none => trivial
      | some b =>
        have hnums : DratCheck.db F = DratCheck.nums (toDB Ls) := by rw [← hd]; exact toDB_nums
        have hvalid := toDB_valid hv
        have hsome : ∀ f, format = some f → ∀ log, (s2.ctx.proof = none ∨ s2.ctx.proof = some log) →
            s2.ctx.proof = some log := by
          intro f hf log hl
          obtain ⟨S1, hi1, -⟩ := hin.pending
          have hx : s1.ctx.proof = some [] := by rw [hp1, hp0, hf]; rfl
          obtain ⟨new, en⟩ := (solve_log ⟨0, S1, hi1⟩ e2).2 _ hx
          rcases hl with hl | hl
          · rw [hl] at en; simp at en
          · exact hl
        cases b with
        | false =>
          refine ⟨fun hf => by rw [hf]; rfl, .inl ⟨rfl, rfl, ?_, ?_⟩⟩
          · rintro ⟨α, hα⟩
            refine C01_unsat_correct hre e2 (fun i => α (i + 1)) ?_
            intro c hc
            obtain ⟨x, hx, hs⟩ := hα (c.map Lit.dimacs) (hd ▸ List.mem_map_of_mem hc)
            obtain ⟨l, hl, rfl⟩ := List.mem_map.1 hx
            exact ⟨l, hl, (litSat_dimacs (hv c hc l hl)).2 hs⟩
          · intro f hf
            obtain ⟨S1, hi1, hpend⟩ := hin.pending
            obtain ⟨log, L', a, hl, hc⟩ := solve_refuted hi1 hpend e2
            have hl := hsome f hf log hl
            refine ⟨_, _, by rw [hf, hl]; rfl, parse_bytes f a.valid.1, ?_⟩
            exact DratCheck.check_complete a hvalid hnums (fun c hc x hx => (hF c hc x hx).1) hc
        | true =>
          have hre2 : Solver.Reachable env Ls s2 := .solve hre e2
          obtain ⟨vs, ev, hlen, hvs⟩ := readValues_eq hre2 (is := List.range n) (by
            intro i hi
            have := List.mem_range.1 hi
            have : MAX_INDEX = 2 ^ 30 - 1 := by decide
            omega)
          obtain ⟨lines, code, er, -, hparse⟩ := C37_cli_output_partial (fun i => vs.getD i none) n (by
            have : MAX_INDEX = 2 ^ 30 - 1 := by decide
            omega)
          simp only [if_true]
          rw [ev, bind_ok, er, bind_ok]
          refine ⟨fun hf => by rw [hf]; rfl, .inr ⟨lines, _, rfl, hparse, modelLits_sorted _ n,
            fun x hx => mem_modelLits hx, ?_, ?_⟩⟩
          · obtain ⟨α, hα, hval, -⟩ := C02_sat_correct hre e2
            intro c hc
            rw [← hd] at hc
            obtain ⟨c, hc', rfl⟩ := List.mem_map.1 hc

            have hc := hc'
            obtain ⟨l, hl, hls⟩ := hα c hc
            have hlv := hv c hc l hl
            refine ⟨l.dimacs, List.mem_map_of_mem hl, ?_⟩
            have hle := (hF (c.map Lit.dimacs) (hd ▸ List.mem_map_of_mem hc) l.dimacs
              (List.mem_map_of_mem hl)).2
            have hde := Lit.dimacs_eq hlv
            have hin : l.index < n := by
              rw [hde] at hle
              cases hb : l.isPositive <;> rw [hb] at hle <;> simp at hle <;> omega
            have hmax := Lit.valid_iff_index.1 hlv
            obtain ⟨p, -, hpv, hpi, hpp, -⟩ := C24_index_roundtrip.2.1 l.index true hmax
            obtain ⟨v, h1, h2⟩ := hvs l.index l.index (by simp [hin])
            have h3 := (h2 p hpv hpi hpp).symm.trans (hval p ⟨c, hc, l, hl, by omega⟩)
            refine List.mem_filterMap.2 ⟨l.index, List.mem_range.2 hin, ?_⟩
            simp only
            rw [List.getD_eq_getElem?_getD, h1, Option.getD_some, Except.ok.inj h3, hpp, hpi, hls, hde]
            cases l.isPositive <;> rfl
          · intro f hf
            obtain ⟨S1, hi1, hpend⟩ := hin.pending
            obtain ⟨L, S, h'⟩ := (solve_spec k ⟨0, S1, hi1⟩).ok_elim e2
            obtain ⟨log, a, hl, _⟩ := h'.proof
            have hl := hsome f hf log hl
            refine ⟨_, _, by rw [hf, hl]; rfl, parse_bytes f a.valid.1, ?_⟩
            obtain ⟨F', h1, -⟩ := DratCheck.steps_complete a hvalid hnums
            rw [h1]; simp

/-- C52: and it finishes. -/
theorem C52_cli_finishes (env : Env) (format : Option Cli.ProofFormat) (n : Nat)
    (F : List (List Int)) (hn : n ≤ 2 ^ 30) (hF : ∀ c ∈ F, ∀ x ∈ c, x ≠ 0 ∧ x.natAbs ≤ n) :
    ∃ k, Cli.main env k format n F ≠ .ok none := by
  obtain ⟨Ls, hr, hd, hv⟩ := readClauses_eq hn hF
  obtain ⟨K, hK⟩ := C03_terminates (formulaVars Ls)
  refine ⟨K, ?_⟩
  unfold Cli.main
  simp only
  rw [hr]
  generalize hs0 : (if format.isSome then (Solver.default env).writeProof else Solver.default env) = s0
  have hin0 : Solver.Input env [] s0 := by
    rw [← hs0]; split
    · exact .proof .new
    · exact .new
  intro e
  obtain ⟨s1, e1, e⟩ := bind_eq_ok.1 e
  have hin : Solver.Input env Ls s1 := by simpa using Solver.Input.addClauses Ls hin0 hv e1
  obtain ⟨⟨s2, r⟩, e2, e⟩ := bind_eq_ok.1 e
  rcases hK env Ls s1 hin rfl with ⟨s', b, h⟩ | h | h <;> rw [h] at e2
  · cases e2
    cases b with
    | false =>
      obtain ⟨vs, -, e⟩ := bind_eq_ok.1 e
      obtain ⟨⟨lines, code⟩, -, e⟩ := bind_eq_ok.1 e
      simp [pure_eq] at e
    | true =>
      obtain ⟨vs, -, e⟩ := bind_eq_ok.1 e
      obtain ⟨⟨lines, code⟩, -, e⟩ := bind_eq_ok.1 e
      simp [pure_eq] at e
  · simp at e2
  · simp at e2

/-- The hypotheses of C52 are met, and both answers occur: the outcome for an unsatisfiable formula with
a binary proof (the checker accepts that proof, and not the empty one), and for a satisfiable one with a
text proof. -/
theorem C52_example :
    (∀ c ∈ [[1, 2], [-1, 2], [1, -2], [-1, -2, 3], [-3, -1]], ∀ x ∈ c, x ≠ 0 ∧ x.natAbs ≤ 3) ∧
    Cli.main Example.env 100 (some .binaryDrat) 3 [[1, 2], [-1, 2], [1, -2], [-1, -2, 3], [-3, -1]] =
      .ok (some ⟨[Logger.text "s UNSATISFIABLE"], 20, some [0x61#8, 0x02#8, 0x00#8]⟩) ∧
    BinaryFormat.parse [0x61#8, 0x02#8, 0x00#8] = some [⟨false, [1]⟩] ∧
    DratCheck.check [[1, 2], [-1, 2], [1, -2], [-1, -2, 3], [-3, -1]] [⟨false, [1]⟩] = true ∧
    DratCheck.check [[1, 2], [-1, 2], [1, -2], [-1, -2, 3], [-3, -1]] [] = false ∧
    Cli.main Example.env 100 (some .drat) 4
        [[1, 2], [-1, 2], [1, -2], [-1, -2, 3], [-3, 4, 1], [-3, -4, -1]] =
      .ok (some ⟨[Logger.text "s SATISFIABLE", Logger.text "v 1 2 3 -4", Logger.text "v 0"], 20,
        some (Logger.text "1 0" ++ [0x0a#8])⟩) := by
  decide +kernel

end Starlit
