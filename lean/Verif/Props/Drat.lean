import Verif.Drat
import Verif.Props.Words

/-!
# Properties C25 and C26: proof files

The specification consists of two parsers for the file formats, written from the description of the
formats (<https://github.com/marijnheule/drat-trim#readme>): they do not refer to the model.
-/

namespace Starlit

/-- A parsed proof line: deletion flag and DIMACS literals. -/
structure DratLine where
  delete : Bool
  lits : List Int
deriving DecidableEq, Repr

/-- The line a logged step stands for. -/
def ProofStep.line : ProofStep → DratLine
  | .add ls => ⟨false, ls.map Lit.dimacs⟩
  | .delete ls => ⟨true, ls.map Lit.dimacs⟩

/-- The literals of a step. -/
def ProofStep.lits : ProofStep → List Lit
  | .add ls => ls
  | .delete ls => ls

/-! ## Binary format -/

namespace BinaryFormat

/-- A variable-length unsigned integer: seven bits per byte, least significant first, top bit set
on all bytes but the last. -/
def parseVarint : List Byte → Option (Nat × List Byte)
  | [] => none
  | b :: bs =>
    if b.toNat < 128 then some (b.toNat, bs)
    else (parseVarint bs).map (fun (n, rest) => (b.toNat - 128 + 128 * n, rest))

/-- The literal with a given code: `2v` is `v` and `2v+1` is `-v`. -/
def litOf (u : Nat) : Int := if u % 2 = 0 then (u / 2 : Nat) else -((u / 2 : Nat) : Int)

/-- Literals up to a zero. -/
def parseLits : Nat → List Byte → Option (List Int × List Byte)
  | 0, _ => none
  | fuel + 1, bs => do
    let (u, bs) ← parseVarint bs
    if u = 0 then some ([], bs)
    else if u = 1 then none
    else do
      let (ls, bs) ← parseLits fuel bs
      some (litOf u :: ls, bs)

/-- Lines up to the end of the file. -/
def parseLines : Nat → List Byte → Option (List DratLine)
  | 0, _ => none
  | _ + 1, [] => some []
  | fuel + 1, b :: bs => do
    let delete ← if b = 0x61#8 then some false else if b = 0x64#8 then some true else none
    let (ls, bs) ← parseLits (bs.length + 1) bs
    let rest ← parseLines fuel bs
    some (⟨delete, ls⟩ :: rest)

/-- The parser for a whole file. -/
def parse (bs : List Byte) : Option (List DratLine) := parseLines (bs.length + 1) bs

end BinaryFormat

open BinaryFormat in
theorem parseVarint_writeCode (fuel code : Nat) (rest : List Byte) (h : code < 2 ^ (7 * (fuel + 1))) :
    parseVarint (BinaryDrat.writeCode fuel code ++ rest) = some (code, rest) := by
  induction fuel generalizing code with
  | zero =>
    have : code < 128 := by simpa using h
    have e : (BitVec.ofNat 8 code).toNat = code := by simp; omega
    simp only [BinaryDrat.writeCode, List.cons_append, List.nil_append, parseVarint, e, this, if_true]
  | succ fuel ih =>
    by_cases hc : code ≥ 0x80
    · have hlt : code >>> 7 < 2 ^ (7 * (fuel + 1)) := by
        rw [Nat.shiftRight_eq_div_pow, Nat.div_lt_iff_lt_mul (by decide), ← Nat.pow_add]
        exact h
      have e : ((BitVec.ofNat 8 code ||| 0x80#8) : Byte).toNat = code % 128 + 128 := by
        rw [BitVec.toNat_or, BitVec.toNat_ofNat]
        show code % 256 ||| 128 = _
        have h1 : code % 256 ||| 128 = code % 128 ||| 128 := by
          apply Nat.eq_of_testBit_eq
          intro i
          have a : code % 256 = code % 2 ^ 8 := rfl
          have b : code % 128 = code % 2 ^ 7 := rfl
          have c : (128 : Nat) = 2 ^ 7 := rfl
          rw [Nat.testBit_or, Nat.testBit_or, a, b, Nat.testBit_mod_two_pow, Nat.testBit_mod_two_pow,
            c, Nat.testBit_two_pow]
          by_cases h7 : 7 = i
          · simp [h7]
          · have : (i < 8) = (i < 7) := by
              simp only [eq_iff_iff]; omega
            simp [this]
        rw [h1]
        have h2 := Nat.shiftLeft_add_eq_or_of_lt (i := 7) (b := code % 128) (by omega) 1
        simp only [Nat.shiftLeft_eq] at h2
        rw [Nat.or_comm]
        show 1 * 2 ^ 7 ||| code % 128 = _
        rw [← h2]; omega
      simp only [BinaryDrat.writeCode, hc, if_true, List.cons_append, parseVarint, e]
      rw [if_neg (by omega), ih _ hlt]
      simp only [Option.map_some, Option.some.injEq, Prod.mk.injEq, and_true]
      rw [Nat.shiftRight_eq_div_pow]
      omega
    · have : code < 128 := by omega
      have e : (BitVec.ofNat 8 code).toNat = code := by simp; omega
      simp only [BinaryDrat.writeCode, hc, if_false, List.cons_append, List.nil_append, parseVarint,
        e, this, if_true]

theorem writeCode_length (fuel code : Nat) : 1 ≤ (BinaryDrat.writeCode fuel code).length := by
  cases fuel <;> simp only [BinaryDrat.writeCode]
  · simp
  · split <;> simp

/-- The binary code of a literal. -/
theorem litOf_code {l : Lit} (h : l.Valid) : BinaryFormat.litOf (l.neg.code + 2) = l.dimacs := by
  rw [Lit.dimacs_eq h]
  have h1 : l.neg.code / 2 = l.code / 2 := by rw [← Lit.index_eq, ← Lit.index_eq, Lit.index_neg]
  have h2 := Lit.isPositive_eq l
  have h3 := Lit.isPositive_neg l
  rw [Lit.isPositive_eq] at h3
  rw [Lit.index_eq]
  unfold BinaryFormat.litOf
  cases hp : l.isPositive
  · rw [hp] at h2 h3
    simp at h2 h3
    rw [if_neg (by omega)]
    simp only [Bool.false_eq_true, if_false]
    omega
  · rw [hp] at h2 h3
    simp at h2 h3
    rw [if_pos (by omega)]
    simp only [if_true]
    omega

open BinaryFormat in
theorem parseLits_writeLits (ls : List Lit) (rest : List Byte) (fuel : Nat)
    (hf : ls.length < fuel) (hv : ∀ l ∈ ls, l.Valid) :
    parseLits fuel (BinaryDrat.writeLits ls ++ rest) = some (ls.map Lit.dimacs, rest) := by
  induction ls generalizing fuel with
  | nil =>
    cases fuel with
    | zero => simp at hf
    | succ fuel => rfl
  | cons l ls ih =>
    cases fuel with
    | zero => simp at hf
    | succ fuel =>
      have hl := hv l (by simp)
      have hlt : l.neg.code + 2 < 2 ^ (7 * (9 + 1)) := by
        have := hl.neg
        unfold Lit.Valid at this
        rw [MAX_CODE_eq] at this
        omega
      have e : BinaryDrat.writeLits (l :: ls) ++ rest =
          BinaryDrat.writeCode 9 (l.neg.code + 2) ++ (BinaryDrat.writeLits ls ++ rest) := by
        simp [BinaryDrat.writeLits, BinaryDrat.writeLit]
      rw [e, parseLits, parseVarint_writeCode _ _ _ hlt]
      simp only [Option.bind_eq_bind, Option.bind_some]
      rw [if_neg (by omega), if_neg (by omega), ih fuel (by simpa using hf) (fun l h => hv l (by simp [h]))]
      simp only [Option.bind_some, List.map_cons, litOf_code hl]

theorem writeLits_length (ls : List Lit) : ls.length < (BinaryDrat.writeLits ls).length := by
  induction ls with
  | nil => simp [BinaryDrat.writeLits]
  | cons l ls ih =>
    have := writeCode_length 9 (l.neg.code + 2)
    simp only [BinaryDrat.writeLits, List.flatMap_cons, List.length_append, List.length_cons,
      List.append_assoc, BinaryDrat.writeLit] at *
    omega

/-- C25: the bytes written by `BinaryDrat` for any sequence of steps parse to these steps. -/
theorem C25_binary_drat (steps : List ProofStep) (hv : ∀ s ∈ steps, ∀ l ∈ s.lits, l.Valid) :
    BinaryFormat.parse (BinaryDrat.output steps) = some (steps.map ProofStep.line) := by
  have key : ∀ (steps : List ProofStep) (fuel : Nat), (∀ s ∈ steps, ∀ l ∈ s.lits, l.Valid) →
      steps.length < fuel →
      BinaryFormat.parseLines fuel (BinaryDrat.output steps) = some (steps.map ProofStep.line) := by
    intro steps
    induction steps with
    | nil =>
      intro fuel _ hf
      cases fuel with
      | zero => simp at hf
      | succ fuel => rfl
    | cons s steps ih =>
      intro fuel hv hf
      cases fuel with
      | zero => simp at hf
      | succ fuel =>
        have ih := ih fuel (fun t h => hv t (by simp [h])) (by simpa using hf)
        have hs := hv s (by simp)
        have hlen := writeLits_length s.lits
        cases s with
        | add ls =>
          have e : BinaryDrat.output (.add ls :: steps) =
              0x61#8 :: (BinaryDrat.writeLits ls ++ BinaryDrat.output steps) := by
            simp [BinaryDrat.output, BinaryDrat.write, ascii]
          rw [e, BinaryFormat.parseLines]
          rw [parseLits_writeLits ls _ _ (by
            simp only [ProofStep.lits] at hlen; simp only [List.length_append]; omega) hs]
          simp only [if_true, Option.bind_eq_bind, Option.bind_some, ih]
          rfl
        | delete ls =>
          have e : BinaryDrat.output (.delete ls :: steps) =
              0x64#8 :: (BinaryDrat.writeLits ls ++ BinaryDrat.output steps) := by
            simp [BinaryDrat.output, BinaryDrat.write, ascii]
          rw [e, BinaryFormat.parseLines]
          rw [parseLits_writeLits ls _ _ (by
            simp only [ProofStep.lits] at hlen; simp only [List.length_append]; omega) hs]
          simp only [show ¬ (0x64#8 = 0x61#8) by decide, if_true, if_false, Option.bind_eq_bind,
            Option.bind_some, ih]
          rfl
  refine key steps _ hv ?_
  have : steps.length ≤ (BinaryDrat.output steps).length := by
    clear hv key
    induction steps with
    | nil => simp
    | cons s steps ih =>
      have : 1 ≤ (BinaryDrat.write s).length := by cases s <;> simp [BinaryDrat.write]
      simp only [BinaryDrat.output, List.flatMap_cons, List.length_append, List.length_cons] at *
      omega
  omega

/-- The example of the format description: adding `63 -8193` and deleting `129 -8191`. -/
example : BinaryDrat.output
    [.delete [⟨125#32⟩, ⟨16384#32⟩], .add [⟨257#32⟩, ⟨16380#32⟩]] =
    [0x64#8, 0x7e#8, 0x83#8, 0x80#8, 0x01#8, 0x00#8,
     0x61#8, 0x82#8, 0x02#8, 0xff#8, 0x7f#8, 0x00#8] := by decide +kernel

/-! ## Text format -/

namespace TextFormat

/-- The value of a digit. -/
def digitOf (b : Byte) : Option Nat :=
  if 48 ≤ b.toNat ∧ b.toNat ≤ 57 then some (b.toNat - 48) else none

/-- Digits up to the first other byte; `acc` is the value of the digits before. -/
def parseDigits (acc : Nat) : List Byte → Nat × List Byte
  | [] => (acc, [])
  | b :: bs => match digitOf b with
    | some d => parseDigits (acc * 10 + d) bs
    | none => (acc, b :: bs)

/-- An unsigned number: at least one digit. -/
def parseNat : List Byte → Option (Nat × List Byte)
  | [] => none
  | b :: bs => (digitOf b).map (fun d => parseDigits d bs)

/-- A number with optional minus sign. -/
def parseInt : List Byte → Option (Int × List Byte)
  | [] => none
  | b :: bs =>
    if b = 0x2d#8 then (parseNat bs).map (fun (n, r) => (-(n : Int), r))
    else (parseNat (b :: bs)).map (fun (n, r) => ((n : Int), r))

/-- Numbers separated by single spaces up to a zero followed by a line feed. -/
def parseLits : Nat → List Byte → Option (List Int × List Byte)
  | 0, _ => none
  | fuel + 1, bs => do
    let (n, bs) ← parseInt bs
    if n = 0 then
      match bs with
      | b :: bs => if b = 0x0a#8 then some ([], bs) else none
      | [] => none
    else
      match bs with
      | b :: bs =>
        if b = 0x20#8 then (parseLits fuel bs).map (fun (ls, bs) => (n :: ls, bs)) else none
      | [] => none

/-- Lines up to the end of the file; deletions start with `d` and a space. -/
def parseLines : Nat → List Byte → Option (List DratLine)
  | 0, _ => none
  | _ + 1, [] => some []
  | fuel + 1, b :: bs =>
    if b = 0x64#8 then
      match bs with
      | c :: bs =>
        if c = 0x20#8 then
          (parseLits (bs.length + 1) bs).bind (fun (ls, bs) =>
            (parseLines fuel bs).map (⟨true, ls⟩ :: ·))
        else none
      | [] => none
    else
      (parseLits (bs.length + 2) (b :: bs)).bind (fun (ls, bs) =>
        (parseLines fuel bs).map (⟨false, ls⟩ :: ·))

/-- The parser for a whole file. -/
def parse (bs : List Byte) : Option (List DratLine) := parseLines (bs.length + 1) bs

end TextFormat

open TextFormat in
theorem digitOf_digit (d : Nat) (h : d < 10) : digitOf (BitVec.ofNat 8 (48 + d)) = some d := by
  have : (BitVec.ofNat 8 (48 + d)).toNat = 48 + d := by simp; omega
  unfold digitOf
  rw [this, if_pos (by omega)]
  congr 1; omega

open TextFormat in
theorem parseDigits_digits (fuel n acc : Nat) (rest : List Byte) (h : n < 10 ^ fuel) :
    ∃ k, parseDigits acc (Drat.digits fuel n ++ rest) = parseDigits (acc * 10 ^ k + n) rest ∧
      n < 10 ^ k := by
  induction fuel generalizing n rest with
  | zero => exact ⟨0, by simp at h; simp [Drat.digits, h], by simpa using h⟩
  | succ fuel ih =>
    simp only [Drat.digits]
    by_cases hn : n < 10
    · refine ⟨1, ?_, by simpa using hn⟩
      simp only [hn, if_true, List.nil_append, List.cons_append, parseDigits]
      rw [Nat.mod_eq_of_lt hn, digitOf_digit n hn, Nat.pow_one]
    · have hd : n / 10 < 10 ^ fuel := by
        rw [Nat.div_lt_iff_lt_mul (by decide), ← Nat.pow_succ]; exact h
      obtain ⟨k, e, hk⟩ := ih (n / 10) ([BitVec.ofNat 8 (48 + n % 10)] ++ rest) hd
      refine ⟨k + 1, ?_, ?_⟩
      · simp only [hn, if_false, List.append_assoc]
        rw [e]
        simp only [List.cons_append, List.nil_append, parseDigits,
          digitOf_digit _ (Nat.mod_lt n (by decide))]
        congr 1
        rw [Nat.pow_succ, Nat.add_mul, Nat.mul_assoc]
        omega
      · rw [Nat.pow_succ]
        have : n / 10 < 10 ^ k := hk
        omega

open TextFormat in
/-- The first digit. -/
theorem digits_cons (fuel n : Nat) (h : 0 < fuel) :
    ∃ d ds, Drat.digits fuel n = BitVec.ofNat 8 (48 + d) :: ds ∧ d < 10 := by
  induction fuel generalizing n with
  | zero => omega
  | succ fuel ih =>
    simp only [Drat.digits]
    by_cases hn : n < 10
    · exact ⟨n % 10, [], by simp [hn], Nat.mod_lt _ (by decide)⟩
    · cases fuel with
      | zero => exact ⟨n % 10, [], by simp [Drat.digits], Nat.mod_lt _ (by decide)⟩
      | succ fuel =>
        obtain ⟨d, ds, e, hd⟩ := ih (n / 10) (by omega)
        exact ⟨d, ds ++ [BitVec.ofNat 8 (48 + n % 10)], by simp only [hn, if_false]; rw [e]; rfl, hd⟩

open TextFormat in
theorem parseNat_digits (n : Nat) (rest : List Byte)
    (hrest : ∀ b bs, rest = b :: bs → digitOf b = none) :
    parseNat (Drat.digits (n + 1) n ++ rest) = some (n, rest) := by
  have hlt : n < 10 ^ (n + 1) := by
    have : n + 1 < 10 ^ (n + 1) := Nat.lt_pow_self (by decide)
    omega
  obtain ⟨k, e, _⟩ := parseDigits_digits (n + 1) n 0 rest hlt
  have hstop : ∀ acc, parseDigits acc rest = (acc, rest) := by
    intro acc
    cases rest with
    | nil => rfl
    | cons b bs => simp [parseDigits, hrest b bs rfl]
  rw [hstop] at e
  obtain ⟨d, ds, ed, hd⟩ := digits_cons (n + 1) n (by omega)
  rw [ed] at e ⊢
  simp only [List.cons_append, parseDigits, digitOf_digit d hd, Nat.zero_mul, Nat.zero_add] at e
  simp only [List.cons_append, parseNat, digitOf_digit d hd, Option.map_some, e]

open TextFormat in
theorem parseInt_asciiDigits (n : Int) (rest : List Byte)
    (hrest : ∀ b bs, rest = b :: bs → digitOf b = none) :
    parseInt (Drat.asciiDigits n ++ rest) = some (n, rest) := by
  unfold Drat.asciiDigits
  by_cases hn : n < 0
  · simp only [hn, if_true, List.cons_append, parseInt]
    rw [if_pos (by decide), parseNat_digits _ _ hrest]
    simp only [Option.map_some, Option.some.injEq, Prod.mk.injEq, and_true]
    omega
  · simp only [hn, if_false]
    have := parseNat_digits n.natAbs rest hrest
    obtain ⟨d, ds, ed, hd⟩ := digits_cons (n.natAbs + 1) n.natAbs (by omega)
    rw [ed] at this ⊢
    simp only [List.cons_append] at this ⊢
    simp only [parseInt, this]
    rw [if_neg]
    · simp only [Option.map_some, Option.some.injEq, Prod.mk.injEq, and_true]; omega
    · intro h
      have := congrArg BitVec.toNat h
      simp at this
      omega

theorem dimacs_ne_zero {l : Lit} (h : l.Valid) : l.dimacs ≠ 0 := by
  rw [Lit.dimacs_eq h]; split <;> omega

theorem asciiDigits_ne (n : Int) : ∃ b bs, Drat.asciiDigits n = b :: bs ∧ b ≠ 0x64#8 := by
  unfold Drat.asciiDigits
  obtain ⟨d, ds, ed, hd⟩ := digits_cons (n.natAbs + 1) n.natAbs (by omega)
  by_cases hn : n < 0
  · exact ⟨_, _, by simp only [hn, if_true]; rfl, by decide⟩
  · refine ⟨_, _, by simp only [hn, if_false]; exact ed, ?_⟩
    intro h
    have := congrArg BitVec.toNat h
    simp at this
    omega

open TextFormat in
theorem parseLits_writeClause (ls : List Lit) (rest : List Byte) (fuel : Nat)
    (hf : ls.length < fuel) (hv : ∀ l ∈ ls, l.Valid) :
    TextFormat.parseLits fuel (Drat.writeClause ls ++ rest) = some (ls.map Lit.dimacs, rest) := by
  induction ls generalizing fuel with
  | nil =>
    cases fuel with
    | zero => simp at hf
    | succ fuel =>
      have := parseInt_asciiDigits 0 (0x0a#8 :: rest) (by
        intro b bs h; cases h; decide)
      have e : Drat.writeClause [] ++ rest = Drat.asciiDigits 0 ++ (0x0a#8 :: rest) := rfl
      rw [e, TextFormat.parseLits, this]
      rfl
  | cons l ls ih =>
    cases fuel with
    | zero => simp at hf
    | succ fuel =>
      have hl := hv l (by simp)
      have e : Drat.writeClause (l :: ls) ++ rest =
          Drat.asciiDigits l.dimacs ++ (0x20#8 :: (Drat.writeClause ls ++ rest)) := by
        simp [Drat.writeClause, ascii]
      have := parseInt_asciiDigits l.dimacs (0x20#8 :: (Drat.writeClause ls ++ rest)) (by
        intro b bs h; cases h; decide)
      rw [e, TextFormat.parseLits, this]
      simp only [Option.bind_eq_bind, Option.bind_some, dimacs_ne_zero hl, if_false, if_true]
      rw [ih fuel (by simpa using hf) (fun l h => hv l (by simp [h]))]
      simp

theorem writeClause_length (ls : List Lit) : ls.length + 1 < (Drat.writeClause ls).length := by
  induction ls with
  | nil => simp [Drat.writeClause]
  | cons l ls ih =>
    simp only [Drat.writeClause, List.flatMap_cons, List.length_append, List.length_cons,
      List.append_assoc] at *
    omega

theorem writeClause_cons (ls : List Lit) : ∃ b bs, Drat.writeClause ls = b :: bs ∧ b ≠ 0x64#8 := by
  cases ls with
  | nil => exact ⟨_, _, rfl, by decide⟩
  | cons l ls =>
    obtain ⟨b, bs, e, h⟩ := asciiDigits_ne l.dimacs
    refine ⟨b, bs ++ ([ascii ' '] ++ Drat.writeClause ls), ?_, h⟩
    simp [Drat.writeClause, e]

/-- C26: the text written by `Drat` for any sequence of steps parses to these steps. -/
theorem C26_text_drat (steps : List ProofStep) (hv : ∀ s ∈ steps, ∀ l ∈ s.lits, l.Valid) :
    TextFormat.parse (Drat.output steps) = some (steps.map ProofStep.line) := by
  have key : ∀ (steps : List ProofStep) (fuel : Nat), (∀ s ∈ steps, ∀ l ∈ s.lits, l.Valid) →
      steps.length < fuel →
      TextFormat.parseLines fuel (Drat.output steps) = some (steps.map ProofStep.line) := by
    intro steps
    induction steps with
    | nil =>
      intro fuel _ hf
      cases fuel with
      | zero => simp at hf
      | succ fuel => rfl
    | cons s steps ih =>
      intro fuel hv hf
      cases fuel with
      | zero => simp at hf
      | succ fuel =>
        have ih := ih fuel (fun t h => hv t (by simp [h])) (by simpa using hf)
        have hs := hv s (by simp)
        have hlen := writeClause_length s.lits
        cases s with
        | add ls =>
          obtain ⟨b, bs, ew, hb⟩ := writeClause_cons ls
          have e : Drat.output (.add ls :: steps) = b :: (bs ++ Drat.output steps) := by
            simp [Drat.output, Drat.write, ew]
          have hp := parseLits_writeClause ls (Drat.output steps)
            ((bs ++ Drat.output steps).length + 2) (by
              simp only [ProofStep.lits, ew, List.length_cons] at hlen
              simp only [List.length_append]; omega) hs
          rw [ew, List.cons_append] at hp
          rw [e, TextFormat.parseLines.eq_def]
          simp only [hb, if_false, hp, Option.bind_some, ih]
          rfl
        | delete ls =>
          have e : Drat.output (.delete ls :: steps) =
              0x64#8 :: 0x20#8 :: (Drat.writeClause ls ++ Drat.output steps) := by
            simp [Drat.output, Drat.write, ascii]
          rw [e, TextFormat.parseLines]
          simp only [if_true]
          rw [parseLits_writeClause ls _ _ (by
            simp only [ProofStep.lits] at hlen; simp only [List.length_append]; omega) hs]
          simp only [Option.bind_some, ih]
          rfl
  refine key steps _ hv ?_
  have : steps.length ≤ (Drat.output steps).length := by
    clear hv key
    induction steps with
    | nil => simp
    | cons s steps ih =>
      have : 1 ≤ (Drat.write s).length := by
        cases s with
        | add ls => have := writeClause_length ls; simp only [Drat.write]; omega
        | delete ls => simp [Drat.write]
      simp only [Drat.output, List.flatMap_cons, List.length_append, List.length_cons] at *
      omega
  omega

/-- `d 63 -8193 0` and `129 0`. -/
example : Drat.output [.delete [⟨125#32⟩, ⟨16384#32⟩], .add [⟨257#32⟩]] =
    "d 63 -8193 0\n129 0\n".toList.map ascii := by decide +kernel

end Starlit
