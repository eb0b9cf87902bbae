import Verif.LitApi
import Verif.Props.Words
import Verif.Props.Drat

/-!
# Property C102: safe code only makes literals in the documented range

`/repo/starlit/src/lit.rs:34-38`: "Code in unsafe blocks may assume that a variable's index is
constrained as described above. Hence all safe methods for creating `Var` values check these."
-/

namespace Starlit

open LitApi

/-- The documented range of everything a client program has
(`/repo/starlit/src/lit.rs:26-28, 200`), in numbers. -/
def LitApi.Regs.InRange (r : Regs) : Prop :=
  (∀ v ∈ r.vars, v.index < 2 ^ 30) ∧ (∀ l ∈ r.lits, l.code < 2 ^ 31)

theorem LitApi.Regs.InRange.pushVar {r : Regs} (h : r.InRange) {v : Var} (hv : v.index < 2 ^ 30) :
    (r.pushVar v).InRange := by
  refine ⟨fun w hw => ?_, h.2⟩
  rcases List.mem_append.1 hw with hw | hw
  · exact h.1 w hw
  · rw [List.mem_singleton.1 hw]; exact hv

theorem LitApi.Regs.InRange.pushLit {r : Regs} (h : r.InRange) {l : Lit} (hl : l.code < 2 ^ 31) :
    (r.pushLit l).InRange := by
  refine ⟨h.1, fun w hw => ?_⟩
  rcases List.mem_append.1 hw with hw | hw
  · exact h.2 w hw
  · rw [List.mem_singleton.1 hw]; exact hl

theorem Var.fromIndex_range {i : Nat} {v : Var} (h : Var.fromIndex i = .ok v) :
    v.index < 2 ^ 30 := by
  rw [Var.fromIndex_eq] at h
  split at h
  · next hi =>
    cases h
    rw [Var.fromIndex_index hi]
    rw [MAX_INDEX_eq] at hi; omega
  · cases h

theorem Var.fromDimacs_range {n : Int} {v : Var} (h : Var.fromDimacs n = .ok v) :
    v.index < 2 ^ 30 := by
  unfold Var.fromDimacs at h
  obtain ⟨_, _, h⟩ := bind_eq_ok.1 h
  exact Var.fromIndex_range h

theorem Lit.fromVar_range {v : Var} (h : v.index < 2 ^ 30) (p : Bool) :
    (Lit.fromVar v p).code < 2 ^ 31 := by
  rw [Lit.fromVar_code (by omega)]; cases p <;> simp <;> omega

theorem Lit.fromCode_range {c : Nat} {l : Lit} (h : Lit.fromCode c = .ok l) : l.code < 2 ^ 31 := by
  by_cases hc : c ≤ MAX_CODE
  · obtain ⟨l', e, _, hl⟩ := C24_code_roundtrip.2.1 c hc
    rw [h] at e; cases e
    rw [hl]; rw [MAX_CODE_eq] at hc; omega
  · rw [C24_code_roundtrip.2.2 c (by omega)] at h; cases h

theorem Lit.selectOther_range {l a b : Lit} (hl : l.code < 2 ^ 31) (ha : a.code < 2 ^ 31)
    (hb : b.code < 2 ^ 31) : (l.selectOther a b).code < 2 ^ 31 := by
  simp only [Lit.selectOther, Lit.code, BitVec.toNat_xor] at *
  exact Nat.xor_lt_two_pow (Nat.xor_lt_two_pow hl ha) hb

theorem Lit.neg_range {l : Lit} (hl : l.code < 2 ^ 31) : l.neg.code < 2 ^ 31 := by
  rw [Lit.neg_code]; exact Nat.xor_lt_two_pow hl (by decide)

theorem Lit.var_range {l : Lit} (hl : l.code < 2 ^ 31) : l.var.index < 2 ^ 30 := by
  have := l.index_eq
  change l.var.index = _ at this
  omega

theorem LitApi.step_range {r r' : Regs} {c : Call} (h : r.InRange) (e : step r c = .ok r') :
    r'.InRange := by
  have hv : ∀ {i v}, idx r.vars i = .ok v → v.index < 2 ^ 30 := fun e =>
    h.1 _ (List.mem_of_getElem? (idx_eq_ok.1 e))
  have hl : ∀ {i l}, idx r.lits i = .ok l → l.code < 2 ^ 31 := fun e =>
    h.2 _ (List.mem_of_getElem? (idx_eq_ok.1 e))
  cases c with
  | varFromDimacs n =>
    obtain ⟨v, e1, e⟩ := bind_eq_ok.1 e
    cases e; exact h.pushVar (Var.fromDimacs_range e1)
  | varFromIndex i =>
    obtain ⟨v, e1, e⟩ := bind_eq_ok.1 e
    cases e; exact h.pushVar (Var.fromIndex_range e1)
  | varKey i =>
    obtain ⟨v, e1, e⟩ := bind_eq_ok.1 e
    cases e; exact h.pushVar (Var.fromIndex_range e1)
  | litFromVar v p =>
    obtain ⟨v, e1, e⟩ := bind_eq_ok.1 e
    cases e; exact h.pushLit (Lit.fromVar_range (hv e1) p)
  | litFromIndex i p =>
    obtain ⟨l, e1, e⟩ := bind_eq_ok.1 e
    obtain ⟨v, e2, e1⟩ := bind_eq_ok.1 e1
    cases e1; cases e; exact h.pushLit (Lit.fromVar_range (Var.fromIndex_range e2) p)
  | litFromCode c =>
    obtain ⟨v, e1, e⟩ := bind_eq_ok.1 e
    cases e; exact h.pushLit (Lit.fromCode_range e1)
  | litFromDimacs n =>
    obtain ⟨l, e1, e⟩ := bind_eq_ok.1 e
    obtain ⟨v, e2, e1⟩ := bind_eq_ok.1 e1
    cases e1; cases e; exact h.pushLit (Lit.fromVar_range (Var.fromDimacs_range e2) _)
  | litKey i =>
    obtain ⟨v, e1, e⟩ := bind_eq_ok.1 e
    cases e; exact h.pushLit (Lit.fromCode_range e1)
  | litVar l =>
    obtain ⟨l, e1, e⟩ := bind_eq_ok.1 e
    cases e; exact h.pushVar (Lit.var_range (hl e1))
  | selectOther l a b =>
    obtain ⟨l, e1, e⟩ := bind_eq_ok.1 e
    obtain ⟨a, e2, e⟩ := bind_eq_ok.1 e
    obtain ⟨b, e3, e⟩ := bind_eq_ok.1 e
    cases e; exact h.pushLit (Lit.selectOther_range (hl e1) (hl e2) (hl e3))
  | not l =>
    obtain ⟨l, e1, e⟩ := bind_eq_ok.1 e
    cases e; exact h.pushLit (Lit.neg_range (hl e1))
  | xor l b =>
    obtain ⟨l, e1, e⟩ := bind_eq_ok.1 e
    cases e
    refine h.pushLit ?_
    rw [Lit.xorBool_eq]
    cases b
    · exact hl e1
    · exact Lit.neg_range (hl e1)

/-- Whatever safe functions a program calls, in whatever order and with whatever arguments, all its
variables have an index below `2 ^ 30` and all its literals a code below `2 ^ 31`. -/
theorem C102_safe (cs : List Call) (r : Regs) (e : run ⟨[], []⟩ cs = .ok r) : r.InRange := by
  have key : ∀ (cs : List Call) (r₀ r : Regs), r₀.InRange → run r₀ cs = .ok r → r.InRange := by
    intro cs
    induction cs with
    | nil => intro r₀ r h e; cases e; exact h
    | cons c cs ih =>
      intro r₀ r h e
      obtain ⟨r₁, e1, e⟩ := bind_eq_ok.1 e
      exact ih r₁ r (step_range h e1) e
  exact key cs _ r ⟨by simp, by simp⟩ e

/-- Every variable and literal in the range can be made by such a program: the range is exactly
what safe code makes. -/
theorem C102_all (i : Nat) (hi : i < 2 ^ 30) (p : Bool) :
    ∃ v l, run ⟨[], []⟩ [.varFromIndex i, .litFromVar 0 p] = .ok ⟨[v], [l]⟩ ∧
      v.index = i ∧ l.code = 2 * i + p.toNat := by
  have hi' : i ≤ MAX_INDEX := by rw [MAX_INDEX_eq]; omega
  have ei := Var.fromIndex_index hi'
  refine ⟨⟨BitVec.ofNat 32 i⟩, Lit.fromVar ⟨BitVec.ofNat 32 i⟩ p, ?_, ei, ?_⟩
  · simp only [run, step, Var.fromIndex_eq, if_pos hi']
    rfl
  · rw [Lit.fromVar_code (by omega), ei]

/-- In the range no 32-bit operation loses a bit: the shift of `from_var`, and the addition and the
multiplication of `dimacs`, whose result fits a signed 32-bit number.  One bit of a code is
always free. -/
theorem C102_fits (v : Var) (hv : v.index < 2 ^ 30) (p : Bool) :
    (Lit.fromVar v p).code = 2 * v.index + p.toNat ∧
    (Lit.fromVar v p).code32.msb = false ∧
    (Lit.fromVar v p).var = v ∧
    v.dimacs = v.index + 1 ∧
    (Lit.fromVar v p).dimacs = (if p then (v.index : Int) + 1 else -((v.index : Int) + 1)) ∧
    -(2 ^ 31) ≤ (Lit.fromVar v p).dimacs ∧ (Lit.fromVar v p).dimacs < 2 ^ 31 := by
  have hc := Lit.fromVar_code (v := v) (by omega) p
  have hr := Lit.fromVar_range hv p
  have hi := Lit.fromVar_index (v := v) (by omega) p
  have hp := Lit.fromVar_isPositive (v := v) (by omega) p
  have hval : (Lit.fromVar v p).Valid := by unfold Lit.Valid; rw [MAX_CODE_eq]; omega
  have hd := Lit.dimacs_eq hval
  rw [hi, hp] at hd
  refine ⟨hc, ?_, ?_, ?_, hd, ?_, ?_⟩
  · rw [BitVec.msb_eq_false_iff_two_mul_lt]
    change 2 * (Lit.fromVar v p).code < _
    omega
  · have : (Lit.fromVar v p).var.index = v.index := hi
    cases hw : (Lit.fromVar v p).var with
    | mk w =>
      cases v with
      | mk x =>
        rw [hw] at this
        exact congrArg Var.mk (BitVec.eq_of_toNat_eq this)
  · simp only [Var.dimacs, BitVec.toNat_add, BitVec.toNat_ofNat]
    simp only [Var.index] at hv ⊢
    omega
  · rw [hd]; cases p <;> simp <;> omega
  · rw [hd]; cases p <;> simp <;> omega

/-- The unchecked constructors return what the checked ones do, where those do not panic. -/
theorem C102_unchecked :
    (∀ i v, Var.fromIndex i = .ok v → Var.fromIndexUnchecked i = v) ∧
    (∀ i p l, Lit.fromIndex i p = .ok l → Lit.fromIndexUnchecked i p = l) ∧
    (∀ c l, Lit.fromCode c = .ok l → Lit.fromCodeUnchecked c = l) := by
  refine ⟨?_, ?_, ?_⟩
  · intro i v h
    obtain ⟨_, _, h⟩ := bind_eq_ok.1 h
    cases h; rfl
  · intro i p l h
    obtain ⟨v, h1, h⟩ := bind_eq_ok.1 h
    obtain ⟨_, _, h1⟩ := bind_eq_ok.1 h1
    cases h1; cases h; rfl
  · intro c l h
    obtain ⟨_, _, h⟩ := bind_eq_ok.1 h
    cases h; rfl

/-- Their precondition is needed: one index too many, and the result is not a literal; four times as
many, and it is a literal of another variable. -/
theorem C102_unchecked_false :
    ¬ (Var.fromIndexUnchecked (2 ^ 30)).index < 2 ^ 30 ∧
    ¬ (Lit.fromCodeUnchecked (2 ^ 31)).code < 2 ^ 31 ∧
    (Lit.fromIndexUnchecked (2 ^ 32 + 5) true).index = 5 := by decide

/-- `select_other` with any three literals returns a literal, as documented ("Returns an arbitrary
literal or panics if none of the given literals are equal to this literal"); with the right
arguments the debug build does not panic and returns the other literal. -/
theorem C102_select_other (l a b : Lit) :
    (l.Valid → a.Valid → b.Valid → (l.selectOther a b).Valid) ∧
    (l = a → l.selectOtherDebug a b = .ok b) ∧
    (l = b → l.selectOtherDebug a b = .ok a) ∧
    (l ≠ a → l ≠ b → l.selectOtherDebug a b = .error .panic) := by
  refine ⟨?_, ?_, ?_, ?_⟩
  · unfold Lit.Valid
    rw [MAX_CODE_eq]
    intro h1 h2 h3
    have := Lit.selectOther_range (l := l) (a := a) (b := b) (by omega) (by omega) (by omega)
    omega
  · rintro rfl
    simp [Lit.selectOtherDebug, assertM, Lit.selectOther_left]
    rfl
  · rintro rfl
    simp [Lit.selectOtherDebug, assertM, Lit.selectOther_right]
    rfl
  · intro h1 h2
    simp [Lit.selectOtherDebug, assertM, h1, h2]
    rfl

/-- Literals are ordered by variable first, the negative one before the positive one; equal in the
order means equal. -/
theorem C102_order (a b : Lit) :
    (a.cmp b = .lt ↔ a.var.cmp b.var = .lt ∨ (a.var = b.var ∧ a.isNegative ∧ b.isPositive)) ∧
    (a.cmp b = .eq ↔ a = b) ∧
    (a.cmp b = (b.cmp a).swap) ∧
    (a.var.cmp b.var = .eq ↔ a.var = b.var) := by
  have ha : a.code32.toNat = a.code := rfl
  have hb : b.code32.toNat = b.code := rfl
  have hia : a.var.idx32.toNat = a.code / 2 := a.index_eq
  have hib : b.var.idx32.toNat = b.code / 2 := b.index_eq
  have hv : a.var = b.var ↔ a.code / 2 = b.code / 2 := by
    rw [Lit.var_eq_iff, Lit.index_eq, Lit.index_eq]
  refine ⟨?_, ?_, ?_, ?_⟩
  · rw [hv, Lit.isNegative_eq, Lit.isPositive_eq, Lit.isPositive_eq]
    unfold Lit.cmp Var.cmp
    rw [Nat.compare_eq_lt, Nat.compare_eq_lt, ha, hb, hia, hib]
    simp
    omega
  · unfold Lit.cmp
    rw [Nat.compare_eq_eq, ha, hb]
    exact ⟨Lit.ext_code, fun h => by rw [h]⟩
  · unfold Lit.cmp
    rw [Nat.compare_swap]
  · unfold Var.cmp
    rw [Nat.compare_eq_eq, hia, hib, hv]

/-- The text of a literal in the range is read back as its DIMACS number, from which `from_dimacs`
makes the same literal; so different literals have different texts.  A variable has the text of
its positive literal. -/
theorem C102_text (l : Lit) (hl : l.code < 2 ^ 31) :
    (∃ n, TextFormat.parseInt l.text = some (n, []) ∧ Lit.fromDimacs n = .ok l) ∧
    (∀ m : Lit, m.code < 2 ^ 31 → m.text = l.text → m = l) ∧
    (l.isPositive → l.var.text = l.text) := by
  have key : ∀ l : Lit, l.code < 2 ^ 31 →
      TextFormat.parseInt l.text = some (l.dimacs, []) ∧ Lit.fromDimacs l.dimacs = .ok l := by
    intro l hl
    refine ⟨?_, C24_dimacs_roundtrip.1 l (by unfold Lit.Valid; rw [MAX_CODE_eq]; omega)⟩
    have := parseInt_asciiDigits l.dimacs [] (by intro b bs h; cases h)
    rwa [List.append_nil] at this
  refine ⟨⟨_, key l hl⟩, ?_, ?_⟩
  · intro m hm h
    have h1 := (key m hm).1
    rw [h, (key l hl).1] at h1
    have hd : l.dimacs = m.dimacs := by simpa using h1
    have h2 := (key m hm).2
    rw [← hd, (key l hl).2] at h2
    cases h2; rfl
  · intro h
    simp only [Var.text, Lit.text, Lit.dimacs, h, if_true, Int.mul_one]

/-- A program that ends with the largest variable, both its literals and a literal that
`select_other` made out of three others, and one that panics; texts and the order of the results. -/
theorem C102_example :
    run ⟨[], []⟩ [.litFromDimacs (-(2 ^ 30)), .not 0, .litVar 1, .litFromCode 7, .litKey 2,
      .selectOther 0 2 3] =
      .ok ⟨[⟨1073741823#32⟩], [⟨2147483646#32⟩, ⟨2147483647#32⟩, ⟨7#32⟩, ⟨2#32⟩, ⟨2147483643#32⟩]⟩ ∧
    run ⟨[], []⟩ [.litFromDimacs (-(2 ^ 30)), .varFromDimacs (2 ^ 30 + 1)] = .error .panic ∧
    (⟨2147483646#32⟩ : Lit).text = "-1073741824".toList.map ascii ∧
    (⟨2147483646#32⟩ : Lit).cmp ⟨2147483647#32⟩ = .lt ∧
    (⟨7#32⟩ : Lit).cmp ⟨2#32⟩ = .gt ∧
    (⟨3#32⟩ : Lit).selectOtherDebug ⟨3#32⟩ ⟨8#32⟩ = .ok ⟨8#32⟩ ∧
    (⟨3#32⟩ : Lit).selectOtherDebug ⟨4#32⟩ ⟨8#32⟩ = .error .panic := by decide +kernel

end Starlit
