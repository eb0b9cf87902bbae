import Verif.PartialAssignment
import Verif.Header

/-!
# Properties C21–C24: literals, value bytes and header words
-/

namespace Starlit

/-! ## C24 literal encodings -/

theorem Var.fromIndex_eq (i : Nat) :
    Var.fromIndex i = if i ≤ MAX_INDEX then .ok ⟨BitVec.ofNat 32 i⟩ else .error .panic := by
  unfold Var.fromIndex assertM
  by_cases h : i ≤ MAX_INDEX <;> simp [h] <;> rfl

theorem Var.fromIndex_index {i : Nat} (h : i ≤ MAX_INDEX) :
    (⟨BitVec.ofNat 32 i⟩ : Var).index = i := by
  rw [MAX_INDEX_eq] at h
  simp only [Var.index, BitVec.toNat_ofNat]; omega

theorem Lit.dimacs_eq {l : Lit} (h : l.Valid) :
    l.dimacs = if l.isPositive then (l.index : Int) + 1 else -((l.index : Int) + 1) := by
  have h := valid_iff_index.1 h
  rw [MAX_INDEX_eq] at h
  have e : l.var.dimacs = (l.index : Int) + 1 := by
    simp only [Var.dimacs, BitVec.toNat_add, BitVec.toNat_ofNat]
    show (((l.var.index + 1 % 2 ^ 32) % 2 ^ 32 : Nat) : Int) = _
    change l.var.index ≤ _ at h
    show _ = (l.var.index : Int) + 1
    omega
  rw [Lit.dimacs, e]
  cases l.isPositive <;> simp

/-- `from_code` and `code` are mutually inverse on `0..=MAX_CODE` and `from_code` panics outside. -/
theorem C24_code_roundtrip :
    (∀ l : Lit, l.Valid → Lit.fromCode l.code = .ok l) ∧
    (∀ n : Nat, n ≤ MAX_CODE → ∃ l, Lit.fromCode n = .ok l ∧ l.Valid ∧ l.code = n) ∧
    (∀ n : Nat, MAX_CODE < n → Lit.fromCode n = .error .panic) := by
  have key : ∀ n, n ≤ MAX_CODE → (⟨BitVec.ofNat 32 n⟩ : Lit).code = n := by
    intro n h
    rw [MAX_CODE_eq] at h
    simp only [Lit.code, BitVec.toNat_ofNat]; omega
  have run : ∀ n, n ≤ MAX_CODE → Lit.fromCode n = .ok ⟨BitVec.ofNat 32 n⟩ := by
    intro n h
    simp [Lit.fromCode, assertM, h]; rfl
  refine ⟨?_, ?_, ?_⟩
  · intro l h
    rw [run _ h]
    exact congrArg _ (Lit.ext_code (key _ h))
  · intro n h
    exact ⟨_, run n h, by unfold Lit.Valid; rw [key n h]; exact h, key n h⟩
  · intro n h
    have : ¬ n ≤ MAX_CODE := by omega
    simp [Lit.fromCode, assertM, this]; rfl

/-- `from_index` and (`index`, `is_positive`) are mutually inverse on `0..=MAX_INDEX` and
`from_index` panics outside. -/
theorem C24_index_roundtrip :
    (∀ l : Lit, l.Valid → Lit.fromIndex l.index l.isPositive = .ok l) ∧
    (∀ (i : Nat) (p : Bool), i ≤ MAX_INDEX →
      ∃ l, Lit.fromIndex i p = .ok l ∧ l.Valid ∧ l.index = i ∧ l.isPositive = p ∧
        l.isNegative = !p) ∧
    (∀ (i : Nat) (p : Bool), MAX_INDEX < i → Lit.fromIndex i p = .error .panic) := by
  have run : ∀ i p, i ≤ MAX_INDEX →
      ∃ l, Lit.fromIndex i p = .ok l ∧ l.Valid ∧ l.index = i ∧ l.isPositive = p := by
    intro i p h
    have hv := Var.fromIndex_index h
    have hlt : (⟨BitVec.ofNat 32 i⟩ : Var).index < 2 ^ 31 := by
      rw [hv]; rw [MAX_INDEX_eq] at h; omega
    refine ⟨Lit.fromVar ⟨BitVec.ofNat 32 i⟩ p, ?_, ?_, ?_, Lit.fromVar_isPositive hlt p⟩
    · simp [Lit.fromIndex, Var.fromIndex_eq, h]
    · rw [Lit.valid_iff_index, Lit.fromVar_index hlt, hv]; exact h
    · rw [Lit.fromVar_index hlt, hv]
  refine ⟨?_, ?_, ?_⟩
  · intro l h
    obtain ⟨m, hm, _, hi, hp⟩ := run l.index l.isPositive (Lit.valid_iff_index.1 h)
    rw [hm, Lit.ext_index hi hp]
  · intro i p h
    obtain ⟨m, hm, hv, hi, hp⟩ := run i p h
    exact ⟨m, hm, hv, hi, hp, by rw [Lit.isNegative_eq, hp]⟩
  · intro i p h
    have : ¬ i ≤ MAX_INDEX := by omega
    simp [Lit.fromIndex, Var.fromIndex_eq, this]

/-- `from_dimacs` and `dimacs` are mutually inverse on the non-zero integers of absolute value at
most `MAX_DIMACS`; every other `isize` (zero and `isize::MIN` included) panics. -/
theorem C24_dimacs_roundtrip :
    (∀ l : Lit, l.Valid → Lit.fromDimacs l.dimacs = .ok l) ∧
    (∀ n : Int, n ≠ 0 → -MAX_DIMACS ≤ n → n ≤ MAX_DIMACS →
      ∃ l, Lit.fromDimacs n = .ok l ∧ l.Valid ∧ l.dimacs = n ∧ (l.isPositive = true ↔ 0 < n)) ∧
    (∀ n : Int, -(2 ^ 63) ≤ n → n < 2 ^ 63 → (n = 0 ∨ n < -MAX_DIMACS ∨ MAX_DIMACS < n) →
      Lit.fromDimacs n = .error .panic) := by
  have hM : MAX_DIMACS = 2 ^ 30 := by decide
  have run : ∀ n : Int, n ≠ 0 → -MAX_DIMACS ≤ n → n ≤ MAX_DIMACS →
      ∃ l, Lit.fromDimacs n = .ok l ∧ l.Valid ∧ l.index = n.natAbs - 1 ∧
        l.isPositive = decide (0 < n) := by
    intro n h0 h1 h2
    rw [hM] at h1 h2
    have ha : isizeAbs n = n.natAbs := by
      unfold isizeAbs; rw [if_neg]; omega
    have hi : n.natAbs - 1 ≤ MAX_INDEX := by rw [MAX_INDEX_eq]; omega
    have hv := Var.fromIndex_index hi
    have hlt : (⟨BitVec.ofNat 32 (n.natAbs - 1)⟩ : Var).index < 2 ^ 31 := by
      rw [hv]; rw [MAX_INDEX_eq] at hi; omega
    refine ⟨Lit.fromVar ⟨BitVec.ofNat 32 (n.natAbs - 1)⟩ (decide (0 < n)), ?_, ?_, ?_,
      Lit.fromVar_isPositive hlt _⟩
    · have e1 : ((n.natAbs : Int) - 1).toNat = n.natAbs - 1 := by omega
      have e2 : decide ((0 : Int) < (n.natAbs : Int)) = true := by
        simp only [decide_eq_true_eq]; omega
      simp only [Lit.fromDimacs, Var.fromDimacs, ha, e2, assertM, if_true, bind_pure_ok,
        Var.fromIndex_eq, e1, hi, bind_ok]
      rfl
    · rw [Lit.valid_iff_index, Lit.fromVar_index hlt, hv]; exact hi
    · rw [Lit.fromVar_index hlt, hv]
  refine ⟨?_, ?_, ?_⟩
  · intro l h
    have hi := Lit.valid_iff_index.1 h
    rw [MAX_INDEX_eq] at hi
    have hd := Lit.dimacs_eq h
    have h1 : l.dimacs ≠ 0 ∧ -MAX_DIMACS ≤ l.dimacs ∧ l.dimacs ≤ MAX_DIMACS := by
      rw [hM, hd]; cases l.isPositive <;> simp <;> omega
    obtain ⟨m, hm, _, hmi, hmp⟩ := run _ h1.1 h1.2.1 h1.2.2
    rw [hm]
    refine congrArg _ (Lit.ext_index ?_ ?_)
    · rw [hmi, hd]; cases l.isPositive <;> simp <;> omega
    · rw [hmp, hd]; cases l.isPositive <;> simp <;> omega
  · intro n h0 h1 h2
    obtain ⟨m, hm, hv, hi, hp⟩ := run n h0 h1 h2
    refine ⟨m, hm, hv, ?_, by rw [hp]; simp⟩
    rw [Lit.dimacs_eq hv, hi, hp]
    by_cases h : 0 < n
    · simp only [h, decide_true, if_true]; omega
    · simp only [h, decide_false, Bool.false_eq_true, if_false]; omega
  · intro n h1 h2 h3
    rw [hM] at h3
    unfold Lit.fromDimacs Var.fromDimacs isizeAbs
    by_cases hm : n = -(2 ^ 63)
    · subst hm; decide
    · rw [if_neg hm]
      by_cases h0 : n = 0
      · subst h0; decide
      · have e2 : decide ((0 : Int) < (n.natAbs : Int)) = true := by
          simp only [decide_eq_true_eq]; omega
        have e3 : ¬ ((n.natAbs : Int) - 1).toNat ≤ MAX_INDEX := by rw [MAX_INDEX_eq]; omega
        simp only [e2, assertM, Var.fromIndex_eq, e3, if_true, if_false, bind_pure_ok, bind_error]

/-- Negation is an involution without fixed points, stays in range and keeps the variable while
flipping the sign; `^ b` negates exactly when `b`. -/
theorem C24_negation (l : Lit) :
    l.neg.neg = l ∧ l.neg ≠ l ∧ l.neg.var = l.var ∧ l.neg.isPositive = !l.isPositive ∧
    (l.Valid → l.neg.Valid ∧ l.neg.dimacs = - l.dimacs) ∧
    l.xorBool true = l.neg ∧ l.xorBool false = l := by
  refine ⟨l.neg_neg, l.neg_ne, Lit.var_eq_iff.2 l.index_neg, l.isPositive_neg, ?_, ?_, ?_⟩
  · intro h
    refine ⟨h.neg, ?_⟩
    rw [Lit.dimacs_eq h, Lit.dimacs_eq h.neg, Lit.isPositive_neg, Lit.index_neg]
    cases l.isPositive <;> simp
  · simp [Lit.xorBool_eq]
  · simp [Lit.xorBool_eq]

/-- `lit.select_other(a, b)` returns the one of `a`, `b` that is not `lit`. -/
theorem C24_select_other (l m : Lit) : l.selectOther l m = m ∧ l.selectOther m l = m :=
  ⟨Lit.selectOther_left l m, Lit.selectOther_right l m⟩

/-- Two literals are equal iff variable and sign are. -/
theorem C24_injective (a b : Lit) : a = b ↔ a.var = b.var ∧ a.isPositive = b.isPositive :=
  ⟨fun h => by simp [h], fun h => Lit.ext_index (Lit.var_eq_iff.1 h.1) h.2⟩

example : Lit.fromDimacs (-5) = .ok ⟨8#32⟩ ∧ (⟨8#32⟩ : Lit).dimacs = -5 := by decide
example : Lit.fromDimacs (2 ^ 30 + 1) = .error .panic := by decide
example : (⟨8#32⟩ : Lit).Valid := by decide

/-! ## C23 partial assignments -/

/-- The calls that change a `PartialAssignment`. -/
inductive PaOp where
  | resize (n : Nat)
  | assign (l : Lit)
  | unassign (i : Nat)

/-- Running one call on the model. -/
def PaOp.run (pa : PartialAssignment) : PaOp → M PartialAssignment
  | .resize n => pure (pa.resize n)
  | .assign l => pa.assign l
  | .unassign i => pa.unassign i

/-- Specification: a size and a map from variable indexes to optional Booleans. -/
structure PaSpec where
  size : Nat
  map : Nat → Option Bool

/-- Specification of one call; `none` is a panic. -/
def PaOp.spec (s : PaSpec) : PaOp → Option PaSpec
  | .resize n => some ⟨n, fun i => if i < n then (if i < s.size then s.map i else none) else none⟩
  | .assign l =>
    if l.index < s.size then
      some ⟨s.size, fun i => if i = l.index then some l.isPositive else s.map i⟩ else none
  | .unassign i =>
    if i < s.size then some ⟨s.size, fun j => if j = i then none else s.map j⟩ else none

/-- Running a history on the specification. -/
def PaSpec.runAll : PaSpec → List PaOp → Option PaSpec
  | s, [] => some s
  | s, o :: os => (o.spec s).bind (fun s' => s'.runAll os)

/-- Running a history on the model. -/
def PartialAssignment.runAll : PartialAssignment → List PaOp → M PartialAssignment
  | pa, [] => pure pa
  | pa, o :: os => do
    let pa ← o.run pa
    pa.runAll os

/-- The value of a literal in the specification: the value of its variable, flipped for negative
literals. -/
def PaSpec.lit (s : PaSpec) (l : Lit) : Option Bool :=
  (s.map l.index).map (fun b => b == l.isPositive)

/-- Simulation relation. -/
structure PaSim (pa : PartialAssignment) (s : PaSpec) : Prop where
  wf : pa.WF
  size : pa.assigned.length = s.size
  val : ∀ l : Lit, pa.val l = s.lit l

theorem PaSim.empty : PaSim .empty ⟨0, fun _ => none⟩ :=
  ⟨PartialAssignment.WF_empty, rfl, fun l => by
    simp [PartialAssignment.val, PartialAssignment.empty, PaSpec.lit]⟩

/-- The positive literal of a small index, used to relate indexes to literals. -/
theorem PaSim.step {pa : PartialAssignment} {s : PaSpec} (h : PaSim pa s) (o : PaOp) :
    match o.spec s with
    | some s' => ∃ pa', o.run pa = .ok pa' ∧ PaSim pa' s'
    | none => o.run pa = .error .panic := by
  cases o with
  | resize n =>
    refine ⟨_, rfl, PartialAssignment.WF_resize h.wf n, pa.resize_length n, fun l => ?_⟩
    rw [PartialAssignment.val_resize, h.val]
    simp only [PaSpec.lit]
    by_cases h1 : l.index < n <;> simp only [h1, if_true, if_false, Option.map_none]
    by_cases h2 : l.index < s.size
    · simp [h2]
    · have := h.val l
      have hn : pa.assigned[l.index]? = none := by simp [h.size]; omega
      simp only [PartialAssignment.val, hn, PaSpec.lit] at this
      simp [h2, ← this]
  | assign l =>
    simp only [PaOp.spec]
    by_cases h1 : l.index < s.size
    · simp only [h1, if_true]
      refine ⟨⟨pa.assigned.set l.index l.code8⟩, ?_, PartialAssignment.WF_assign h.wf,
        by simp [h.size], fun m => ?_⟩
      · simp [PaOp.run, PartialAssignment.assign, upd_ok, h.size, h1]
      · rw [PartialAssignment.val_assign (by rw [h.size]; exact h1), h.val]
        simp only [PaSpec.lit]
        by_cases hm : m.index = l.index
        · rcases Lit.eq_or_eq_neg hm with rfl | rfl
          · simp
          · simp only [Lit.neg_ne, if_false, if_true, Lit.index_neg, Lit.isPositive_neg]
            cases l.isPositive <;> rfl
        · have h2 : m ≠ l := fun e => hm (by rw [e])
          have h3 : m ≠ l.neg := fun e => hm (by rw [e]; simp)
          simp [h2, h3, hm]
    · simp only [h1, if_false]
      simp [PaOp.run, PartialAssignment.assign, upd, h.size, h1, throw_eq]
  | unassign i =>
    simp only [PaOp.spec]
    by_cases h1 : i < s.size
    · simp only [h1, if_true]
      refine ⟨⟨pa.assigned.set i (unassignedByte i)⟩, ?_, PartialAssignment.WF_unassign h.wf,
        by simp [h.size], fun m => ?_⟩
      · simp [PaOp.run, PartialAssignment.unassign, upd_ok, h.size, h1]
      · rw [PartialAssignment.val_unassign, h.val]
        simp only [PaSpec.lit]
        by_cases hm : m.index = i <;> simp [hm]
    · simp only [h1, if_false]
      simp [PaOp.run, PartialAssignment.unassign, upd, h.size, h1, throw_eq]

theorem PaSim.runAll {pa : PartialAssignment} {s : PaSpec} (h : PaSim pa s) (os : List PaOp) :
    match s.runAll os with
    | some s' => ∃ pa', pa.runAll os = .ok pa' ∧ PaSim pa' s'
    | none => pa.runAll os = .error .panic := by
  induction os generalizing pa s with
  | nil => exact ⟨pa, rfl, h⟩
  | cons o os ih =>
    have := h.step o
    simp only [PaSpec.runAll, PartialAssignment.runAll]
    cases ho : o.spec s with
    | none => rw [ho] at this; simp only at this; rw [this]; rfl
    | some s' =>
      rw [ho] at this
      obtain ⟨pa', hr, hs⟩ := this
      rw [hr]
      exact ih hs

/-- After any history of `resize`, `assign` and `unassign` (starting from the empty assignment) the
model panics exactly when the specification does, and otherwise `value`, `is_true`, `is_false` and
`is_assigned` agree with the map for every literal in range and panic for every other literal. -/
theorem C23_refines_map (os : List PaOp) :
    match (⟨0, fun _ => none⟩ : PaSpec).runAll os with
    | none => PartialAssignment.empty.runAll os = .error .panic
    | some s => ∃ pa, PartialAssignment.empty.runAll os = .ok pa ∧ ∀ l : Lit,
        (l.index < s.size →
          pa.value l = .ok (s.lit l) ∧
          pa.isTrue l = .ok (s.lit l == some true) ∧
          pa.isFalse l = .ok (s.lit l == some false) ∧
          pa.isAssigned l.index = .ok (s.map l.index).isSome ∧
          pa.value l.neg = .ok ((s.lit l).map (!·))) ∧
        (s.size ≤ l.index → pa.value l = .error .panic ∧ pa.isTrue l = .error .panic ∧
          pa.isFalse l = .error .panic ∧ pa.isAssigned l.index = .error .panic) := by
  have := PaSim.empty.runAll os
  revert this
  cases (⟨0, fun _ => none⟩ : PaSpec).runAll os with
  | none => exact fun h => h
  | some s =>
    rintro ⟨pa, hr, hs⟩
    refine ⟨pa, hr, fun l => ⟨fun hl => ?_, fun hl => ?_⟩⟩
    · have hl' : l.index < pa.assigned.length := by rw [hs.size]; exact hl
      refine ⟨?_, ?_, ?_, ?_, ?_⟩
      · rw [PartialAssignment.value_eq hl', hs.val]
      · rw [PartialAssignment.isTrue_eq hl', hs.val]
      · rw [PartialAssignment.isFalse_eq hl', hs.val]
      · rw [PartialAssignment.isAssigned_eq hs.wf hl', hs.val]; simp [PaSpec.lit]
      · rw [PartialAssignment.value_eq (by simpa using hl'), PartialAssignment.val_neg hs.wf, hs.val]
    · have hn : pa.assigned[l.index]? = none := by simp [hs.size]; omega
      simp [PartialAssignment.value, PartialAssignment.isTrue, PartialAssignment.isFalse,
        PartialAssignment.isAssigned, idx, hn, throw_eq]

/-- A non-trivial history: variable 200 is beyond the seven bits kept by the byte encoding. -/
example : (PartialAssignment.empty.runAll
    [.resize 300, .assign ⟨401#32⟩, .assign ⟨10#32⟩, .unassign 5, .resize 250]
    |>.bind (fun pa => pa.value ⟨400#32⟩)) = .ok (some false) := by decide +kernel

/-! ## C21 header fields -/

/-- The observable content of a header. -/
structure HeaderView where
  redundant : Bool
  prot : Bool
  glue : Nat
  used : Nat
  searchPos : Nat
deriving DecidableEq, Repr

/-- What the getters return. -/
def LongHeader.view (h : LongHeader) : HeaderView :=
  ⟨h.redundant, h.prot, h.glue, h.used, h.searchPos⟩

/-- Each setter changes exactly its own field; `glue` and `used` saturate at 63 and 3; the top bit of
both words stays unset (values are below `2^32`, respectively below `2^31` for the search position,
as otherwise the casts truncate). -/
theorem C21_header_fields (h : LongHeader) :
    (∀ v, (h.setRedundant v).view = { h.view with redundant := v }) ∧
    (∀ v, (h.setProt v).view = { h.view with prot := v }) ∧
    (∀ g, g < 2 ^ 32 → (h.setGlue g).view = { h.view with glue := min g 63 }) ∧
    (∀ u, u < 2 ^ 32 → (h.setUsed u).view = { h.view with used := min u 3 }) ∧
    (∀ p, p < 2 ^ 31 → (h.setSearchPos p).view = { h.view with searchPos := p }) ∧
    (h.WF → (∀ v, (h.setRedundant v).WF) ∧ (∀ v, (h.setProt v).WF) ∧ (∀ g, (h.setGlue g).WF) ∧
      (∀ u, (h.setUsed u).WF) ∧ (∀ p, (h.setSearchPos p).WF)) := by
  refine ⟨?_, ?_, ?_, ?_, ?_, ?_⟩
  · intro v
    simp only [LongHeader.view, LongHeader.setRedundant, LongHeader.redundant, LongHeader.prot,
      LongHeader.glue, LongHeader.used, LongHeader.searchPos, HeaderWord.bit_eq]
    have e := HeaderWord.getLsbD_setBit (b := REDUNDANT_BIT) (by decide) h.w0 v
    have e1 : HeaderWord.field GLUE_START GLUE_WIDTH (HeaderWord.setBit REDUNDANT_BIT h.w0 v) =
        HeaderWord.field GLUE_START GLUE_WIDTH h.w0 :=
      HeaderWord.field_congr (by decide) (fun i hi _ => by
        rw [e, if_neg]; rintro rfl; revert hi; decide)
    have e2 : HeaderWord.field USED_START USED_WIDTH (HeaderWord.setBit REDUNDANT_BIT h.w0 v) =
        HeaderWord.field USED_START USED_WIDTH h.w0 :=
      HeaderWord.field_congr (by decide) (fun i hi _ => by
        rw [e, if_neg]; rintro rfl; revert hi; decide)
    rw [e1, e2, e, e, if_pos rfl, if_neg (by decide)]
  · intro v
    simp only [LongHeader.view, LongHeader.setProt, LongHeader.redundant, LongHeader.prot,
      LongHeader.glue, LongHeader.used, LongHeader.searchPos, HeaderWord.bit_eq]
    have e := HeaderWord.getLsbD_setBit (b := PROTECTED_BIT) (by decide) h.w0 v
    have e1 : HeaderWord.field GLUE_START GLUE_WIDTH (HeaderWord.setBit PROTECTED_BIT h.w0 v) =
        HeaderWord.field GLUE_START GLUE_WIDTH h.w0 :=
      HeaderWord.field_congr (by decide) (fun i hi _ => by
        rw [e, if_neg]; rintro rfl; revert hi; decide)
    have e2 : HeaderWord.field USED_START USED_WIDTH (HeaderWord.setBit PROTECTED_BIT h.w0 v) =
        HeaderWord.field USED_START USED_WIDTH h.w0 :=
      HeaderWord.field_congr (by decide) (fun i hi _ => by
        rw [e, if_neg]; rintro rfl; revert hi; decide)
    rw [e1, e2, e, e, if_pos rfl, if_neg (by decide)]
  · intro g hg
    simp only [LongHeader.view, LongHeader.setGlue, LongHeader.redundant, LongHeader.prot,
      LongHeader.glue, LongHeader.used, LongHeader.searchPos, HeaderWord.bit_eq]
    have e := HeaderWord.getLsbD_setField (s := GLUE_START) (w := GLUE_WIDTH) (by decide) h.w0
      (BitVec.ofNat 32 g)
    have e1 := HeaderWord.field_setField (s := GLUE_START) (w := GLUE_WIDTH) (by decide) h.w0
      (BitVec.ofNat 32 g)
    have e2 : HeaderWord.field USED_START USED_WIDTH
        (HeaderWord.setField GLUE_START GLUE_WIDTH h.w0 (BitVec.ofNat 32 g)) =
        HeaderWord.field USED_START USED_WIDTH h.w0 :=
      HeaderWord.field_congr (by decide) (fun i hi _ => by
        rw [e, if_neg]; simp only [USED_START] at hi; omega)
    rw [e1, e2, e, e, if_neg (by decide), if_neg (by decide), BitVec.toNat_ofNat,
      Nat.mod_eq_of_lt hg]
    rfl
  · intro u hu
    simp only [LongHeader.view, LongHeader.setUsed, LongHeader.redundant, LongHeader.prot,
      LongHeader.glue, LongHeader.used, LongHeader.searchPos, HeaderWord.bit_eq]
    have e := HeaderWord.getLsbD_setField (s := USED_START) (w := USED_WIDTH) (by decide) h.w0
      (BitVec.ofNat 32 u)
    have e1 := HeaderWord.field_setField (s := USED_START) (w := USED_WIDTH) (by decide) h.w0
      (BitVec.ofNat 32 u)
    have e2 : HeaderWord.field GLUE_START GLUE_WIDTH
        (HeaderWord.setField USED_START USED_WIDTH h.w0 (BitVec.ofNat 32 u)) =
        HeaderWord.field GLUE_START GLUE_WIDTH h.w0 :=
      HeaderWord.field_congr (by decide) (fun i _ hi => by
        rw [e, if_neg]; simp only [USED_START]; omega)
    rw [e1, e2, e, e, if_neg (by decide), if_neg (by decide), BitVec.toNat_ofNat,
      Nat.mod_eq_of_lt hu]
    rfl
  · intro p hp
    simp only [LongHeader.view, LongHeader.setSearchPos, LongHeader.redundant, LongHeader.prot,
      LongHeader.glue, LongHeader.used, LongHeader.searchPos, HeaderWord.new_toNat,
      BitVec.toNat_ofNat]
    rw [Nat.mod_eq_of_lt (show p < 2 ^ 32 by omega), Nat.mod_eq_of_lt hp]
  · rintro ⟨h0, h1⟩
    refine ⟨fun v => ⟨?_, h1⟩, fun v => ⟨?_, h1⟩, fun g => ⟨?_, h1⟩, fun u => ⟨?_, h1⟩,
      fun p => ⟨h0, ?_⟩⟩
    all_goals rw [HeaderWord.lt_iff_msb] at h0
    · simp only [LongHeader.setRedundant, HeaderWord.lt_iff_msb]
      rw [HeaderWord.getLsbD_setBit (by decide), if_neg (by decide), h0]
    · simp only [LongHeader.setProt, HeaderWord.lt_iff_msb]
      rw [HeaderWord.getLsbD_setBit (by decide), if_neg (by decide), h0]
    · simp only [LongHeader.setGlue, HeaderWord.lt_iff_msb]
      rw [HeaderWord.getLsbD_setField (by decide), if_neg (by decide), h0]
    · simp only [LongHeader.setUsed, HeaderWord.lt_iff_msb]
      rw [HeaderWord.getLsbD_setField (by decide), if_neg (by decide), h0]
    · simp only [LongHeader.setSearchPos, HeaderWord.new_toNat]
      exact Nat.mod_lt _ (by decide)

/-- New headers: input clauses have all fields zero; learned clauses are redundant and used once. -/
theorem C21_new_headers :
    LongHeader.newInputClause.view = ⟨false, false, 0, 0, 0⟩ ∧
    LongHeader.newLearnedClause.view = ⟨true, false, 0, 1, 0⟩ ∧
    LongHeader.newInputClause.WF ∧ LongHeader.newLearnedClause.WF := by
  refine ⟨by decide, by decide, ?_, ?_⟩ <;> constructor <;> decide

example : (((LongHeader.newLearnedClause.setGlue 100).setSearchPos 7).setProt true).view =
    ⟨true, true, 63, 1, 7⟩ := by decide

/-! ## C22 shrinking and the search position -/

/-- A search position is valid for a clause of length `len` if it addresses one of the literals
after the two watched ones; it counts from the third literal. -/
def SearchPosValid (pos len : Nat) : Prop := pos + 2 < len

instance (p l : Nat) : Decidable (SearchPosValid p l) := inferInstanceAs (Decidable (_ < _))

/-- C22 is false for the code: with five literals and search position 2, shrinking to four
literals keeps position 2, which addresses the fifth literal. -/
theorem C22_false : ∃ (h : LongHeader) (oldLen newLen : Nat), h.WF ∧ 3 ≤ newLen ∧ newLen ≤ oldLen ∧
    SearchPosValid h.searchPos oldLen ∧ ¬ SearchPosValid (h.shrinkClause oldLen newLen).searchPos newLen :=
  ⟨LongHeader.default.setSearchPos 2, 5, 4, by constructor <;> decide, by decide, by decide,
    by decide, by decide⟩

/-- What does hold: the position after shrinking is valid when it was either valid for the new
length already, or at least the new length.  Missing for the full C22: positions in
`[newLen - 2, newLen)`, where the claim is false (`C22_false`). -/
theorem C22_shrink_search_pos_partial (h : LongHeader) (oldLen newLen : Nat) (hn : 3 ≤ newLen) :
    SearchPosValid (h.shrinkClause oldLen newLen).searchPos newLen ↔
      (SearchPosValid h.searchPos newLen ∨ newLen ≤ h.searchPos) := by
  have h0 : (h.setSearchPos 0).searchPos = 0 := rfl
  unfold LongHeader.shrinkClause SearchPosValid
  by_cases hc : h.searchPos ≥ newLen
  · rw [if_pos hc, h0]; omega
  · rw [if_neg hc]; omega

example : SearchPosValid ((LongHeader.default.setSearchPos 7).shrinkClause 10 4).searchPos 4 := by
  decide

end Starlit
