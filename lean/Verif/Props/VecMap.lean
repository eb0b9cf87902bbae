import Verif.VecMap

/-!
# C57: the keys of a `VecMap`

The iterator over the keys of a `VecMap` behaves, under every sequence of calls at both ends, like
a double ended queue that contains the keys of the map in the order of their values.
-/

namespace Starlit

/-- One call to the iterator over the keys. -/
inductive KeyCall where
  | next
  | nextBack
  | nth (n : Nat)
  | nthBack (n : Nat)
deriving DecidableEq, Repr

/-- What one call does to a double ended queue: the returned item and the rest. -/
def KeyCall.spec {K : Type} : KeyCall → List K → Option K × List K
  | .next, q => (q.head?, q.tail)
  | .nextBack, q => (q.getLast?, q.dropLast)
  | .nth n, q => ((q.drop n).head?, (q.drop n).tail)
  | .nthBack n, q => ((q.take (q.length - n)).getLast?, (q.take (q.length - n)).dropLast)

/-- The results of a sequence of calls to a double ended queue, and what remains in it. -/
def specCalls {K : Type} : List KeyCall → List K → List (Option K) × List K
  | [], q => ([], q)
  | c :: cs, q =>
    let r := c.spec q
    let rs := specCalls cs r.2
    (r.1 :: rs.1, rs.2)

/-- One call to the iterator of the program. -/
def KeyCall.run {K : Type} [VecMapKey K] (it : VecMapKeys K) :
    KeyCall → M (Option K × VecMapKeys K)
  | .next => it.next
  | .nextBack => it.nextBack
  | .nth n => it.nth n
  | .nthBack n => it.nthBack n

/-- A sequence of calls to the iterator of the program. -/
def runCalls {K : Type} [VecMapKey K] :
    List KeyCall → VecMapKeys K → M (List (Option K) × VecMapKeys K)
  | [], it => pure ([], it)
  | c :: cs, it => do
    let r ← c.run it
    let rs ← runCalls cs r.2
    pure (r.1 :: rs.1, rs.2)

/-- `ks` lists the keys of a map with `ks.length` values: every key is created for its position
without a panic, and leads back to this position. -/
def KeyList {K : Type} [VecMapKey K] (ks : List K) : Prop :=
  ∀ i k, ks[i]? = some k → VecMapKey.fromIndex i = .ok k ∧ VecMapKey.index k = i

namespace VecMapC57

variable {K : Type} [VecMapKey K]

/-- The iterator state `it` stands for the queue `q`, a segment of all keys. -/
def Rep (ks : List K) (it : VecMapKeys K) (q : List K) : Prop :=
  it.inner.start ≤ it.inner.stop ∧ it.inner.stop ≤ ks.length ∧
    q = (ks.take it.inner.stop).drop it.inner.start

theorem mapKey_ok {ks : List K} (hk : KeyList ks) {i : Nat} (hi : i < ks.length) :
    (mapKey (some i) : M (Option K)) = .ok ks[i]? := by
  have h := (hk i ks[i] (by simp [hi])).1
  simp [mapKey, h, hi]

theorem step {ks : List K} (hk : KeyList ks) {it : VecMapKeys K} {q : List K} (h : Rep ks it q)
    (c : KeyCall) :
    ∃ it', c.run it = .ok ((c.spec q).1, it') ∧ Rep ks it' (c.spec q).2 := by
  obtain ⟨⟨a, b⟩⟩ := it
  obtain ⟨h1, h2, rfl⟩ := h
  simp only at h1 h2
  cases c with
  | next =>
    by_cases hlt : a < b
    · refine ⟨⟨⟨a + 1, b⟩⟩, ?_, by simp; omega, h2, by simp [KeyCall.spec]⟩
      simp only [KeyCall.run, VecMapKeys.next, Range.next, hlt, if_true,
        mapKey_ok hk (show a < ks.length by omega), KeyCall.spec, bind_ok, pure_eq]
      simp [List.head?_drop, hlt]
    · refine ⟨⟨⟨a, b⟩⟩, ?_, h1, h2, ?_⟩
      · simp only [KeyCall.run, VecMapKeys.next, Range.next, hlt, if_false, mapKey,
          KeyCall.spec, bind_ok, pure_eq]
        simp [List.head?_drop, List.getElem?_take, hlt]
      · have : a = b := by omega
        subst this
        simp [KeyCall.spec]
  | nth n =>
    by_cases hlt : a + n < b
    · refine ⟨⟨⟨a + n + 1, b⟩⟩, ?_, by simp; omega, h2, by
        simp [KeyCall.spec, List.drop_drop, Nat.add_assoc]⟩
      simp only [KeyCall.run, VecMapKeys.nth, Range.nth, hlt, if_true,
        mapKey_ok hk (show a + n < ks.length by omega), KeyCall.spec, bind_ok, pure_eq]
      simp [List.head?_drop, hlt]
    · refine ⟨⟨⟨b, b⟩⟩, ?_, Nat.le_refl _, h2, ?_⟩
      · simp only [KeyCall.run, VecMapKeys.nth, Range.nth, hlt, if_false, mapKey,
          KeyCall.spec, bind_ok, pure_eq]
        simp [List.head?_drop, List.getElem?_take, hlt]
      · simp only [KeyCall.spec, List.drop_drop, List.tail_drop]
        rw [List.drop_eq_nil_of_le (by simp; omega), List.drop_eq_nil_of_le (by simp; omega)]
  | nextBack =>
    by_cases hlt : a < b
    · refine ⟨⟨⟨a, b - 1⟩⟩, ?_, by simp; omega, by simp; omega, ?_⟩
      · simp only [KeyCall.run, VecMapKeys.nextBack, Range.nextBack, hlt, if_true,
          mapKey_ok hk (show b - 1 < ks.length by omega), KeyCall.spec, bind_ok, pure_eq]
        have e : (ks.take b).length = b := by simp; omega
        rw [List.getLast?_drop, List.getLast?_take]
        have : ¬ b ≤ a := by omega
        have h0 : b ≠ 0 := by omega
        simp [this, h0, show min b ks.length = b by omega,
          List.getElem?_eq_getElem (show b - 1 < ks.length by omega)]
      · simp only [KeyCall.spec]
        rw [List.dropLast_eq_take, List.length_drop, List.take_drop, List.take_take]
        congr 2
        simp; omega
    · have : a = b := by omega
      subst this
      refine ⟨⟨⟨a, a⟩⟩, ?_, h1, h2, by simp [KeyCall.spec]⟩
      simp [KeyCall.run, VecMapKeys.nextBack, Range.nextBack, mapKey, KeyCall.spec, pure_eq]
  | nthBack n =>
    by_cases hlt : n ≤ b ∧ a < b - n
    · refine ⟨⟨⟨a, b - n - 1⟩⟩, ?_, by simp; omega, by simp; omega, ?_⟩
      · simp only [KeyCall.run, VecMapKeys.nthBack, Range.nthBack, hlt, if_true, and_self,
          mapKey_ok hk (show b - n - 1 < ks.length by omega), KeyCall.spec, bind_ok, pure_eq]
        have e : ((ks.take b).drop a).length = b - a := by simp; omega
        rw [e, List.take_drop, List.take_take, show a + (b - a - n) = b - n by omega,
          show min (b - n) b = b - n by omega, List.getLast?_drop, List.getLast?_take]
        have : ¬ b - n ≤ a := by omega
        have h0 : b - n ≠ 0 := by omega
        simp [this, h0, show min (b - n) ks.length = b - n by omega,
          List.getElem?_eq_getElem (show b - n - 1 < ks.length by omega)]
      · simp only [KeyCall.spec]
        have e : ((ks.take b).drop a).length = b - a := by simp; omega
        rw [e, List.dropLast_eq_take, List.take_take, List.take_drop, List.take_take]
        congr 2
        simp; omega
    · have e : ((ks.take b).drop a).length = b - a := by simp; omega
      have e0 : b - a - n = 0 := by omega
      refine ⟨⟨⟨a, a⟩⟩, ?_, Nat.le_refl _, by simp; omega, ?_⟩
      · simp only [KeyCall.run, VecMapKeys.nthBack, Range.nthBack, hlt, if_false, mapKey,
          KeyCall.spec, bind_ok, pure_eq]
        rw [e, e0]
        simp
      · simp only [KeyCall.spec]
        rw [e, e0]
        simp

theorem steps {ks : List K} (hk : KeyList ks) (cs : List KeyCall) :
    ∀ {it : VecMapKeys K} {q : List K}, Rep ks it q →
      ∃ it', runCalls cs it = .ok ((specCalls cs q).1, it') ∧ Rep ks it' (specCalls cs q).2 := by
  induction cs with
  | nil => intro it q h; exact ⟨it, rfl, h⟩
  | cons c cs ih =>
    intro it q h
    obtain ⟨it1, e1, h1⟩ := step hk h c
    obtain ⟨it2, e2, h2⟩ := ih h1
    exact ⟨it2, by simp [runCalls, e1, e2, specCalls], h2⟩

theorem last_len {ks : List K} (hk : KeyList ks) {it : VecMapKeys K} {q : List K}
    (h : Rep ks it q) : it.last = .ok q.getLast? ∧ it.len = q.length := by
  constructor
  · obtain ⟨it', e, _⟩ := step hk h .nextBack
    simp only [KeyCall.run, VecMapKeys.nextBack, KeyCall.spec] at e
    obtain ⟨k, e1, e2⟩ := bind_eq_ok.1 e
    rw [VecMapKeys.last, Range.last, e1]
    cases e2
    rfl
  · obtain ⟨h1, h2, rfl⟩ := h
    simp only [VecMapKeys.len, Range.len]
    simp
    split <;> omega

end VecMapC57

/-- The iterator over the keys of a map behaves like a double ended queue of all keys, whatever
calls are made in whatever order, and no call panics.  In every state `last` and `len` (which is
also `count` and `size_hint`) tell the truth about the remaining keys. -/
theorem C57_keys {K V : Type} [VecMapKey K] (vals : List V) (ks : List K)
    (hlen : ks.length = vals.length) (hk : KeyList ks) (cs : List KeyCall) :
    ∃ it, runCalls cs (VecMap.keys K vals) = .ok ((specCalls cs ks).1, it) ∧
      it.last = .ok (specCalls cs ks).2.getLast? ∧ it.len = (specCalls cs ks).2.length := by
  obtain ⟨it, e, h⟩ := VecMapC57.steps hk cs (it := VecMap.keys K vals) (q := ks)
    ⟨Nat.zero_le _, by simp [VecMap.keys, hlen], by simp [VecMap.keys, ← hlen]⟩
  exact ⟨it, e, VecMapC57.last_len hk h⟩

/-- Looking up all keys in order gives all values in order; a write through the key at one position
changes the value at this position only. -/
theorem C57_lookup {K V : Type} [VecMapKey K] (vals : List V) (ks : List K)
    (hlen : ks.length = vals.length) (hk : KeyList ks) :
    ks.mapM (fun k => VecMap.get vals k) = .ok vals ∧
    ∀ i k x, ks[i]? = some k → VecMap.set vals k x = .ok (vals.set i x) := by
  constructor
  · have key : ∀ m, ∀ l : List K, l = ks.drop m → l.mapM (fun k => VecMap.get vals k)
        = (.ok (vals.drop m) : M (List V)) := by
      intro m l
      induction l generalizing m with
      | nil =>
        intro h
        have : ks.length ≤ m := List.drop_eq_nil_iff.1 h.symm
        rw [List.drop_eq_nil_of_le (by omega)]
        rfl
      | cons k l ih =>
        intro h
        have hm : m < ks.length := by
          rcases Nat.lt_or_ge m ks.length with h' | h'
          · exact h'
          · rw [List.drop_eq_nil_of_le h'] at h; cases h
        rw [List.drop_eq_getElem_cons hm] at h
        injection h with hk' hl
        subst hk'
        have hm' : m < vals.length := by omega
        have e : VecMapKey.index ks[m] = m := (hk m ks[m] (by simp [hm])).2
        rw [List.mapM_cons, ih (m + 1) hl, List.drop_eq_getElem_cons hm']
        simp [VecMap.get, e, idx, hm']
    exact key 0 ks rfl
  · intro i k x h
    have hi : i < vals.length := by
      have := (List.getElem?_eq_some_iff.1 h).1
      omega
    simp [VecMap.set, (hk i k h).2, upd, hi, pure_eq]

/-- A valid key is created from its own index: the contract of `vec_map_key_from_index`. -/
theorem C57_roundtrip :
    (∀ v : Var, v.Valid → (VecMapKey.fromIndex (VecMapKey.index v) : M Var) = .ok v) ∧
    (∀ l : Lit, l.code ≤ MAX_CODE → (VecMapKey.fromIndex (VecMapKey.index l) : M Lit) = .ok l) ∧
    (∀ d : DecisionLevel32,
      (VecMapKey.fromIndex (VecMapKey.index d) : M DecisionLevel32) = .ok d) ∧
    (∀ t : TrailIndex32, (VecMapKey.fromIndex (VecMapKey.index t) : M TrailIndex32) = .ok t) ∧
    (∀ i : Nat, (VecMapKey.fromIndex (VecMapKey.index i) : M Nat) = .ok i) := by
  refine ⟨?_, ?_, ?_, ?_, ?_⟩
  · intro v hv
    have : v.index ≤ MAX_INDEX := hv
    simp [VecMapKey.fromIndex, VecMapKey.index, Var.fromIndex, assertM, this]
    simp [Var.index, pure_eq]
  · intro l hl
    simp [VecMapKey.fromIndex, VecMapKey.index, Lit.fromCode, assertM, hl]
    simp [Lit.code, pure_eq]
  · intro d; simp [VecMapKey.fromIndex, VecMapKey.index, pure_eq]
  · intro d; simp [VecMapKey.fromIndex, VecMapKey.index, pure_eq]
  · intro d; rfl

private theorem keyList_of {K : Type} [VecMapKey K] {n : Nat} (f : Nat → K)
    (h : ∀ i, i < n → VecMapKey.fromIndex i = .ok (f i) ∧ VecMapKey.index (f i) = i) :
    ∃ ks : List K, ks.length = n ∧ KeyList ks := by
  refine ⟨(List.range n).map f, by simp, ?_⟩
  intro i k hk
  obtain ⟨hi, rfl⟩ := List.getElem?_eq_some_iff.1 hk
  simp at hi
  simpa using h i hi

/-- Maps with every key type of the solver have a list of keys, up to the largest index of the key
type. -/
theorem C57_key_types (n : Nat) :
    (n ≤ MAX_INDEX + 1 → ∃ ks : List Var, ks.length = n ∧ KeyList ks) ∧
    (n ≤ MAX_CODE + 1 → ∃ ks : List Lit, ks.length = n ∧ KeyList ks) ∧
    (n ≤ 2 ^ 32 → ∃ ks : List DecisionLevel32, ks.length = n ∧ KeyList ks) ∧
    (n ≤ 2 ^ 32 → ∃ ks : List TrailIndex32, ks.length = n ∧ KeyList ks) ∧
    (∃ ks : List Nat, ks.length = n ∧ KeyList ks) := by
  have hI := MAX_INDEX_eq
  have hC := MAX_CODE_eq
  refine ⟨fun h => ?_, fun h => ?_, fun h => ?_, fun h => ?_, ?_⟩
  · refine keyList_of (fun i => ⟨BitVec.ofNat 32 i⟩) fun i hi => ⟨?_, ?_⟩
    · have : i ≤ MAX_INDEX := by omega
      simp [VecMapKey.fromIndex, Var.fromIndex, assertM, this, pure_eq]
    · simp [VecMapKey.index, Var.index]; omega
  · refine keyList_of (fun i => ⟨BitVec.ofNat 32 i⟩) fun i hi => ⟨?_, ?_⟩
    · have : i ≤ MAX_CODE := by omega
      simp [VecMapKey.fromIndex, Lit.fromCode, assertM, this, pure_eq]
    · simp [VecMapKey.index, Lit.code]; omega
  · refine keyList_of (fun i => ⟨BitVec.ofNat 32 i⟩) fun i hi => ⟨rfl, ?_⟩
    simp [VecMapKey.index]; omega
  · refine keyList_of (fun i => ⟨BitVec.ofNat 32 i⟩) fun i hi => ⟨rfl, ?_⟩
    simp [VecMapKey.index]; omega
  · exact keyList_of (fun i => i) fun i _ => ⟨rfl, rfl⟩

/-- A literal finds the value of its variable, so both literals of a variable share it. -/
theorem C57_lit_via_var {V : Type} (vals : List V) (l : Lit) :
    VecMap.getVia vals l = VecMap.get vals l.var ∧
    VecMap.getVia vals l.neg = VecMap.getVia vals l := by
  exact ⟨rfl, by simp [VecMap.getVia, VecMapIndex.index]⟩

/-- A map with four literals, iterated from both ends. -/
theorem C57_example :
    runCalls [.nextBack, .next, .nthBack 1, .next] (VecMap.keys Lit ["a", "b", "c", "d"]) =
      .ok ([some ⟨3#32⟩, some ⟨0#32⟩, some ⟨1#32⟩, none], ⟨⟨1, 1⟩⟩) ∧
    KeyList [(⟨0#32⟩ : Lit), ⟨1#32⟩, ⟨2#32⟩, ⟨3#32⟩] := by
  refine ⟨rfl, ?_⟩
  intro i k h
  match i with
  | 0 => cases h; exact ⟨rfl, rfl⟩
  | 1 => cases h; exact ⟨rfl, rfl⟩
  | 2 => cases h; exact ⟨rfl, rfl⟩
  | 3 => cases h; exact ⟨rfl, rfl⟩
  | i + 4 => simp at h

end Starlit
