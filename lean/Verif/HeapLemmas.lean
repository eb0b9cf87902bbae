import Verif.Heap
import Mathlib.Data.List.Nodup
import Mathlib.Data.List.Perm.Subperm
import Mathlib.Data.List.Range

/-!
# Lemmas about the heap
-/

namespace Starlit

set_option linter.unusedSectionVars false

theorem getElem?_set' {α : Type} (v : List α) (i k : Nat) (x : α) (hi : i < v.length) :
    (v.set i x)[k]? = if k = i then some x else v[k]? := by
  rw [List.getElem?_set]
  by_cases h : i = k
  · subst h; simp [hi]
  · simp [h, Ne.symm h]

theorem swapAt_ok {α : Type} {v : List α} {i j : Nat} {x y : α} (hi : v[i]? = some x)
    (hj : v[j]? = some y) : ∃ v', swapAt v i j = .ok v' ∧ v'.length = v.length ∧
      ∀ k, v'[k]? = if k = j then some x else if k = i then some y else v[k]? := by
  refine ⟨(v.set i y).set j x, ?_, by simp, ?_⟩
  · simp only [swapAt, idx_ok hi, idx_ok hj, bind_ok]; rfl
  · intro k
    have hi' : i < v.length := by
      rcases Nat.lt_or_ge i v.length with h | h
      · exact h
      · simp [List.getElem?_eq_none h] at hi
    have hj' : j < v.length := by
      rcases Nat.lt_or_ge j v.length with h | h
      · exact h
      · simp [List.getElem?_eq_none h] at hj
    rw [getElem?_set' _ _ _ _ (by simpa using hj'), getElem?_set' _ _ _ _ hi']

theorem lt_of_getElem? {α : Type} {v : List α} {i : Nat} {x : α} (h : v[i]? = some x) :
    i < v.length := by
  rcases Nat.lt_or_ge i v.length with h' | h'
  · exact h'
  · simp [List.getElem?_eq_none h'] at h

theorem exists_getElem? {α : Type} {v : List α} {i : Nat} (h : i < v.length) :
    ∃ x, v[i]? = some x := ⟨v[i], by simp [h]⟩

namespace Heap

variable {V : Type} [LinearOrder V]

/-- `heapPos` is the inverse of `heap` on enqueued indices and `!0` elsewhere. -/
structure WF (h : Heap V) : Prop where
  len : h.heapPos.length = h.values.length
  small : h.values.length ≤ 2 ^ 32
  fwd : ∀ i x : Nat, h.heap[i]? = some x → h.heapPos[x]? = some i
  non : ∀ x : Nat, x < h.values.length → x ∉ h.heap → h.heapPos[x]? = some NONE

variable {h : Heap V}

theorem WF.lt (w : h.WF) {x : Nat} (hx : x ∈ h.heap) : x < h.values.length := by
  obtain ⟨i, hi⟩ := List.getElem?_of_mem hx
  have := lt_of_getElem? (w.fwd i x hi)
  rw [w.len] at this; exact this

theorem WF.nodup (w : h.WF) : h.heap.Nodup := by
  rw [List.nodup_iff_injective_getElem]
  rintro ⟨i, hi⟩ ⟨j, hj⟩ hij
  simp only at hij
  have h1 := w.fwd i h.heap[i] (by simp)
  have h2 := w.fwd j h.heap[j] (by simp)
  rw [hij] at h1
  rw [h1] at h2
  simpa using h2

theorem WF.heap_len (w : h.WF) : h.heap.length ≤ h.values.length := by
  have : List.Subperm h.heap (List.range h.values.length) :=
    List.subperm_of_subset w.nodup (fun x hx => by simpa using w.lt hx)
  simpa using this.length_le

theorem WF.heap_len_lt (w : h.WF) {x : Nat} (hx : x < h.values.length) (hn : x ∉ h.heap) :
    h.heap.length < h.values.length := by
  have : List.Subperm (x :: h.heap) (List.range h.values.length) :=
    List.subperm_of_subset (List.nodup_cons.2 ⟨hn, w.nodup⟩) (fun y hy => by
      rw [List.mem_cons] at hy
      rcases hy with rfl | hy
      · simpa using hx
      · simpa using w.lt hy)
  have := this.length_le
  simp at this; omega

/-- `is_enqueued` tells membership. -/
theorem WF.pos_cases (w : h.WF) {x : Nat} (hx : x < h.values.length) :
    (∃ i, h.heapPos[x]? = some i ∧ i < h.heap.length ∧ h.heap[i]? = some x ∧ x ∈ h.heap) ∨
    (∃ i, h.heapPos[x]? = some i ∧ h.heap.length ≤ i ∧ x ∉ h.heap) := by
  by_cases hm : x ∈ h.heap
  · obtain ⟨i, hi⟩ := List.getElem?_of_mem hm
    exact .inl ⟨i, w.fwd i x hi, lt_of_getElem? hi, hi, hm⟩
  · refine .inr ⟨NONE, w.non x hx hm, ?_, hm⟩
    have := w.heap_len_lt hx hm
    have := w.small
    unfold NONE; omega

theorem isEnqueued_eq (w : h.WF) {x : Nat} (hx : x < h.values.length) :
    h.isEnqueued x = .ok (decide (x ∈ h.heap)) := by
  unfold isEnqueued
  rcases w.pos_cases hx with ⟨i, h1, h2, _, h4⟩ | ⟨i, h1, h2, h4⟩
  · simp only [idx_ok h1, bind_ok, pure_eq]; simp [h2, h4]
  · simp only [idx_ok h1, bind_ok, pure_eq]
    have : ¬ i < h.heap.length := by omega
    simp [this, h4]

theorem valueAt_ok (w : h.WF) {i x : Nat} (hi : h.heap[i]? = some x) :
    ∃ v, h.values[x]? = some v ∧ h.valueAt i = .ok v := by
  have hx := w.lt (List.mem_of_getElem? hi)
  obtain ⟨v, hv⟩ := exists_getElem? hx
  exact ⟨v, hv, by simp [valueAt, idx_ok hi, idx_ok hv]⟩

/-- Effect of `swap!`. -/
structure Swapped (h h' : Heap V) (a b x y : Nat) : Prop where
  values : h'.values = h.values
  length : h'.heap.length = h.heap.length
  get : ∀ k, h'.heap[k]? = if k = b then some x else if k = a then some y else h.heap[k]?
  wf : h'.WF
  mem : ∀ z, z ∈ h'.heap ↔ z ∈ h.heap

theorem swap_ok (w : h.WF) {a b x y : Nat} (ha : h.heap[a]? = some x) (hb : h.heap[b]? = some y) :
    ∃ h', h.swap a b = .ok h' ∧ Swapped h h' a b x y := by
  obtain ⟨hp, e1, l1, g1⟩ := swapAt_ok ha hb
  have hx : hp[a]? = some y := by
    rw [g1]
    by_cases hab : a = b
    · subst hab; rw [ha] at hb; simp_all
    · simp [hab]
  have hy : hp[b]? = some x := by rw [g1]; simp
  obtain ⟨pp, e2, l2, g2⟩ := swapAt_ok (w.fwd b y hb) (w.fwd a x ha)
  have hmem : ∀ z, z ∈ hp ↔ z ∈ h.heap := by
    intro z
    constructor
    · intro hz
      obtain ⟨k, hk⟩ := List.getElem?_of_mem hz
      rw [g1] at hk
      split at hk
      · exact List.mem_of_getElem? (by rw [ha, ← hk])
      · split at hk
        · exact List.mem_of_getElem? (by rw [hb, ← hk])
        · exact List.mem_of_getElem? hk
    · intro hz
      obtain ⟨k, hk⟩ := List.getElem?_of_mem hz
      by_cases h1 : k = a
      · subst h1; rw [ha] at hk; cases hk; exact List.mem_of_getElem? hy
      · by_cases h2 : k = b
        · subst h2; rw [hb] at hk; cases hk; exact List.mem_of_getElem? hx
        · exact List.mem_of_getElem? (show hp[k]? = some z by rw [g1]; simp [h1, h2, hk])
  refine ⟨⟨h.values, pp, hp⟩, ?_, rfl, l1, g1, ⟨?_, w.small, ?_, ?_⟩, hmem⟩
  · simp only [swap, e1, bind_ok, idx_ok hx, idx_ok hy, e2]; rfl
  · simp only; rw [l2, w.len]
  · simp only
    intro i z hz
    rw [g1] at hz
    rw [g2]
    split at hz
    · next hib =>
      subst hib
      cases hz
      by_cases hxy : x = y
      · subst hxy
        have h1 := w.fwd a x ha
        have h2 := w.fwd i x hb
        rw [h1] at h2; simpa using h2
      · simp
    · next hib =>
      split at hz
      · next hia =>
        subst hia
        cases hz
        by_cases hxy : x = y
        · subst hxy
          have h1 := w.fwd i x ha
          have h2 := w.fwd b x hb
          rw [h1] at h2
          exact absurd (by simpa using h2) hib
        · simp [Ne.symm hxy]
      · next hia =>
        have h1 := w.fwd i z hz
        have hzx : z ≠ x := by
          rintro rfl
          have := w.fwd a z ha
          rw [h1] at this; exact hia (by simpa using this)
        have hzy : z ≠ y := by
          rintro rfl
          have := w.fwd b z hb
          rw [h1] at this; exact hib (by simpa using this)
        simp [hzx, hzy, h1]
  · simp only
    intro z hz hn
    rw [hmem] at hn
    rw [g2]
    have hzx : z ≠ x := by rintro rfl; exact hn (List.mem_of_getElem? ha)
    have hzy : z ≠ y := by rintro rfl; exact hn (List.mem_of_getElem? hb)
    simp [hzx, hzy, w.non z hz hn]

/-! ## Heap order -/

/-- Value at a heap position. -/
def key (h : Heap V) (i : Nat) : Option V := (h.heap[i]?).bind (fun x => h.values[x]?)

/-- The parent of `i` is at least `i`. -/
def Edge (h : Heap V) (p c : Nat) : Prop :=
  ∀ u v, h.key p = some u → h.key c = some v → v ≤ u

/-- Heap order. -/
def Ordered (h : Heap V) : Prop := ∀ i, 0 < i → h.Edge ((i - 1) / 2) i

/-- Heap order except between `pos` and its parent, while `pos` could be skipped. -/
def OrderedUp (h : Heap V) (pos : Nat) : Prop :=
  (∀ i, 0 < i → i ≠ pos → h.Edge ((i - 1) / 2) i) ∧
  (0 < pos → ∀ i, 0 < i → (i - 1) / 2 = pos → h.Edge ((pos - 1) / 2) i)

/-- Heap order except between `pos` and its children, while `pos` could be skipped. -/
def OrderedDown (h : Heap V) (pos : Nat) : Prop :=
  (∀ i, 0 < i → (i - 1) / 2 ≠ pos → h.Edge ((i - 1) / 2) i) ∧
  (0 < pos → ∀ i, 0 < i → (i - 1) / 2 = pos → h.Edge ((pos - 1) / 2) i)

theorem key_ok (w : h.WF) {i x : Nat} (hi : h.heap[i]? = some x) :
    ∃ v, h.values[x]? = some v ∧ h.valueAt i = .ok v ∧ h.key i = some v := by
  obtain ⟨v, h1, h2⟩ := valueAt_ok w hi
  exact ⟨v, h1, h2, by simp [key, hi, h1]⟩

theorem key_none {i : Nat} (hi : h.heap.length ≤ i) : h.key i = none := by
  simp [key, List.getElem?_eq_none hi]

theorem key_some {i : Nat} {v : V} (hk : h.key i = some v) : i < h.heap.length := by
  rcases Nat.lt_or_ge i h.heap.length with h' | h'
  · exact h'
  · rw [key_none h'] at hk; cases hk

theorem Swapped.key {h' : Heap V} {a b x y : Nat} (s : Swapped h h' a b x y)
    (ha : h.heap[a]? = some x) (hb : h.heap[b]? = some y) (k : Nat) :
    h'.key k = if k = b then h.key a else if k = a then h.key b else h.key k := by
  unfold Heap.key
  rw [s.get, s.values]
  by_cases h1 : k = b
  · simp [h1, ha]
  · by_cases h2 : k = a
    · rw [if_neg h1, if_neg h1, if_pos h2, if_pos h2, hb]
    · simp [h1, h2]

/-- What `move_towards_root` and `move_towards_leaves` keep. -/
structure Same (h h' : Heap V) : Prop where
  values : h'.values = h.values
  wf : h'.WF
  mem : ∀ z, z ∈ h'.heap ↔ z ∈ h.heap
  length : h'.heap.length = h.heap.length

theorem Same.refl (w : h.WF) : Same h h := ⟨rfl, w, fun _ => Iff.rfl, rfl⟩

theorem Same.trans {h1 h2 h3 : Heap V} (a : Same h1 h2) (b : Same h2 h3) : Same h1 h3 :=
  ⟨b.values.trans a.values, b.wf, fun z => (b.mem z).trans (a.mem z), b.length.trans a.length⟩

theorem Swapped.same {h' : Heap V} {a b x y : Nat} (s : Swapped h h' a b x y) : Same h h' :=
  ⟨s.values, s.wf, s.mem, s.length⟩

theorem rootLoop_ok (fuel : Nat) (pos : Nat) (value : V) (w : h.WF) (hf : pos ≤ fuel)
    (hk : h.key pos = some value) :
    ∃ h', rootLoop value fuel h pos = .ok h' ∧ Same h h' ∧ (h.OrderedUp pos → h'.Ordered) := by
  induction fuel generalizing h pos with
  | zero =>
    have hp : pos = 0 := by omega
    subst hp
    refine ⟨h, by simp [rootLoop, pure_eq], .refl w, ?_⟩
    intro ⟨h1, _⟩ i hi
    exact h1 i hi (by omega)
  | succ fuel ih =>
    by_cases hp : pos > 0
    · simp only [rootLoop, hp, if_true]
      have hpl := key_some hk
      obtain ⟨x, hx⟩ := exists_getElem? hpl
      obtain ⟨y, hy⟩ := exists_getElem? (v := h.heap) (i := (pos - 1) / 2) (by omega)
      obtain ⟨pv, _, e1, k1⟩ := key_ok w hy
      rw [e1, bind_ok]
      by_cases hlt : pv < value
      · rw [if_pos hlt]
        obtain ⟨h', e2, s⟩ := swap_ok w hx hy
        rw [e2, bind_ok]
        have sk := s.key hx hy
        obtain ⟨h'', e3, s3, o3⟩ := ih (h := h') ((pos - 1) / 2) s.wf (by omega) (by rw [sk]; simp [hk])
        refine ⟨h'', e3, s.same.trans s3, ?_⟩
        intro ⟨o1, o2⟩
        apply o3
        have hpp : (pos - 1) / 2 < pos := by omega
        constructor
        · intro i hi hne u v
          rw [sk, sk]
          by_cases hip : i = pos
          · subst hip
            -- parent now holds `value`, `pos` holds the old parent
            simp only [if_true]
            rw [if_neg (by omega)]
            intro hu hv
            rw [hk] at hu; rw [k1] at hv; cases hu; cases hv
            exact le_of_lt hlt
          · rw [if_neg hne, if_neg hip]
            by_cases hpar : (i - 1) / 2 = (pos - 1) / 2
            · rw [if_pos hpar]
              intro hu hv
              rw [hk] at hu; cases hu
              have := o1 i hi hip pv v (by rw [hpar]; exact k1) hv
              exact le_trans this (le_of_lt hlt)
            · rw [if_neg hpar]
              by_cases hpar2 : (i - 1) / 2 = pos
              · rw [if_pos hpar2]
                intro hu hv
                exact o2 hp i hi hpar2 u v hu hv
              · rw [if_neg hpar2]
                exact o1 i hi hip u v
        · intro hpar i hi hip u v
          rw [sk, sk]
          have h1 : ¬ ((pos - 1) / 2 - 1) / 2 = (pos - 1) / 2 := by omega
          have h2 : ¬ ((pos - 1) / 2 - 1) / 2 = pos := by omega
          have h3 : ¬ i = (pos - 1) / 2 := by omega
          rw [if_neg h1, if_neg h2, if_neg h3]
          by_cases h4 : i = pos
          · rw [if_pos h4]
            intro hu hv
            exact o1 ((pos - 1) / 2) hpar (by omega) u v hu hv
          · rw [if_neg h4]
            intro hu hv
            have a1 := o1 i hi h4 pv v (by rw [hip]; exact k1) hv
            have a2 := o1 ((pos - 1) / 2) hpar (by omega) u pv hu k1
            exact le_trans a1 a2
      · rw [if_neg hlt]
        refine ⟨h, rfl, .refl w, ?_⟩
        intro ⟨o1, _⟩ i hi
        by_cases hip : i = pos
        · subst hip
          intro u v hu hv
          rw [k1] at hu; rw [hk] at hv; cases hu; cases hv
          exact le_of_not_gt hlt
        · exact o1 i hi hip
    · have hp0 : pos = 0 := by omega
      subst hp0
      refine ⟨h, by simp [rootLoop, pure_eq], .refl w, ?_⟩
      intro ⟨h1, _⟩ i hi
      exact h1 i hi (by omega)

theorem moveTowardsRoot_ok (w : h.WF) {pos : Nat} (hp : pos < h.heap.length) :
    ∃ h', h.moveTowardsRoot pos = .ok h' ∧ Same h h' ∧ (h.OrderedUp pos → h'.Ordered) := by
  obtain ⟨x, hx⟩ := exists_getElem? hp
  obtain ⟨v, _, e, k⟩ := key_ok w hx
  obtain ⟨h', e', r⟩ := rootLoop_ok pos pos v w le_rfl k
  exact ⟨h', by simp [moveTowardsRoot, e, e'], r⟩

theorem pickChild_ok (w : h.WF) {pos : Nat} {value : V} (hk : h.key pos = some value) :
    ∃ s, pickChild value h pos = .ok s ∧
      ((s = pos ∧ ∀ c v, (c - 1) / 2 = pos → 0 < c → h.key c = some v → v ≤ value) ∨
       (s ≠ pos ∧ 0 < s ∧ (s - 1) / 2 = pos ∧ s < h.heap.length ∧ ∃ sv, h.key s = some sv ∧ value < sv ∧
        ∀ c v, (c - 1) / 2 = pos → 0 < c → h.key c = some v → v ≤ sv)) := by
  have two : ∀ c, (c - 1) / 2 = pos → 0 < c → c = pos * 2 + 1 ∨ c = pos * 2 + 2 := by
    intro c; omega
  by_cases hl : pos * 2 + 1 < h.heap.length
  · obtain ⟨x, hx⟩ := exists_getElem? hl
    obtain ⟨lv, _, el, kl⟩ := key_ok w hx
    by_cases hr : pos * 2 + 2 < h.heap.length
    · obtain ⟨y, hy⟩ := exists_getElem? hr
      obtain ⟨rv, _, er, kr⟩ := key_ok w hy
      simp only [pickChild, hl, hr, if_true, el, er, bind_ok]
      by_cases h1 : value < lv
      · simp only [h1, if_true, bind_pure_ok]
        by_cases h2 : lv < rv
        · refine ⟨_, by simp [h2, pure_eq], .inr ⟨by omega, by omega, by omega, hr, rv, kr, lt_trans h1 h2, ?_⟩⟩
          intro c v hc hc0 hv
          rcases two c hc hc0 with rfl | rfl
          · rw [kl] at hv; cases hv; exact le_of_lt h2
          · rw [kr] at hv; cases hv; exact le_refl _
        · refine ⟨_, by simp [h2, pure_eq], .inr ⟨by omega, by omega, by omega, hl, lv, kl, h1, ?_⟩⟩
          intro c v hc hc0 hv
          rcases two c hc hc0 with rfl | rfl
          · rw [kl] at hv; cases hv; exact le_refl _
          · rw [kr] at hv; cases hv; exact le_of_not_gt h2
      · simp only [h1, if_false, bind_pure_ok]
        by_cases h2 : value < rv
        · refine ⟨_, by simp [h2, pure_eq], .inr ⟨by omega, by omega, by omega, hr, rv, kr, h2, ?_⟩⟩
          intro c v hc hc0 hv
          rcases two c hc hc0 with rfl | rfl
          · rw [kl] at hv; cases hv; exact le_trans (le_of_not_gt h1) (le_of_lt h2)
          · rw [kr] at hv; cases hv; exact le_refl _
        · refine ⟨_, by simp [h2, pure_eq], .inl ⟨rfl, ?_⟩⟩
          intro c v hc hc0 hv
          rcases two c hc hc0 with rfl | rfl
          · rw [kl] at hv; cases hv; exact le_of_not_gt h1
          · rw [kr] at hv; cases hv; exact le_of_not_gt h2
    · simp only [pickChild, hl, hr, if_true, if_false, el, bind_ok]
      by_cases h1 : value < lv
      · refine ⟨_, by simp only [h1, if_true, bind_pure_ok]; rfl, .inr ⟨by omega, by omega, by omega, hl, lv, kl, h1, ?_⟩⟩
        intro c v hc hc0 hv
        rcases two c hc hc0 with rfl | rfl
        · rw [kl] at hv; cases hv; exact le_refl _
        · rw [key_none (by omega)] at hv; cases hv
      · refine ⟨_, by simp only [h1, if_false, bind_pure_ok]; rfl, .inl ⟨rfl, ?_⟩⟩
        intro c v hc hc0 hv
        rcases two c hc hc0 with rfl | rfl
        · rw [kl] at hv; cases hv; exact le_of_not_gt h1
        · rw [key_none (by omega)] at hv; cases hv
  · have hr : ¬ pos * 2 + 2 < h.heap.length := by omega
    simp only [pickChild, hl, hr, if_false, bind_pure_ok]
    refine ⟨_, rfl, .inl ⟨rfl, ?_⟩⟩
    intro c v hc hc0 hv
    rcases two c hc hc0 with rfl | rfl
    · rw [key_none (by omega)] at hv; cases hv
    · rw [key_none (by omega)] at hv; cases hv

theorem leavesLoop_ok (fuel : Nat) (pos : Nat) (value : V) (w : h.WF)
    (hf : h.heap.length ≤ pos + fuel) (hk : h.key pos = some value) :
    ∃ h', leavesLoop value fuel h pos = .ok h' ∧ Same h h' ∧ (h.OrderedDown pos → h'.Ordered) := by
  induction fuel generalizing h pos with
  | zero => have := key_some hk; omega
  | succ fuel ih =>
    simp only [leavesLoop]
    obtain ⟨s, e, hs⟩ := pickChild_ok w hk
    rw [e, bind_ok]
    rcases hs with ⟨rfl, hmax⟩ | ⟨hne, hs0, hpar, hsl, sv, ks, hlt, hmax⟩
    · rw [if_pos rfl]
      refine ⟨h, rfl, .refl w, ?_⟩
      intro ⟨o1, _⟩ i hi
      by_cases hip : (i - 1) / 2 = s
      · intro u v hu hv
        rw [hip, hk] at hu; cases hu
        exact hmax i v hip hi hv
      · exact o1 i hi hip
    · rw [if_neg hne]
      obtain ⟨x, hx⟩ := exists_getElem? (key_some hk)
      obtain ⟨y, hy⟩ := exists_getElem? hsl
      obtain ⟨h', e2, sw⟩ := swap_ok w hx hy
      rw [e2, bind_ok]
      have sk := sw.key hx hy
      obtain ⟨h'', e3, s3, o3⟩ := ih (h := h') s sw.wf (by rw [sw.length]; omega) (by rw [sk]; simp [hk])
      refine ⟨h'', e3, sw.same.trans s3, ?_⟩
      intro ⟨o1, o2⟩
      apply o3
      constructor
      · intro i hi hne' u v
        rw [sk, sk, if_neg hne']
        by_cases his : i = s
        · subst his
          simp only [if_true, hpar]
          intro hu hv
          rw [ks] at hu; rw [hk] at hv; cases hu; cases hv
          exact le_of_lt hlt
        · rw [if_neg his]
          by_cases hip : (i - 1) / 2 = pos
          · rw [if_pos hip]
            have : i ≠ pos := by omega
            rw [if_neg this]
            intro hu hv
            rw [ks] at hu; cases hu
            exact hmax i v hip hi hv
          · rw [if_neg hip]
            by_cases hip2 : i = pos
            · rw [if_pos hip2]
              subst hip2
              intro hu hv
              exact o2 hi s hs0 hpar u v hu hv
            · rw [if_neg hip2]
              exact o1 i hi hip u v
      · intro _ i hi hip u v
        rw [sk, sk]
        have h1 : ¬ (s - 1) / 2 = s := by omega
        have h3 : ¬ i = s := by omega
        have h4 : ¬ i = pos := by omega
        rw [if_neg h1, if_pos hpar, if_neg h3, if_neg h4]
        intro hu hv
        exact o1 i hi (by omega) u v (by rw [hip]; exact hu) hv

theorem moveTowardsLeaves_ok (w : h.WF) {pos : Nat} (hp : pos < h.heap.length) :
    ∃ h', h.moveTowardsLeaves pos = .ok h' ∧ Same h h' ∧ (h.OrderedDown pos → h'.Ordered) := by
  obtain ⟨x, hx⟩ := exists_getElem? hp
  obtain ⟨v, _, e, k⟩ := key_ok w hx
  obtain ⟨h', e', r⟩ := leavesLoop_ok h.heap.length pos v w (by omega) k
  exact ⟨h', by simp [moveTowardsLeaves, e, e'], r⟩

/-! ## Operations -/

theorem wf_empty : (empty : Heap V).WF := ⟨rfl, by simp [empty], by simp [empty], by simp [empty]⟩

theorem ordered_empty : (empty : Heap V).Ordered := by
  intro i _ u v hu; simp [key, empty] at hu

/-- `enqueue`. -/
theorem enqueue_ok (w : h.WF) {x : Nat} (hx : x < h.values.length) :
    ∃ h', h.enqueue x = .ok h' ∧ h'.WF ∧ h'.values = h.values ∧
      (∀ z, z ∈ h'.heap ↔ z = x ∨ z ∈ h.heap) ∧ (h.Ordered → h'.Ordered) := by
  unfold enqueue
  rcases w.pos_cases hx with ⟨i, h1, h2, _, h4⟩ | ⟨i, h1, h2, h4⟩
  · rw [idx_ok h1, bind_ok, if_pos h2]
    exact ⟨h, rfl, w, rfl, fun z => ⟨.inr, fun hz => hz.elim (fun e => e ▸ h4) id⟩, id⟩
  · rw [idx_ok h1, bind_ok, if_neg (by omega)]
    have hlt := w.heap_len_lt hx h4
    have hsm := w.small
    have hup : x < h.heapPos.length := by rw [w.len]; exact hx
    simp only [upd_ok hup, bind_ok, Nat.mod_eq_of_lt (show h.heap.length < 2 ^ 32 by omega),
      Nat.mod_eq_of_lt (show x < 2 ^ 32 by omega)]
    have w' : WF (⟨h.values, h.heapPos.set x h.heap.length, h.heap ++ [x]⟩ : Heap V) := by
      refine ⟨by simpa using w.len, hsm, ?_, ?_⟩
      · simp only
        intro i z hz
        rw [getElem?_set' _ _ _ _ hup]
        rcases Nat.lt_or_ge i h.heap.length with hi | hi
        · rw [List.getElem?_append_left hi] at hz
          have : z ≠ x := by rintro rfl; exact h4 (List.mem_of_getElem? hz)
          rw [if_neg this]; exact w.fwd i z hz
        · rw [List.getElem?_append_right hi] at hz
          have := lt_of_getElem? hz
          simp at this
          have hi0 : i - h.heap.length = 0 := by omega
          rw [hi0] at hz
          simp at hz
          subst hz
          rw [if_pos rfl]; congr 1; omega
      · simp only
        intro z hz hn
        rw [List.mem_append, List.mem_singleton, not_or] at hn
        rw [getElem?_set' _ _ _ _ hup, if_neg hn.2]
        exact w.non z hz hn.1
    obtain ⟨h', e, s, o⟩ := moveTowardsRoot_ok w' (pos := h.heap.length) (by simp)
    refine ⟨h', e, s.wf, s.values, ?_, ?_⟩
    · intro z; rw [s.mem]; simp [or_comm]
    · intro ho
      apply o
      have hkey : ∀ i, i ≠ h.heap.length → ∀ v,
          key (⟨h.values, h.heapPos.set x h.heap.length, h.heap ++ [x]⟩ : Heap V) i = some v →
          h.key i = some v := by
        intro i hi v hv
        have hlt := key_some hv
        simp at hlt
        have hlt : i < h.heap.length := by omega
        simpa [key, List.getElem?_append_left hlt] using hv
      constructor
      · intro i hi hne u v hu hv
        have hil := key_some hv
        simp at hil
        exact ho i hi u v (hkey _ (by omega) u hu) (hkey i hne v hv)
      · intro hp i hi hip u v hu hv
        have hil := key_some hv
        simp at hil
        omega

/-- Removing the last entry of the heap. -/
theorem popLast_ok (w : h.WF) {x : Nat} (hl : 0 < h.heap.length)
    (hx : h.heap[h.heap.length - 1]? = some x) :
    ∃ h', h.popLast x = .ok h' ∧ h'.WF ∧ h'.values = h.values ∧
      (∀ z, z ∈ h'.heap ↔ z ≠ x ∧ z ∈ h.heap) ∧ h'.heap.length = h.heap.length - 1 ∧
      (∀ i, i < h.heap.length - 1 → h'.heap[i]? = h.heap[i]?) ∧
      (∀ i v, h'.key i = some v → h.key i = some v) := by
  have hxm : x ∈ h.heap := List.mem_of_getElem? hx
  have hxl := w.lt hxm
  have hup : x < h.heapPos.length := by rw [w.len]; exact hxl
  have hget : ∀ i, i < h.heap.length - 1 → h.heap.dropLast[i]? = h.heap[i]? := by
    intro i hi
    rw [List.getElem?_dropLast]; simp [hi]
  have hget' : ∀ i z, h.heap.dropLast[i]? = some z → i < h.heap.length - 1 ∧ h.heap[i]? = some z := by
    intro i z hz
    have := lt_of_getElem? hz
    simp at this
    exact ⟨this, by rw [← hget i this]; exact hz⟩
  have hmem : ∀ z, z ∈ h.heap.dropLast ↔ z ≠ x ∧ z ∈ h.heap := by
    intro z
    constructor
    · intro hz
      obtain ⟨i, hi⟩ := List.getElem?_of_mem hz
      obtain ⟨h1, h2⟩ := hget' i z hi
      refine ⟨?_, List.mem_of_getElem? h2⟩
      rintro rfl
      have := w.fwd i z h2
      have h3 := w.fwd _ z hx
      rw [this] at h3
      simp at h3; omega
    · rintro ⟨hne, hz⟩
      obtain ⟨i, hi⟩ := List.getElem?_of_mem hz
      have hil := lt_of_getElem? hi
      have : i ≠ h.heap.length - 1 := by
        rintro rfl; rw [hx] at hi; cases hi; exact hne rfl
      exact List.mem_of_getElem? (show h.heap.dropLast[i]? = some z by rw [hget i (by omega)]; exact hi)
  refine ⟨⟨h.values, h.heapPos.set x NONE, h.heap.dropLast⟩, ?_, ⟨?_, w.small, ?_, ?_⟩, rfl, hmem,
    by simp, hget, ?_⟩
  · simp only [popLast, upd_ok hup, bind_ok]; rfl
  · simpa using w.len
  · simp only
    intro i z hz
    obtain ⟨h1, h2⟩ := hget' i z hz
    have : z ≠ x := ((hmem z).1 (List.mem_of_getElem? hz)).1
    rw [getElem?_set' _ _ _ _ hup, if_neg this]
    exact w.fwd i z h2
  · simp only
    intro z hz hn
    rw [getElem?_set' _ _ _ _ hup]
    by_cases h1 : z = x
    · rw [if_pos h1]
    · rw [if_neg h1]
      exact w.non z hz (fun hm => hn ((hmem z).2 ⟨h1, hm⟩))
  · intro i v hv
    unfold key at hv ⊢
    simp only at hv
    cases hz : h.heap.dropLast[i]? with
    | none => rw [hz] at hv; cases hv
    | some z => rw [(hget' i z hz).2]; rw [hz] at hv; exact hv

/-- `dequeue` (set semantics only: the code breaks the order of the heap). -/
theorem dequeue_ok (w : h.WF) {x : Nat} (hx : x < h.values.length) :
    ∃ h', h.dequeue x = .ok h' ∧ h'.WF ∧ h'.values = h.values ∧
      (∀ z, z ∈ h'.heap ↔ z ≠ x ∧ z ∈ h.heap) := by
  unfold dequeue
  rcases w.pos_cases hx with ⟨i, h1, h2, h3, h4⟩ | ⟨i, h1, h2, h4⟩
  · rw [idx_ok h1, bind_ok, if_neg (by omega)]
    by_cases hlast : h.heap.length - 1 = i
    · simp only [hlast, if_true]
      obtain ⟨h', e, w', v', m', _⟩ := popLast_ok w (by omega) (by rw [hlast]; exact h3)
      exact ⟨h', e, w', v', m'⟩
    · simp only [hlast, if_false]
      obtain ⟨y, hy⟩ := exists_getElem? (v := h.heap) (i := h.heap.length - 1) (by omega)
      obtain ⟨h1', e1, s⟩ := swap_ok w hy h3
      rw [e1, bind_ok]
      have hlx : h1'.heap[h1'.heap.length - 1]? = some x := by
        rw [s.length, s.get, if_neg hlast, if_pos rfl]
      obtain ⟨h2', e2, w2, v2, m2, l2, g2, _⟩ := popLast_ok s.wf (by rw [s.length]; omega) hlx
      rw [e2, bind_ok]
      have hil : i < h2'.heap.length := by rw [l2, s.length]; omega
      obtain ⟨z, hz⟩ := exists_getElem? hil
      obtain ⟨v, _, e3⟩ := valueAt_ok w2 hz
      obtain ⟨u, hu⟩ := exists_getElem? (v := h2'.values) (i := x) (by rw [v2, s.values]; exact hx)
      rw [e3, bind_ok, idx_ok hu, bind_ok]
      have fin : ∀ h3', Same h2' h3' → h3'.WF ∧ h3'.values = h.values ∧
          (∀ z, z ∈ h3'.heap ↔ z ≠ x ∧ z ∈ h.heap) := by
        intro h3' s3
        exact ⟨s3.wf, by rw [s3.values, v2, s.values], fun z => by rw [s3.mem, m2, s.mem]⟩
      by_cases hc : u < v
      · rw [if_pos hc]
        obtain ⟨h3', e4, s3, _⟩ := moveTowardsLeaves_ok w2 hil
        exact ⟨h3', e4, fin h3' s3⟩
      · rw [if_neg hc]
        obtain ⟨h3', e4, s3, _⟩ := moveTowardsRoot_ok w2 hil
        exact ⟨h3', e4, fin h3' s3⟩
  · rw [idx_ok h1, bind_ok, if_pos (by omega)]
    exact ⟨h, rfl, w, rfl, fun z => ⟨fun hz => ⟨fun e => h4 (e ▸ hz), hz⟩, fun hz => hz.2⟩⟩

/-- In an ordered heap, position 0 holds a maximum. -/
theorem Ordered.root (ho : h.Ordered) (w : h.WF) {m : V} (hm : h.key 0 = some m) (i : Nat) (v : V)
    (hv : h.key i = some v) : v ≤ m := by
  induction i using Nat.strongRecOn generalizing v with
  | ind i ih =>
    by_cases hi : i = 0
    · subst hi; rw [hm] at hv; cases hv; exact le_refl _
    · have hil := key_some hv
      obtain ⟨x, hx⟩ := exists_getElem? (v := h.heap) (i := (i - 1) / 2) (by omega)
      obtain ⟨u, _, _, ku⟩ := key_ok w hx
      exact le_trans (ho i (by omega) u v ku hv) (ih _ (by omega) u ku)

/-- `pop_max`. -/
theorem popMax_ok (w : h.WF) :
    (h.heap = [] ∧ h.popMax = .ok (none, h)) ∨
    ∃ x h', h.popMax = .ok (some x, h') ∧ x ∈ h.heap ∧ h'.WF ∧ h'.values = h.values ∧
      (∀ z, z ∈ h'.heap ↔ z ≠ x ∧ z ∈ h.heap) ∧
      (h.Ordered → h'.Ordered ∧ ∀ m, h.values[x]? = some m →
        ∀ z, z ∈ h.heap → ∀ v, h.values[z]? = some v → v ≤ m) := by
  cases hh : h.heap with
  | nil => exact .inl ⟨rfl, by simp [popMax, hh, pure_eq]⟩
  | cons x rest =>
    right
    have h0 : h.heap[0]? = some x := by simp [hh]
    have hl : 0 < h.heap.length := by simp [hh]
    have hpop : h.popMax = (do
        let h ← if h.heap.length - 1 = 0 then h.popLast x else do
          let h ← h.swap (h.heap.length - 1) 0
          let h ← h.popLast x
          h.moveTowardsLeaves 0
        pure (some x, h)) := by
      simp only [popMax, hh]
    have hmax : h.Ordered → ∀ m, h.values[x]? = some m →
        ∀ z, z ∈ x :: rest → ∀ v, h.values[z]? = some v → v ≤ m := by
      intro ho m hm z hz v hv
      rw [← hh] at hz
      obtain ⟨i, hi⟩ := List.getElem?_of_mem hz
      exact ho.root w (m := m) (by simp [key, h0, hm]) i v (by simp [key, hi, hv])
    rw [hpop]
    by_cases h1 : h.heap.length - 1 = 0
    · rw [if_pos h1]
      obtain ⟨h', e, w', v', m', l', _, _⟩ := popLast_ok w hl (by rw [h1]; exact h0)
      refine ⟨x, h', by rw [e]; rfl, by simp, w', v', ?_, ?_⟩
      · rw [← hh]; exact m'
      · intro ho
        refine ⟨?_, hmax ho⟩
        intro i hi u v hu hv
        have := key_some hv
        omega
    · rw [if_neg h1]
      obtain ⟨y, hy⟩ := exists_getElem? (v := h.heap) (i := h.heap.length - 1) (by omega)
      obtain ⟨h1', e1, s⟩ := swap_ok w hy h0
      rw [e1, bind_ok]
      have hlx : h1'.heap[h1'.heap.length - 1]? = some x := by
        rw [s.length, s.get, if_neg h1, if_pos rfl]
      obtain ⟨h2', e2, w2, v2, m2, l2, g2, k2⟩ := popLast_ok s.wf (by rw [s.length]; omega) hlx
      rw [e2, bind_ok]
      obtain ⟨h3', e3, s3, o3⟩ := moveTowardsLeaves_ok w2 (pos := 0) (by rw [l2, s.length]; omega)
      rw [e3, bind_ok]
      refine ⟨x, h3', rfl, by simp, s3.wf, by rw [s3.values, v2, s.values], ?_, ?_⟩
      · intro z; rw [s3.mem, m2, s.mem, hh]
      · intro ho
        refine ⟨o3 ⟨?_, fun h => absurd h (by omega)⟩, hmax ho⟩
        intro i hi hne u v hu hv
        have hil := key_some hv
        rw [l2, s.length] at hil
        have sk := s.key hy h0
        have hu' := k2 _ _ hu
        have hv' := k2 _ _ hv
        rw [sk, if_neg hne, if_neg (by omega)] at hu'
        rw [sk, if_neg (by omega), if_neg (by omega)] at hv'
        exact ho i hi u v hu' hv'

/-- `increase`. -/
theorem increase_ok (w : h.WF) {x : Nat} {v : V} (f : V → V) (hv : h.values[x]? = some v) :
    ∃ h', h.increase x f = .ok h' ∧ h'.WF ∧ h'.values = h.values.set x (f v) ∧
      (∀ z, z ∈ h'.heap ↔ z ∈ h.heap) ∧ (h.Ordered → v ≤ f v → h'.Ordered) := by
  have hx := lt_of_getElem? hv
  unfold increase
  rw [idx_ok hv, bind_ok, upd_ok hx, bind_ok]
  have w' : WF (⟨h.values.set x (f v), h.heapPos, h.heap⟩ : Heap V) :=
    ⟨by simpa using w.len, by simpa using w.small, w.fwd, by simpa using w.non⟩
  have hkey : ∀ i, h.heap[i]? ≠ some x →
      key (⟨h.values.set x (f v), h.heapPos, h.heap⟩ : Heap V) i = h.key i := by
    intro i hi
    unfold key
    cases hz : h.heap[i]? with
    | none => simp
    | some z =>
      simp only [Option.bind_some]
      have : z ≠ x := by rintro rfl; exact hi hz
      rw [getElem?_set' _ _ _ _ hx, if_neg this]
  rcases w.pos_cases hx with ⟨i, h1, h2, h3, h4⟩ | ⟨i, h1, h2, h4⟩
  · simp only [idx_ok h1, bind_ok, h2, if_true]
    obtain ⟨h', e, s, o⟩ := moveTowardsRoot_ok w' (pos := i) h2
    refine ⟨h', e, s.wf, s.values, s.mem, ?_⟩
    intro ho hle
    apply o
    have hne : ∀ j, j ≠ i → h.heap[j]? ≠ some x := by
      intro j hj he
      have := w.fwd j x he
      rw [h1] at this
      exact hj (by simpa using this.symm)
    have ki : key (⟨h.values.set x (f v), h.heapPos, h.heap⟩ : Heap V) i = some (f v) := by
      simp [key, h3, hx]
    have ki' : h.key i = some v := by simp [key, h3, hv]
    constructor
    · intro j hj hji u t hu ht
      rw [hkey j (hne j hji)] at ht
      by_cases hp : (j - 1) / 2 = i
      · rw [hp, ki] at hu; cases hu
        exact le_trans (ho j hj v t (by rw [hp]; exact ki') ht) hle
      · rw [hkey _ (hne _ hp)] at hu
        exact ho j hj u t hu ht
    · intro hi j hj hji u t hu ht
      rw [hkey _ (hne _ (by omega))] at hu ht
      exact le_trans (ho j hj v t (by rw [hji]; exact ki') ht) (ho i hi u v hu ki')
  · simp only [idx_ok h1, bind_ok, show ¬ i < h.heap.length by omega, if_false]
    refine ⟨_, rfl, w', rfl, fun z => Iff.rfl, ?_⟩
    intro ho _ j hj u t hu ht
    have hne : ∀ j, h.heap[j]? ≠ some x := fun j he => h4 (List.mem_of_getElem? he)
    rw [hkey _ (hne _)] at hu ht
    exact ho j hj u t hu ht

/-- `apply_monotone`. -/
theorem applyMonotone_ok (w : h.WF) (f : V → V) : (h.applyMonotone f).WF ∧
    ((∀ a b, a ≤ b → f a ≤ f b) → h.Ordered → (h.applyMonotone f).Ordered) := by
  refine ⟨⟨by simpa [applyMonotone] using w.len, by simpa [applyMonotone] using w.small, w.fwd,
    by simpa [applyMonotone] using w.non⟩, ?_⟩
  intro hf ho i hi u v hu hv
  have hk : ∀ i, (h.applyMonotone f).key i = (h.key i).map f := by
    intro i
    unfold key applyMonotone
    cases h.heap[i]? <;> simp
  rw [hk] at hu hv
  cases hu' : h.key ((i - 1) / 2) with
  | none => rw [hu'] at hu; cases hu
  | some a =>
    cases hv' : h.key i with
    | none => rw [hv'] at hv; cases hv
    | some b =>
      rw [hu'] at hu; rw [hv'] at hv; cases hu; cases hv
      exact hf _ _ (ho i hi a b hu' hv')

theorem resizeList_get {α : Type} (v : List α) (n i : Nat) (x : α) (hi : i < n) :
    (resizeList v n x)[i]? = some (v.getD i x) := by
  unfold resizeList
  rcases Nat.lt_or_ge i v.length with h | h
  · rw [List.getElem?_append_left (by simp; omega)]
    simp [hi, h]
  · rw [List.getElem?_append_right (by simp; omega)]
    simp only [List.length_take, List.getElem?_replicate]
    rw [if_pos (by omega)]
    simp [List.getD, List.getElem?_eq_none h]

theorem resizeList_length {α : Type} (v : List α) (n : Nat) (x : α) :
    (resizeList v n x).length = n := by
  simp [resizeList]; omega

theorem dequeueRange_ok (k i : Nat) (w : h.WF) (hk : i + k ≤ h.values.length) :
    ∃ h', h.dequeueRange i k = .ok h' ∧ h'.WF ∧ h'.values = h.values ∧
      (∀ z, z ∈ h'.heap ↔ ¬ (i ≤ z ∧ z < i + k) ∧ z ∈ h.heap) := by
  induction k generalizing h i with
  | zero => exact ⟨h, rfl, w, rfl, fun z => ⟨fun hz => ⟨by omega, hz⟩, fun hz => hz.2⟩⟩
  | succ k ih =>
    obtain ⟨h1, e1, w1, v1, m1⟩ := dequeue_ok w (x := i) (by omega)
    obtain ⟨h2, e2, w2, v2, m2⟩ := ih (i + 1) w1 (by rw [v1]; omega)
    refine ⟨h2, by simp [dequeueRange, e1, e2], w2, by rw [v2, v1], ?_⟩
    intro z
    rw [m2, m1]
    constructor
    · rintro ⟨a, b, c⟩; exact ⟨by omega, c⟩
    · rintro ⟨a, b⟩; exact ⟨by omega, by omega, b⟩

theorem resizeTail_ok (w : h.WF) (n : Nat) (x : V) (hn : n ≤ 2 ^ 32)
    (hm : ∀ z ∈ h.heap, z < n) :
    WF (⟨resizeList h.values n x, resizeList h.heapPos n NONE, h.heap⟩ : Heap V) := by
  refine ⟨by simp [resizeList_length], by simp [resizeList_length, hn], ?_, ?_⟩
  · simp only
    intro i z hz
    have hzn := hm z (List.mem_of_getElem? hz)
    rw [resizeList_get _ _ _ _ hzn]
    have := w.fwd i z hz
    simp [List.getD, this]
  · simp only [resizeList_length]
    intro z hz hn'
    rw [resizeList_get _ _ _ _ hz]
    rcases Nat.lt_or_ge z h.values.length with h1 | h1
    · simp [List.getD, w.non z h1 hn']
    · simp [List.getD, List.getElem?_eq_none (show h.heapPos.length ≤ z by rw [w.len]; exact h1)]

/-- `resize`. -/
theorem resize_ok (w : h.WF) {n : Nat} (x : V) (hn : n ≤ 2 ^ 32) :
    ∃ h', h.resize n x = .ok h' ∧ h'.WF ∧ h'.values = resizeList h.values n x ∧
      (∀ z, z ∈ h'.heap ↔ z < n ∧ z ∈ h.heap) ∧
      (h.values.length ≤ n → h.Ordered → h'.Ordered) := by
  unfold resize
  have : assertM (decide (n ≤ 2 ^ 32)) = .ok () := by
    have : decide (n ≤ 2 ^ 32) = true := by simpa using hn
    rw [this]; rfl
  rw [this, bind_ok]
  by_cases hlt : n < h.values.length
  · rw [if_pos hlt]
    obtain ⟨h1, e1, w1, v1, m1⟩ := dequeueRange_ok (h.values.length - n) n w (by omega)
    rw [e1, bind_ok]
    refine ⟨_, rfl, resizeTail_ok w1 n x hn ?_, by simp [v1], ?_, fun h => absurd h (by omega)⟩
    · intro z hz
      obtain ⟨a, b⟩ := (m1 z).1 hz
      have := w.lt b
      omega
    · intro z
      simp only
      rw [m1]
      constructor
      · rintro ⟨a, b⟩; have := w.lt b; exact ⟨by omega, b⟩
      · rintro ⟨a, b⟩; exact ⟨by omega, b⟩
  · rw [if_neg hlt, bind_pure_ok]
    refine ⟨_, rfl, resizeTail_ok w n x hn ?_, rfl, ?_, ?_⟩
    · intro z hz; have := w.lt hz; omega
    · intro z
      exact ⟨fun hz => ⟨by have := w.lt hz; omega, hz⟩, fun hz => hz.2⟩
    · intro _ ho i hi u v hu hv
      have hk : ∀ i v, key (⟨resizeList h.values n x, resizeList h.heapPos n NONE, h.heap⟩ : Heap V) i
          = some v → h.key i = some v := by
        intro i v
        unfold key
        simp only
        cases hz : h.heap[i]? with
        | none => simp
        | some z =>
          have hzl := w.lt (List.mem_of_getElem? hz)
          simp only [Option.bind_some]
          rw [resizeList_get _ _ _ _ (by omega)]
          intro h
          simpa [List.getD, hzl] using h
      exact ho i hi u v (hk _ _ hu) (hk _ _ hv)

theorem enqueueRange_ok (k i : Nat) (w : h.WF) (hk : k = 0 ∨ i + k ≤ h.values.length) :
    ∃ h', h.enqueueRange i k = .ok h' ∧ h'.WF ∧ h'.values = h.values ∧
      (∀ z, z ∈ h'.heap ↔ (i ≤ z ∧ z < i + k) ∨ z ∈ h.heap) ∧ (h.Ordered → h'.Ordered) := by
  induction k generalizing h i with
  | zero => exact ⟨h, rfl, w, rfl, fun z => ⟨.inr, fun hz => hz.elim (by omega) id⟩, id⟩
  | succ k ih =>
    obtain ⟨h1, e1, w1, v1, m1, o1⟩ := enqueue_ok w (x := i) (by omega)
    obtain ⟨h2, e2, w2, v2, m2, o2⟩ := ih (i + 1) w1 (by rw [v1]; right; omega)
    refine ⟨h2, by simp [enqueueRange, e1, e2], w2, by rw [v2, v1], ?_, fun o => o2 (o1 o)⟩
    intro z
    rw [m2, m1]
    constructor
    · rintro (a | a | a)
      · exact .inl (by omega)
      · exact .inl (by omega)
      · exact .inr a
    · rintro (a | a)
      · by_cases hz : z = i
        · exact .inr (.inl hz)
        · exact .inl (by omega)
      · exact .inr (.inr a)

/-- `resize_enqueued`. -/
theorem resizeEnqueued_ok (w : h.WF) {n : Nat} (x : V) (hn : n ≤ 2 ^ 32) :
    ∃ h', h.resizeEnqueued n x = .ok h' ∧ h'.WF ∧ h'.values = resizeList h.values n x ∧
      (∀ z, z ∈ h'.heap ↔ z < n ∧ (h.values.length ≤ z ∨ z ∈ h.heap)) ∧
      (h.values.length ≤ n → h.Ordered → h'.Ordered) := by
  obtain ⟨h1, e1, w1, v1, m1, o1⟩ := resize_ok w x hn
  obtain ⟨h2, e2, w2, v2, m2, o2⟩ := enqueueRange_ok (n - h.values.length) h.values.length
    (h := h1) w1 (by rw [v1, resizeList_length]; omega)
  · refine ⟨h2, by simp [resizeEnqueued, e1, e2], w2, by rw [v2, v1], ?_,
      fun a b => o2 (o1 a b)⟩
    intro z
    rw [m2, m1]
    constructor
    · rintro (a | ⟨a, b⟩)
      · exact ⟨by omega, .inl a.1⟩
      · exact ⟨a, .inr b⟩
    · rintro ⟨a, b | b⟩
      · exact .inl (by omega)
      · exact .inr ⟨a, b⟩

end Heap

end Starlit
