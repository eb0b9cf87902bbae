import Verif.HeapLemmas

/-!
# Properties C14 and C15: the decision heap
-/

namespace Starlit.Heap

variable {V : Type} [LinearOrder V]

/-- The specification of a heap: a table of values and a set of enqueued keys (as a list). -/
structure Spec (V : Type) where
  values : List V
  queued : List Nat
deriving DecidableEq, Repr

/-- Calls that change a heap. -/
inductive Op (V : Type) where
  | resize (n : Nat) (v : V)
  | resizeEnqueued (n : Nat) (v : V)
  | enqueue (x : Nat)
  | dequeue (x : Nat)
  | increase (x : Nat) (f : V → V)
  | applyMonotone (f : V → V)
  | popMax

/-- One call together with its meaning on the specification. -/
def step (st : Heap V × Spec V) : Op V → M (Heap V × Spec V)
  | .resize n v => do
    let h ← st.1.resize n v
    pure (h, ⟨resizeList st.2.values n v, st.2.queued.filter (· < n)⟩)
  | .resizeEnqueued n v => do
    let h ← st.1.resizeEnqueued n v
    pure (h, ⟨resizeList st.2.values n v,
      st.2.queued.filter (· < n) ++ (List.range n).filter (st.2.values.length ≤ ·)⟩)
  | .enqueue x => do
    let h ← st.1.enqueue x
    pure (h, ⟨st.2.values, x :: st.2.queued⟩)
  | .dequeue x => do
    let h ← st.1.dequeue x
    pure (h, ⟨st.2.values, st.2.queued.filter (· ≠ x)⟩)
  | .increase x f => do
    let h ← st.1.increase x f
    pure (h, ⟨st.2.values.modify x f, st.2.queued⟩)
  | .applyMonotone f => pure (st.1.applyMonotone f, ⟨st.2.values.map f, st.2.queued⟩)
  | .popMax => do
    let (r, h) ← st.1.popMax
    pure (h, ⟨st.2.values, st.2.queued.filter (fun x => some x ≠ r)⟩)

/-- A history of calls. -/
def run : Heap V × Spec V → List (Op V) → M (Heap V × Spec V)
  | st, [] => pure st
  | st, o :: os => do
    let st ← step st o
    run st os

/-- The heap matches the specification. -/
structure Sim (h : Heap V) (S : Spec V) : Prop where
  wf : h.WF
  values : h.values = S.values
  mem : ∀ z, z ∈ h.heap ↔ z ∈ S.queued

/-- The arguments of a call are in range. -/
def Op.InRange (n : Nat) : Op V → Prop
  | .resize m _ => m ≤ 2 ^ 32
  | .resizeEnqueued m _ => m ≤ 2 ^ 32
  | .enqueue x => x < n
  | .dequeue x => x < n
  | .increase x _ => x < n
  | .applyMonotone _ => True
  | .popMax => True

/-- What a call may not do for the heap order to be kept: remove an enqueued key other than through
`pop_max`, decrease a value, or apply a function that is not monotone. -/
def Op.Keeps (S : Spec V) : Op V → Prop
  | .resize n _ => ∀ x ∈ S.queued, x < n
  | .resizeEnqueued n _ => ∀ x ∈ S.queued, x < n
  | .dequeue x => x ∉ S.queued
  | .increase _ f => ∀ v, v ≤ f v
  | .applyMonotone f => ∀ a b, a ≤ b → f a ≤ f b
  | _ => True

variable {h : Heap V} {S : Spec V}

theorem dequeue_noop (w : h.WF) {x : Nat} (hx : x < h.values.length) (hn : x ∉ h.heap) :
    h.dequeue x = .ok h := by
  unfold dequeue
  rcases w.pos_cases hx with ⟨i, h1, h2, h3, h4⟩ | ⟨i, h1, h2, h4⟩
  · exact absurd h4 hn
  · rw [idx_ok h1, bind_ok, if_pos (by omega)]; rfl

theorem dequeueRange_noop (w : h.WF) (k i : Nat) (hk : i + k ≤ h.values.length)
    (hn : ∀ x ∈ h.heap, x < i) : h.dequeueRange i k = .ok h := by
  induction k generalizing i with
  | zero => rfl
  | succ k ih =>
    have hni : i ∉ h.heap := fun hm => by have := hn i hm; omega
    simp only [dequeueRange, dequeue_noop w (show i < h.values.length by omega) hni, bind_ok]
    exact ih (i + 1) (by omega) (fun x hx => by have := hn x hx; omega)

theorem resize_ordered (w : h.WF) (ho : h.Ordered) {n : Nat} (v : V) (hn : n ≤ 2 ^ 32)
    (hq : ∀ x ∈ h.heap, x < n) {h' : Heap V} (e : h.resize n v = .ok h') : h'.Ordered := by
  have hlist : h.resize n v = .ok ⟨resizeList h.values n v, resizeList h.heapPos n NONE, h.heap⟩ := by
    unfold resize
    have : assertM (decide (n ≤ 2 ^ 32)) = .ok () := by
      have : decide (n ≤ 2 ^ 32) = true := by simpa using hn
      rw [this]; rfl
    rw [this, bind_ok]
    by_cases hlt : n < h.values.length
    · rw [if_pos hlt, dequeueRange_noop w _ _ (by omega) hq]; rfl
    · rw [if_neg hlt]; rfl
  rw [hlist] at e
  cases e
  intro i hi a b ha hb
  have hk : ∀ i c, key (⟨resizeList h.values n v, resizeList h.heapPos n NONE, h.heap⟩ : Heap V) i
      = some c → h.key i = some c := by
    intro i c
    unfold key
    simp only
    cases hz : h.heap[i]? with
    | none => simp
    | some z =>
      have hm := List.mem_of_getElem? hz
      have hzl := w.lt hm
      simp only [Option.bind_some]
      rw [resizeList_get _ _ _ _ (hq z hm)]
      intro h
      simpa [List.getD, hzl] using h
  exact ho i hi a b (hk _ _ ha) (hk _ _ hb)

/-- Calls with arguments in range succeed and agree with the specification; other calls panic. -/
theorem Sim.step (s : Sim h S) (o : Op V) :
    (o.InRange S.values.length → ∃ h' S', step (h, S) o = .ok (h', S') ∧ Sim h' S' ∧
      (o.Keeps S → h.Ordered → h'.Ordered)) ∧
    (¬ o.InRange S.values.length → step (h, S) o = .error .panic) := by
  have hv := s.values
  have hpos : ∀ x, ¬ x < S.values.length → idx h.heapPos x = .error .panic := by
    intro x hx
    rw [← hv, ← s.wf.len] at hx
    simp [idx, List.getElem?_eq_none (Nat.le_of_not_lt hx), throw_eq]
  cases o with
  | resize n v =>
    constructor
    · intro hr
      obtain ⟨h', e, w, v', m, _⟩ := resize_ok s.wf v hr
      refine ⟨h', _, by simp only [Heap.step, e, bind_ok]; rfl, ⟨w, by rw [v', hv], ?_⟩, ?_⟩
      · intro z; rw [m, s.mem]; simp [and_comm]
      · intro hk ho
        exact resize_ordered s.wf ho v hr (fun x hx => hk x ((s.mem x).1 hx)) e
    · intro hr
      have : ¬ n ≤ 2 ^ 32 := hr
      simp only [Heap.step, resize, assertM, decide_eq_true_eq, this, if_false, throw_eq, bind_error]
  | resizeEnqueued n v =>
    constructor
    · intro hr
      obtain ⟨h', e, w, v', m, _⟩ := resizeEnqueued_ok s.wf v hr
      refine ⟨h', _, by simp only [Heap.step, e, bind_ok]; rfl, ⟨w, by rw [v', hv], ?_⟩, ?_⟩
      · intro z
        rw [m, s.mem, hv]
        simp only [List.mem_append, List.mem_filter, decide_eq_true_eq, List.mem_range]
        constructor
        · rintro ⟨a, b | b⟩
          · exact .inr ⟨a, b⟩
          · exact .inl ⟨b, a⟩
        · rintro (⟨a, b⟩ | ⟨a, b⟩)
          · exact ⟨b, .inr a⟩
          · exact ⟨a, .inl b⟩
      · intro hk ho
        obtain ⟨h1, e1, w1, v1, m1, _⟩ := resize_ok s.wf v hr
        have ho1 := resize_ordered s.wf ho v hr (fun x hx => hk x ((s.mem x).1 hx)) e1
        obtain ⟨h2, e2, _, _, _, o2⟩ := enqueueRange_ok (n - h.values.length) h.values.length
          (h := h1) w1 (by rw [v1, resizeList_length]; omega)
        have : h.resizeEnqueued n v = .ok h2 := by simp [resizeEnqueued, e1, e2]
        rw [this] at e; cases e
        exact o2 ho1
    · intro hr
      have : ¬ n ≤ 2 ^ 32 := hr
      simp only [Heap.step, resizeEnqueued, resize, assertM, decide_eq_true_eq, this, if_false,
        throw_eq, bind_error]
  | enqueue x =>
    constructor
    · intro hr
      obtain ⟨h', e, w, v', m, ho⟩ := enqueue_ok s.wf (x := x) (by rw [hv]; exact hr)
      refine ⟨h', _, by simp only [Heap.step, e, bind_ok]; rfl, ⟨w, by rw [v', hv], ?_⟩, fun _ => ho⟩
      intro z; rw [m, s.mem]; simp
    · intro hr
      simp [Heap.step, enqueue, hpos x hr]
  | dequeue x =>
    constructor
    · intro hr
      obtain ⟨h', e, w, v', m⟩ := dequeue_ok s.wf (x := x) (by rw [hv]; exact hr)
      refine ⟨h', _, by simp only [Heap.step, e, bind_ok]; rfl, ⟨w, by rw [v', hv], ?_⟩, ?_⟩
      · intro z; rw [m, s.mem]; simp [and_comm]
      · intro hk ho
        have := dequeue_noop s.wf (x := x) (by rw [hv]; exact hr) (fun hm => hk ((s.mem x).1 hm))
        rw [this] at e; cases e; exact ho
    · intro hr
      simp [Heap.step, dequeue, hpos x hr]
  | increase x f =>
    constructor
    · intro hr
      obtain ⟨v, hxv⟩ := exists_getElem? (v := h.values) (i := x) (by rw [hv]; exact hr)
      obtain ⟨h', e, w, v', m, ho⟩ := increase_ok s.wf f hxv
      refine ⟨h', _, by simp only [Heap.step, e, bind_ok]; rfl, ⟨w, ?_, ?_⟩, ?_⟩
      · simp only
        rw [v', ← hv, List.modify_eq_set_getElem?, hxv]; rfl
      · intro z; rw [m, s.mem]
      · intro hk ho'; exact ho ho' (hk v)
    · intro hr
      have hr : ¬ x < S.values.length := hr
      rw [← hv] at hr
      simp [Heap.step, increase, idx, List.getElem?_eq_none (Nat.le_of_not_lt hr), throw_eq]
  | applyMonotone f =>
    refine ⟨fun _ => ?_, fun hr => absurd trivial hr⟩
    obtain ⟨w, ho⟩ := applyMonotone_ok s.wf f
    exact ⟨_, _, rfl, ⟨w, by simp [applyMonotone, hv], s.mem⟩, ho⟩
  | popMax =>
    refine ⟨fun _ => ?_, fun hr => absurd trivial hr⟩
    rcases popMax_ok s.wf with ⟨he, e⟩ | ⟨x, h', e, hx, w, v', m, ho⟩
    · refine ⟨h, ⟨S.values, S.queued.filter (fun x => some x ≠ (none : Option Nat))⟩,
        by simp only [Heap.step, e, bind_ok]; rfl, ⟨s.wf, hv, ?_⟩, fun _ => id⟩
      intro z; rw [s.mem]; simp
    · refine ⟨_, _, by simp only [Heap.step, e, bind_ok]; rfl, ⟨w, by rw [v', hv], ?_⟩,
        fun _ hh => (ho hh).1⟩
      intro z; rw [m, s.mem]; simp [and_comm]

theorem sim_empty : Sim (empty : Heap V) ⟨[], []⟩ := ⟨wf_empty, rfl, by simp [empty]⟩

theorem run_sim (os : List (Op V)) {h0 : Heap V} {S0 : Spec V} (s : Sim h0 S0)
    (hr : run (h0, S0) os = .ok (h, S)) : Sim h S := by
  induction os generalizing h0 S0 with
  | nil =>
    simp only [run, pure_eq, Except.ok.injEq, Prod.mk.injEq] at hr
    obtain ⟨rfl, rfl⟩ := hr
    exact s
  | cons o os ih =>
    simp only [run] at hr
    rw [bind_eq_ok] at hr
    obtain ⟨⟨h1, S1⟩, e1, e2⟩ := hr
    by_cases ho : o.InRange S0.values.length
    · obtain ⟨h', S', e, s', _⟩ := (s.step o).1 ho
      rw [e] at e1; cases e1
      exact ih s' e2
    · rw [(s.step o).2 ho] at e1; cases e1

/-- C15: after any history of calls the heap is the specified table and set: `Index` and
`is_enqueued` read the table and the set; `pop_max` returns `None` exactly if the set is empty and
a member otherwise; and any further call panics exactly if its arguments are out of range. (That
each call changes only the named key is part of the definition of `step` on the specification.) -/
theorem C15_set_semantics (os : List (Op V)) (h : Heap V) (S : Spec V)
    (hr : run (empty, ⟨[], []⟩) os = .ok (h, S)) :
    (∀ x, h.get x = idx S.values x) ∧
    (∀ x, x < S.values.length → h.isEnqueued x = .ok (decide (x ∈ S.queued))) ∧
    (∀ x, S.values.length ≤ x → h.isEnqueued x = .error .panic) ∧
    (S.queued = [] → h.popMax = .ok (none, h)) ∧
    (S.queued ≠ [] → ∃ x h', h.popMax = .ok (some x, h') ∧ x ∈ S.queued) ∧
    (∀ o : Op V, o.InRange S.values.length → ∃ st, step (h, S) o = .ok st) ∧
    (∀ o : Op V, ¬ o.InRange S.values.length → step (h, S) o = .error .panic) := by
  have s := run_sim os sim_empty hr
  refine ⟨?_, ?_, ?_, ?_, ?_, ?_, ?_⟩
  · intro x; rw [get, s.values]
  · intro x hx
    rw [isEnqueued_eq s.wf (by rw [s.values]; exact hx)]
    congr 1
    exact decide_eq_decide.2 (s.mem x)
  · intro x hx
    have : h.heapPos.length ≤ x := by rw [s.wf.len, s.values]; exact hx
    simp [isEnqueued, idx, List.getElem?_eq_none this, throw_eq]
  · intro hq
    rcases popMax_ok s.wf with ⟨_, e⟩ | ⟨x, h', e, hx, _⟩
    · exact e
    · rw [s.mem, hq] at hx; simp at hx
  · intro hq
    rcases popMax_ok s.wf with ⟨he, e⟩ | ⟨x, h', e, hx, _⟩
    · exfalso
      obtain ⟨z, hz⟩ := List.exists_mem_of_ne_nil _ hq
      rw [← s.mem, he] at hz; simp at hz
    · exact ⟨x, h', e, (s.mem x).1 hx⟩
  · intro o ho
    obtain ⟨h', S', e, _⟩ := (s.step o).1 ho
    exact ⟨_, e⟩
  · intro o ho; exact (s.step o).2 ho

/-- No call of the history removes an enqueued key other than through `pop_max`, decreases a value
or applies a function that is not monotone. -/
def Keeping : Heap V × Spec V → List (Op V) → Prop
  | _, [] => True
  | st, o :: os => o.Keeps st.2 ∧ ∀ st', step st o = .ok st' → Keeping st' os

theorem run_ordered (os : List (Op V)) {h0 : Heap V} {S0 : Spec V} (s : Sim h0 S0)
    (ho : h0.Ordered) (hk : Keeping (h0, S0) os) (hr : run (h0, S0) os = .ok (h, S)) :
    h.Ordered := by
  induction os generalizing h0 S0 with
  | nil =>
    simp only [run, pure_eq, Except.ok.injEq, Prod.mk.injEq] at hr
    obtain ⟨rfl, rfl⟩ := hr
    exact ho
  | cons o os ih =>
    simp only [run] at hr
    rw [bind_eq_ok] at hr
    obtain ⟨⟨h1, S1⟩, e1, e2⟩ := hr
    by_cases hi : o.InRange S0.values.length
    · obtain ⟨h', S', e, s', o'⟩ := (s.step o).1 hi
      have := hk.2 _ e
      rw [e] at e1; cases e1
      exact ih s' (o' hk.1 ho) this e2
    · rw [(s.step o).2 hi] at e1; cases e1

/-- What holds of C14: after any history in which enqueued keys are only removed by `pop_max`,
`pop_max` returns an enqueued key with maximal value and removes exactly that key.
Missing: histories that dequeue an enqueued key (directly or by shrinking the table), for which the
claim is false (`C14_false`). -/
theorem C14_pop_max_partial (os : List (Op V)) (hk : Keeping (empty, ⟨[], []⟩) os) (h : Heap V)
    (S : Spec V) (hr : run (empty, ⟨[], []⟩) os = .ok (h, S)) (hne : S.queued ≠ []) :
    ∃ x m h', h.popMax = .ok (some x, h') ∧ x ∈ S.queued ∧ S.values[x]? = some m ∧
      (∀ y ∈ S.queued, ∀ v, S.values[y]? = some v → v ≤ m) ∧
      (∀ y, y < S.values.length → h'.isEnqueued y = .ok (decide (y ≠ x ∧ y ∈ S.queued))) := by
  have s := run_sim os sim_empty hr
  have ho := run_ordered os sim_empty ordered_empty hk hr
  rcases popMax_ok s.wf with ⟨he, e⟩ | ⟨x, h', e, hx, w, v', m, hmax⟩
  · exfalso
    obtain ⟨z, hz⟩ := List.exists_mem_of_ne_nil _ hne
    rw [← s.mem, he] at hz; simp at hz
  · obtain ⟨mv, hmv⟩ := exists_getElem? (s.wf.lt hx)
    refine ⟨x, mv, h', e, (s.mem x).1 hx, by rw [← s.values]; exact hmv, ?_, ?_⟩
    · intro y hy v hv
      rw [← s.values] at hv
      exact (hmax ho).2 mv hmv y ((s.mem y).2 hy) v hv
    · intro y hy
      rw [isEnqueued_eq w (by rw [v', s.values]; exact hy)]
      congr 1
      refine decide_eq_decide.2 ?_
      rw [m, s.mem]

/-- The history of the counterexample: six enqueued keys with values 10, 9, 5, 8, 7, 1; key 1 is
dequeued, and the largest key is popped. -/
def badHistory : List (Op Nat) :=
  [.resize 6 0, .increase 0 (· + 10), .increase 1 (· + 9), .increase 2 (· + 5), .increase 3 (· + 8),
   .increase 4 (· + 7), .increase 5 (· + 1), .enqueue 0, .enqueue 1, .enqueue 2, .enqueue 3,
   .enqueue 4, .enqueue 5, .dequeue 1, .popMax]

/-- C14 is false for the code: after a `dequeue`, `pop_max` can return a key that is not maximal.
(`dequeue_usize`, heap.rs:117-121, moves the replacement in the wrong direction.) -/
theorem C14_false : ∃ (os : List (Op Nat)) (h h' : Heap Nat) (S : Spec Nat) (x y : Nat),
    run (empty, ⟨[], []⟩) os = .ok (h, S) ∧ h.popMax = .ok (some x, h') ∧ y ∈ S.queued ∧
    S.values[x]? = some 7 ∧ S.values[y]? = some 8 := by
  refine ⟨badHistory, ⟨[10, 9, 5, 8, 7, 1], [NONE, NONE, 2, 3, 0, 1], [4, 5, 2, 3]⟩,
    ⟨[10, 9, 5, 8, 7, 1], [NONE, NONE, 2, 0, NONE, 1], [3, 5, 2]⟩,
    ⟨[10, 9, 5, 8, 7, 1], [5, 4, 3, 2]⟩, 4, 3, ?_, ?_, ?_, ?_, ?_⟩ <;> decide +kernel

/-- The hypotheses of the theorems can be met: a history with all other calls. -/
def goodHistory : List (Op Nat) :=
  [.resizeEnqueued 4 1, .increase 2 (· + 5), .applyMonotone (· / 2), .popMax, .resize 6 3,
   .enqueue 5, .increase 1 (· + 2), .dequeue 2]

example : ∃ h S, run (empty, ⟨[], []⟩) goodHistory = .ok (h, S) ∧ S = ⟨[0, 2, 3, 0, 3, 3], [5, 0, 1, 3]⟩ ∧
    Keeping (empty, ⟨[], []⟩) goodHistory := by
  refine ⟨⟨[0, 2, 3, 0, 3, 3], [2, 1, NONE, 3, NONE, 0], [5, 1, 0, 3]⟩, _, by decide +kernel, rfl, ?_⟩
  have key : ∀ (st : Heap Nat × Spec Nat) (o : Op Nat) (os : List (Op Nat)) (st' : Heap Nat × Spec Nat),
      o.Keeps st.2 → step st o = .ok st' → Keeping st' os → Keeping st (o :: os) := by
    intro st o os st' h1 h2 h3
    refine ⟨h1, fun st'' e => ?_⟩
    rw [h2] at e; cases e; exact h3
  refine key _ _ _ _ (by simp [Op.Keeps]) rfl ?_
  refine key _ _ _ _ (by simp [Op.Keeps]) rfl ?_
  refine key _ _ _ _ (by simp only [Op.Keeps]; intros; omega) rfl ?_
  refine key _ _ _ _ trivial rfl ?_
  refine key _ _ _ _ (by simp only [Op.Keeps]; decide) rfl ?_
  refine key _ _ _ _ trivial rfl ?_
  refine key _ _ _ _ (by simp [Op.Keeps]) rfl ?_
  refine key _ _ _ _ (by simp only [Op.Keeps]; decide) rfl ?_
  trivial

end Starlit.Heap
