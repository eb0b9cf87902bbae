import Mathlib.Data.Nat.Log
import Verif.Props.Heap
import Verif.Props.Linear

/-!
# C70: operations of the decision heap take logarithmic time

The functions of `heap.rs` again, with the number of iterations of their loops.
-/

namespace Starlit

namespace Heap

variable {V : Type} [LinearOrder V]

/-- `rootLoop` (`/repo/starlit/src/heap.rs:178-185`) with the number of iterations. -/
def rootLoopT (value : V) : Nat → Heap V → Nat → M (Nat × Heap V)
  | 0, h, pos => if pos = 0 then pure (0, h) else throw .fuel
  | fuel + 1, h, pos =>
    if pos > 0 then do
      let parent := (pos - 1) / 2
      let pv ← h.valueAt parent
      if pv < value then do
        let h ← h.swap pos parent
        let (k, h) ← rootLoopT value fuel h parent
        pure (k + 1, h)
      else pure (1, h)
    else pure (0, h)

/-- `move_towards_root` (`/repo/starlit/src/heap.rs:176-186`). -/
def moveTowardsRootT (h : Heap V) (pos : Nat) : M (Nat × Heap V) := do
  let value ← h.valueAt pos
  rootLoopT value pos h pos

/-- `leavesLoop` (`/repo/starlit/src/heap.rs:194-220`) with the number of iterations. -/
def leavesLoopT (value : V) : Nat → Heap V → Nat → M (Nat × Heap V)
  | 0, _, _ => throw .fuel
  | fuel + 1, h, pos => do
    let spos ← pickChild value h pos
    if spos = pos then pure (1, h)
    else do
      let h ← h.swap pos spos
      let (k, h) ← leavesLoopT value fuel h spos
      pure (k + 1, h)

/-- `move_towards_leaves` (`/repo/starlit/src/heap.rs:191-221`). -/
def moveTowardsLeavesT (h : Heap V) (pos : Nat) : M (Nat × Heap V) := do
  let value ← h.valueAt pos
  leavesLoopT value h.heap.length h pos

/-- `dequeue_usize` (`/repo/starlit/src/heap.rs:101-123`). -/
def dequeueT (h : Heap V) (index : Nat) : M (Nat × Heap V) := do
  let pos ← idx h.heapPos index
  if pos ≥ h.heap.length then pure (0, h)
  else do
    let other := h.heap.length - 1
    if other = pos then do
      let h ← h.popLast index
      pure (0, h)
    else do
      let h ← h.swap other pos
      let h ← h.popLast index
      let ov ← h.valueAt pos
      let iv ← idx h.values index
      if iv < ov then h.moveTowardsLeavesT pos else h.moveTowardsRootT pos

/-- `enqueue_usize` (`/repo/starlit/src/heap.rs:133-144`). -/
def enqueueT (h : Heap V) (index : Nat) : M (Nat × Heap V) := do
  let pos ← idx h.heapPos index
  if pos < h.heap.length then pure (0, h)
  else do
    let pos := h.heap.length
    let heapPos ← upd h.heapPos index (pos % 2 ^ 32)
    moveTowardsRootT { h with heap := h.heap ++ [index % 2 ^ 32], heapPos } pos

/-- `pop_max` (`/repo/starlit/src/heap.rs:147-173`). -/
def popMaxT (h : Heap V) : M (Nat × Option Nat × Heap V) :=
  match h.heap with
  | [] => pure (0, none, h)
  | index :: _ => do
    let other := h.heap.length - 1
    let (k, h) ←
      if other = 0 then do
        let h ← h.popLast index
        pure (0, h)
      else do
        let h ← h.swap other 0
        let h ← h.popLast index
        h.moveTowardsLeavesT 0
    pure (k, some index, h)

/-- `increase_usize` (`/repo/starlit/src/heap.rs:232-239`). -/
def increaseT (h : Heap V) (index : Nat) (f : V → V) : M (Nat × Heap V) := do
  let v ← idx h.values index
  let values ← upd h.values index (f v)
  let h := { h with values }
  let pos ← idx h.heapPos index
  if pos < h.heap.length then h.moveTowardsRootT pos else pure (0, h)

/-! ## The counted functions are those of the model -/

theorem rootLoopT_erase (value : V) (fuel : Nat) : ∀ (h : Heap V) (pos : Nat),
    Except.map Prod.snd (rootLoopT value fuel h pos) = rootLoop value fuel h pos := by
  induction fuel with
  | zero => intro h pos; unfold rootLoopT rootLoop; split <;> rfl
  | succ fuel ih =>
    intro h pos
    unfold rootLoopT rootLoop
    split
    · simp only [map_snd_bind]
      congr 1; funext pv
      split
      · simp only [map_snd_bind]
        congr 1; funext h1
        rw [← ih]
        cases rootLoopT value fuel h1 ((pos - 1) / 2) <;> rfl
      · rfl
    · rfl

theorem moveTowardsRootT_erase (h : Heap V) (pos : Nat) :
    Except.map Prod.snd (h.moveTowardsRootT pos) = h.moveTowardsRoot pos := by
  unfold moveTowardsRootT moveTowardsRoot
  simp only [map_snd_bind, rootLoopT_erase]

theorem leavesLoopT_erase (value : V) (fuel : Nat) : ∀ (h : Heap V) (pos : Nat),
    Except.map Prod.snd (leavesLoopT value fuel h pos) = leavesLoop value fuel h pos := by
  induction fuel with
  | zero => intro h pos; rfl
  | succ fuel ih =>
    intro h pos
    unfold leavesLoopT leavesLoop
    simp only [map_snd_bind]
    congr 1; funext spos
    split
    · rfl
    · simp only [map_snd_bind]
      congr 1; funext h1
      rw [← ih]
      cases leavesLoopT value fuel h1 spos <;> rfl

theorem moveTowardsLeavesT_erase (h : Heap V) (pos : Nat) :
    Except.map Prod.snd (h.moveTowardsLeavesT pos) = h.moveTowardsLeaves pos := by
  unfold moveTowardsLeavesT moveTowardsLeaves
  simp only [map_snd_bind, leavesLoopT_erase]

theorem dequeueT_erase (h : Heap V) (x : Nat) : Except.map Prod.snd (h.dequeueT x) = h.dequeue x := by
  unfold dequeueT dequeue
  simp only [map_snd_bind]
  congr 1; funext pos
  split
  · rfl
  split
  · cases h.popLast x <;> rfl
  simp only [map_snd_bind]
  congr 1; funext h1
  congr 1; funext h2
  congr 1; funext ov
  congr 1; funext iv
  split
  · exact moveTowardsLeavesT_erase _ _
  · exact moveTowardsRootT_erase _ _

theorem enqueueT_erase (h : Heap V) (x : Nat) : Except.map Prod.snd (h.enqueueT x) = h.enqueue x := by
  unfold enqueueT enqueue
  simp only [map_snd_bind]
  congr 1; funext pos
  split
  · rfl
  simp only [map_snd_bind, moveTowardsRootT_erase]

theorem popMaxT_erase (h : Heap V) : Except.map Prod.snd h.popMaxT = h.popMax := by
  unfold popMaxT popMax
  cases h.heap with
  | nil => rfl
  | cons index l =>
    simp only
    by_cases ho : (index :: l).length - 1 = 0
    · simp only [if_pos ho]
      cases h.popLast index <;> rfl
    · simp only [if_neg ho]
      cases h.swap ((index :: l).length - 1) 0 with
      | error e => rfl
      | ok h1 =>
        simp only [bind_ok]
        cases h1.popLast index with
        | error e => rfl
        | ok h2 =>
          simp only [bind_ok, ← moveTowardsLeavesT_erase]
          cases h2.moveTowardsLeavesT 0 <;> rfl

theorem increaseT_erase (h : Heap V) (x : Nat) (f : V → V) :
    Except.map Prod.snd (h.increaseT x f) = h.increase x f := by
  unfold increaseT increase
  simp only [map_snd_bind]
  congr 1; funext v
  congr 1; funext vs
  congr 1; funext pos
  split
  · exact moveTowardsRootT_erase _ _
  · rfl

/-! ## The bounds -/

theorem log_half {pos : Nat} (h : 0 < pos) : Nat.log 2 ((pos - 1) / 2 + 1) + 1 = Nat.log 2 (pos + 1) := by
  rw [show (pos - 1) / 2 + 1 = (pos + 1) / 2 by omega, Nat.log_div_base]
  have : 0 < Nat.log 2 (pos + 1) := Nat.log_pos (by omega) (by omega)
  omega

theorem rootLoopT_le (value : V) (fuel : Nat) : ∀ {h h' : Heap V} {pos t : Nat},
    rootLoopT value fuel h pos = .ok (t, h') → t ≤ Nat.log 2 (pos + 1) := by
  induction fuel with
  | zero =>
    intro h h' pos t e
    unfold rootLoopT at e
    split at e
    · cases e; omega
    · cases e
  | succ fuel ih =>
    intro h h' pos t e
    unfold rootLoopT at e
    split at e
    · rename_i hp
      have hl := log_half hp
      obtain ⟨pv, _, e⟩ := bind_eq_ok.1 e
      split at e
      · obtain ⟨h1, _, e⟩ := bind_eq_ok.1 e
        obtain ⟨⟨k, h2⟩, e2, e⟩ := bind_eq_ok.1 e
        have := ih e2
        cases e
        omega
      · cases e; omega
    · cases e; omega

theorem moveTowardsRootT_le {h h' : Heap V} {pos t : Nat} (e : h.moveTowardsRootT pos = .ok (t, h')) :
    t ≤ Nat.log 2 (pos + 1) ∧ pos < h.heap.length := by
  unfold moveTowardsRootT at e
  obtain ⟨v, e1, e⟩ := bind_eq_ok.1 e
  refine ⟨rootLoopT_le _ _ e, ?_⟩
  unfold valueAt at e1
  obtain ⟨x, e1, _⟩ := bind_eq_ok.1 e1
  exact (List.getElem?_eq_some_iff.1 (idx_eq_ok.1 e1)).1

theorem swapAt_length {α : Type} {v w : List α} {i j : Nat} (e : swapAt v i j = .ok w) : w.length = v.length := by
  unfold swapAt at e
  obtain ⟨x, _, e⟩ := bind_eq_ok.1 e
  obtain ⟨y, _, e⟩ := bind_eq_ok.1 e
  cases e
  simp

omit [LinearOrder V] in
theorem swap_length {h h' : Heap V} {a b : Nat} (e : h.swap a b = .ok h') : h'.heap.length = h.heap.length := by
  unfold swap at e
  obtain ⟨w, e1, e⟩ := bind_eq_ok.1 e
  obtain ⟨x, _, e⟩ := bind_eq_ok.1 e
  obtain ⟨y, _, e⟩ := bind_eq_ok.1 e
  obtain ⟨z, _, e⟩ := bind_eq_ok.1 e
  cases e
  exact swapAt_length e1

theorem pickChild_pos {value : V} {h : Heap V} {pos s : Nat} (e : pickChild value h pos = .ok s) :
    s = pos ∨ 2 * pos + 1 ≤ s ∧ s < h.heap.length := by
  have right : ∀ {q : Nat} {sv : V}, (q = pos ∨ 2 * pos + 1 ≤ q ∧ q < h.heap.length) →
      (if pos * 2 + 2 < h.heap.length then do
        let rv ← h.valueAt (pos * 2 + 2)
        if sv < rv then pure (pos * 2 + 2) else pure q
      else pure q : M Nat) = .ok s → s = pos ∨ 2 * pos + 1 ≤ s ∧ s < h.heap.length := by
    intro q sv hq e
    split at e
    · obtain ⟨rv, _, e⟩ := bind_eq_ok.1 e
      split at e <;> cases e
      · right; omega
      · exact hq
    · cases e; exact hq
  unfold pickChild at e
  simp only at e
  split at e
  · obtain ⟨lv, _, e⟩ := bind_eq_ok.1 e
    split at e
    · exact right (.inr (by omega)) e
    · exact right (.inl rfl) e
  · exact right (.inl rfl) e

theorem leavesLoopT_le (value : V) (fuel : Nat) : ∀ {h h' : Heap V} {pos t : Nat}, pos < h.heap.length →
    leavesLoopT value fuel h pos = .ok (t, h') → t + Nat.log 2 (pos + 1) ≤ Nat.log 2 h.heap.length + 1 := by
  induction fuel with
  | zero => intro h h' pos t _ e; cases e
  | succ fuel ih =>
    intro h h' pos t hp e
    have hm : Nat.log 2 (pos + 1) ≤ Nat.log 2 h.heap.length := Nat.log_mono_right (by omega)
    unfold leavesLoopT at e
    obtain ⟨s, e1, e⟩ := bind_eq_ok.1 e
    split at e
    · cases e; omega
    · rename_i hne
      obtain ⟨h1, e2, e⟩ := bind_eq_ok.1 e
      obtain ⟨⟨k, h2⟩, e3, e⟩ := bind_eq_ok.1 e
      obtain ⟨a, b⟩ := (pickChild_pos e1).resolve_left hne
      have hl := swap_length e2
      have := ih (by omega) e3
      have hd : Nat.log 2 (pos + 1) + 1 ≤ Nat.log 2 (s + 1) := by
        rw [← Nat.log_mul_base (by omega) (by omega)]
        exact Nat.log_mono_right (by omega)
      rw [hl] at this
      cases e
      omega

theorem moveTowardsLeavesT_le {h h' : Heap V} {pos t : Nat} (e : h.moveTowardsLeavesT pos = .ok (t, h')) :
    t ≤ Nat.log 2 h.heap.length + 1 := by
  unfold moveTowardsLeavesT at e
  obtain ⟨v, e1, e⟩ := bind_eq_ok.1 e
  unfold valueAt at e1
  obtain ⟨x, e1, _⟩ := bind_eq_ok.1 e1
  have := leavesLoopT_le _ _ (List.getElem?_eq_some_iff.1 (idx_eq_ok.1 e1)).1 e
  omega

omit [LinearOrder V] in
theorem popLast_length {h h' : Heap V} {x : Nat} (e : h.popLast x = .ok h') :
    h'.heap.length = h.heap.length - 1 := by
  unfold popLast at e
  obtain ⟨w, e1, e⟩ := bind_eq_ok.1 e
  cases e
  simp

/-- C70: `enqueue` runs through its loop at most `log₂` of the new size times. -/
theorem C70_enqueue {h h' : Heap V} {x t : Nat} (e : h.enqueueT x = .ok (t, h')) :
    t ≤ Nat.log 2 (h.heap.length + 1) := by
  unfold enqueueT at e
  obtain ⟨pos, _, e⟩ := bind_eq_ok.1 e
  split at e
  · cases e; omega
  · obtain ⟨hp, _, e⟩ := bind_eq_ok.1 e
    exact (moveTowardsRootT_le e).1

/-- C70: `increase` runs through its loop at most `log₂` of the size times. -/
theorem C70_increase {h h' : Heap V} {x t : Nat} {f : V → V} (e : h.increaseT x f = .ok (t, h')) :
    t ≤ Nat.log 2 h.heap.length := by
  unfold increaseT at e
  obtain ⟨v, _, e⟩ := bind_eq_ok.1 e
  obtain ⟨vs, _, e⟩ := bind_eq_ok.1 e
  obtain ⟨pos, _, e⟩ := bind_eq_ok.1 e
  split at e
  · rename_i hp
    exact Nat.le_trans (moveTowardsRootT_le e).1 (Nat.log_mono_right hp)
  · cases e; omega

/-- C70: `pop_max` runs through its loop at most `log₂` of the size plus one times. -/
theorem C70_popMax {h h' : Heap V} {t : Nat} {r : Option Nat} (e : h.popMaxT = .ok (t, r, h')) :
    t ≤ Nat.log 2 h.heap.length + 1 := by
  have hm : Nat.log 2 (h.heap.length - 1) ≤ Nat.log 2 h.heap.length := Nat.log_mono_right (by omega)
  unfold popMaxT at e
  split at e
  · cases e; omega
  · simp only at e
    split at e
    · obtain ⟨h2, _, e⟩ := bind_eq_ok.1 e
      cases e; omega
    · obtain ⟨h2, e2, e⟩ := bind_eq_ok.1 e
      obtain ⟨h3, e3, e⟩ := bind_eq_ok.1 e
      obtain ⟨⟨k, h4⟩, e4, e⟩ := bind_eq_ok.1 e
      have := moveTowardsLeavesT_le e4
      rw [popLast_length e3, swap_length e2] at this
      cases e
      omega

/-- C70: `dequeue` runs through its loop at most `log₂` of the size plus one times. -/
theorem C70_dequeue {h h' : Heap V} {x t : Nat} (e : h.dequeueT x = .ok (t, h')) :
    t ≤ Nat.log 2 h.heap.length + 1 := by
  unfold dequeueT at e
  obtain ⟨pos, _, e⟩ := bind_eq_ok.1 e
  split at e
  · cases e; omega
  simp only at e
  split at e
  · obtain ⟨h2, _, e⟩ := bind_eq_ok.1 e
    cases e; omega
  · obtain ⟨h2, e2, e⟩ := bind_eq_ok.1 e
    obtain ⟨h3, e3, e⟩ := bind_eq_ok.1 e
    obtain ⟨ov, _, e⟩ := bind_eq_ok.1 e
    obtain ⟨iv, _, e⟩ := bind_eq_ok.1 e
    have hl : h3.heap.length = h.heap.length - 1 := by rw [popLast_length e3, swap_length e2]
    have hm : Nat.log 2 (h.heap.length - 1) ≤ Nat.log 2 h.heap.length := Nat.log_mono_right (by omega)
    split at e
    · have := moveTowardsLeavesT_le e
      rw [hl] at this
      omega
    · have := moveTowardsRootT_le e
      have hm' : Nat.log 2 (pos + 1) ≤ Nat.log 2 h.heap.length := Nat.log_mono_right (by omega)
      omega

/-- C70: the counted functions are those of the model. -/
theorem C70_counted (h : Heap V) (x : Nat) (f : V → V) :
    Except.map Prod.snd (h.enqueueT x) = h.enqueue x ∧ Except.map Prod.snd (h.increaseT x f) = h.increase x f ∧
    Except.map Prod.snd h.popMaxT = h.popMax ∧ Except.map Prod.snd (h.dequeueT x) = h.dequeue x :=
  ⟨enqueueT_erase h x, increaseT_erase h x f, popMaxT_erase h, dequeueT_erase h x⟩

end Heap

/-- The bounds for `pop_max`, `enqueue` and `increase` are reached: with the values 8, …, 2 for the keys 0, …, 6, `pop_max`
removes key 0 and moves key 6 to a leaf in three iterations; key 0 moves to the root again in two when it is enqueued;
key 2, now the last one, goes up in two when its value is increased; and removing key 6, a leaf, takes one. -/
theorem C70_example : (do
    let h ← (Heap.empty : Heap Nat).resizeEnqueued 7 0
    let h ← h.increase 0 (· + 8)
    let h ← h.increase 1 (· + 7)
    let h ← h.increase 2 (· + 6)
    let h ← h.increase 3 (· + 5)
    let h ← h.increase 4 (· + 4)
    let h ← h.increase 5 (· + 3)
    let h ← h.increase 6 (· + 2)
    let n1 := h.heap.length
    let (t1, x, h) ← h.popMaxT
    let n2 := h.heap.length
    let (t2, h) ← h.enqueueT 0
    let n3 := h.heap.length
    let (t3, h) ← h.increaseT 2 (· + 30)
    let n4 := h.heap.length
    let (t4, h) ← h.dequeueT 6
    pure ([n1, t1, n2, t2, n3, t3, n4, t4], x, h.heap) : M (List Nat × Option Nat × List Nat)) =
      .ok ([7, 3, 6, 2, 7, 2, 7, 1], some 0, [2, 3, 0, 1, 4, 5]) := by
  decide +kernel

end Starlit
