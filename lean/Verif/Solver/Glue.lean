import Mathlib.Data.Finset.Card
import Mathlib.Data.Finset.Basic
import Verif.Solver.Backtrack

/-!
# Glue computation
-/

namespace Starlit

/-- No flag is set. -/
def AllFalse (fs : List Bool) : Prop := ∀ k : Nat, fs[k]? ≠ some true

theorem AllFalse.resize {fs : List Bool} (h : AllFalse fs) (n : Nat) :
    AllFalse (Heap.resizeList fs n false) := by
  intro k hk
  by_cases hn : k < n
  · rw [Heap.resizeList_get _ _ _ _ hn] at hk
    injection hk with hk
    rw [List.getD_eq_getElem?_getD] at hk
    cases hx : fs[k]? with
    | none => rw [hx] at hk; simp at hk
    | some b => rw [hx] at hk; simp at hk; subst hk; exact h k hx
  · rw [List.getElem?_eq_none (by rw [Heap.resizeList_length]; omega)] at hk
    simp at hk

/-- The level at which the variable of a literal was assigned. -/
def LevelOf (t : Trail) (l : Lit) (k : Nat) : Prop := ∃ s, t.stepForVar l.index = .ok s ∧ s.level = k

theorem stepForVar_ok {t : Trail} {v j : Nat} {s : Step} (h1 : t.trailIndex[v]? = some j)
    (h2 : t.steps[j]? = some s) (h3 : s.lit.index = v) : t.stepForVar v = .ok s := by
  unfold Trail.stepForVar
  rw [Trail.indexOf_ok h1 h2 h3, bind_ok, idx_ok h2]

theorem TrailInv.levelOf {n : Nat} {values : PartialAssignment} {t : Trail}
    (h : TrailInv n values t) {s : Step} (hs : s ∈ t.steps) {l : Lit}
    (hl : s.lit.index = l.index) : LevelOf t l s.level := by
  obtain ⟨j, s', h1, h2, h3, h4⟩ := h.step_of_mem hs
  exact ⟨s', stepForVar_ok (by rw [← hl]; exact h1) h2 (by rw [h3, hl]), h4⟩

theorem getElem?_set_true {fs : List Bool} {i k : Nat} (hi : i < fs.length) :
    (fs.set i true)[k]? = some true ↔ k = i ∨ fs[k]? = some true := by
  by_cases h : i = k
  · subst h; simp [hi]
  · rw [List.getElem?_set_ne h]
    constructor
    · exact .inr
    · rintro (e | e)
      · exact absurd e.symm h
      · exact e

theorem getElem?_set_false {fs : List Bool} {i k : Nat} :
    (fs.set i false)[k]? = some true ↔ k ≠ i ∧ fs[k]? = some true := by
  by_cases h : i = k
  · subst h
    simp only [ne_eq, not_true, false_and, iff_false]
    rw [List.getElem?_set, if_pos rfl]
    split <;> simp
  · rw [List.getElem?_set_ne h]
    constructor
    · intro e; exact ⟨fun c => h c.symm, e⟩
    · exact fun e => e.2

section
variable {t : Trail} {lv : Lit → Nat}

theorem glueMark_spec (ls : List Lit) : ∀ (tmp : List Bool) (G : Finset Nat),
    (∀ k, tmp[k]? = some true ↔ k ∈ G) → (∀ l ∈ ls, LevelOf t l (lv l) ∧ lv l < tmp.length) →
    ∃ tmp', glueMark t ls tmp G.card = .ok (tmp', (G ∪ (ls.map lv).toFinset).card) ∧
      tmp'.length = tmp.length ∧ ∀ k, tmp'[k]? = some true ↔ k ∈ G ∪ (ls.map lv).toFinset := by
  induction ls with
  | nil => intro tmp G hG _; exact ⟨tmp, by simp [glueMark]; rfl, rfl, by simpa using hG⟩
  | cons l ls ih =>
    intro tmp G hG hl
    obtain ⟨⟨s, e1, e2⟩, h2⟩ := hl l (by simp)
    rw [← e2] at h2
    obtain ⟨tmp', i1, i2, i3⟩ := ih (tmp.set s.level true) (insert (lv l) G) (by
        intro k
        rw [getElem?_set_true h2, hG, Finset.mem_insert, e2]) (by
        intro x hx
        have := hl x (by simp [hx])
        simpa using this)
    have hset : insert (lv l) G ∪ (ls.map lv).toFinset = G ∪ ((l :: ls).map lv).toFinset := by
      ext k
      simp only [Finset.mem_union, Finset.mem_insert, List.map_cons, List.toFinset_cons]
      tauto
    refine ⟨tmp', ?_, by simpa using i2, by rw [← hset]; exact i3⟩
    rw [← hset, ← i1]
    have hx := List.getElem?_eq_getElem h2
    simp only [glueMark, e1, bind_ok]
    rw [idx_ok hx, bind_ok, upd_ok h2, bind_ok]
    congr 1
    by_cases hb : tmp[s.level] = true
    · rw [hb] at hx
      have hm := (hG _).1 hx
      rw [e2] at hm
      rw [if_pos hb, Finset.insert_eq_of_mem hm]
    · have hm : lv l ∉ G := by
        intro hm
        rw [← e2, ← hG, hx] at hm
        simp at hm; exact hb hm
      rw [if_neg hb, Finset.card_insert_of_notMem hm]

theorem glueClear_spec (ls : List Lit) : ∀ (tmp : List Bool),
    (∀ l ∈ ls, LevelOf t l (lv l) ∧ lv l < tmp.length) →
    ∃ tmp', glueClear t ls tmp = .ok tmp' ∧ tmp'.length = tmp.length ∧
      ∀ k, tmp'[k]? = some true ↔ tmp[k]? = some true ∧ k ∉ ls.map lv := by
  induction ls with
  | nil => intro tmp _; exact ⟨tmp, rfl, rfl, by simp⟩
  | cons l ls ih =>
    intro tmp hl
    obtain ⟨⟨s, e1, e2⟩, h2⟩ := hl l (by simp)
    rw [← e2] at h2
    obtain ⟨tmp', i1, i2, i3⟩ := ih (tmp.set s.level false) (by
        intro x hx
        have := hl x (by simp [hx])
        simpa using this)
    refine ⟨tmp', ?_, by simpa using i2, ?_⟩
    · simp only [glueClear, e1, bind_ok]
      rw [upd_ok h2, bind_ok, i1]
    · intro k
      rw [i3, getElem?_set_false, e2]
      simp only [List.map_cons, List.mem_cons]
      tauto

/-- `compute_glue` counts the levels and cleans up. -/
theorem computeGlue_spec {ls : List Lit} {tmp : List Bool} (hf : AllFalse tmp)
    (hl : ∀ l ∈ ls, LevelOf t l (lv l) ∧ lv l < tmp.length) :
    ∃ tmp', computeGlue t ls tmp = .ok ((ls.map lv).toFinset.card, tmp') ∧
      tmp'.length = tmp.length ∧ AllFalse tmp' := by
  obtain ⟨t1, a1, a2, a3⟩ := glueMark_spec (t := t) (lv := lv) ls tmp ∅ (by
    intro k; simpa using hf k) hl
  obtain ⟨t2, b1, b2, b3⟩ := glueClear_spec (t := t) (lv := lv) ls t1 (by
    intro x hx; rw [a2]; exact hl x hx)
  refine ⟨t2, ?_, b2.trans a2, ?_⟩
  · unfold computeGlue
    rw [Finset.card_empty] at a1
    rw [a1, bind_ok]
    simp only [b1, bind_ok, Finset.empty_union]
    rfl
  · intro k hk
    obtain ⟨h1, h2⟩ := (b3 k).1 hk
    rw [a3, Finset.empty_union, List.mem_toFinset] at h1
    exact h2 h1

end

/-- The level of a literal: that of the first trail entry for its variable. -/
def levelIn (steps : List Step) (l : Lit) : Nat :=
  match steps.find? (fun s => s.lit.index == l.index) with
  | some s => s.level
  | none => 0

/-- The number of different levels of the literals. -/
def numLevels (steps : List Step) (ls : List Lit) : Nat := (ls.map (levelIn steps)).toFinset.card

theorem levelIn_spec {steps : List Step} {l : Lit} (h : ∃ s ∈ steps, s.lit.index = l.index) :
    ∃ s ∈ steps, s.lit.index = l.index ∧ levelIn steps l = s.level := by
  unfold levelIn
  cases hf : steps.find? (fun s => s.lit.index == l.index) with
  | none =>
    obtain ⟨s, hs, e⟩ := h
    have := List.find?_eq_none.1 hf s hs
    simp [e] at this
  | some s =>
    exact ⟨s, List.mem_of_find?_eq_some hf, by simpa using List.find?_some hf, rfl⟩

/-- `compute_glue` on assigned literals. -/
theorem TrailInv.computeGlue {n : Nat} {values : PartialAssignment} {t : Trail}
    (h : TrailInv n values t) {ls : List Lit} {tmp : List Bool} (hf : AllFalse tmp)
    (hlen : t.decisionLevel < tmp.length)
    (hl : ∀ l ∈ ls, ∃ s ∈ t.steps, s.lit.index = l.index) :
    ∃ tmp', Starlit.computeGlue t ls tmp = .ok (numLevels t.steps ls, tmp') ∧
      tmp'.length = tmp.length ∧ AllFalse tmp' := by
  obtain ⟨tmp', h1, h2, h3⟩ := computeGlue_spec (t := t) (lv := levelIn t.steps) (ls := ls) hf (by
    intro l hx
    obtain ⟨s, k1, k2, hlv⟩ := levelIn_spec (hl l hx)
    rw [hlv]
    refine ⟨h.levelOf k1 k2, ?_⟩
    obtain ⟨i, hi⟩ := List.mem_iff_getElem?.1 k1
    have := h.level_le i _ hi
    omega)
  exact ⟨tmp', h1, h2, h3⟩

end Starlit
