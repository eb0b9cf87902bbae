import Verif.Solver.Propagate
import Verif.Solver.Analyze

/-!
# Backtracking preserves the invariants
-/

namespace Starlit

/-- The arithmetic of VSIDS is monotone on the bit patterns that occur. -/
structure Env.Mono (env : Env) : Prop where
  add : ∀ a inc, a ≤ env.add a inc
  rescale : ∀ a b, a ≤ b → env.rescale a ≤ env.rescale b

/-- The decision heuristics. -/
structure CbInv (env : Env) (n : Nat) (cb : Callbacks) : Prop where
  wf : cb.vsids.activity.WF
  len : cb.vsids.activity.values.length = n
  phases : cb.phases.length = n
  ord : env.Mono → cb.vsids.activity.Ordered

/-- Every unassigned variable is in the heap. -/
def Covers (n : Nat) (values : PartialAssignment) (cb : Callbacks) : Prop :=
  ∀ l : Lit, l.index < n → values.val l = none → l.index ∈ cb.vsids.activity.heap

theorem unassign_spec {env : Env} {n : Nat} {cb : Callbacks} (h : CbInv env n cb) {l : Lit}
    (hl : l.index < n) : ∃ cb', cb.unassign l = .ok cb' ∧ CbInv env n cb' ∧
      (∀ z, z ∈ cb'.vsids.activity.heap ↔ z = l.index ∨ z ∈ cb.vsids.activity.heap) ∧
      cb'.phases = cb.phases.set l.index l.isPositive ∧
      cb'.vsids.activity.values = cb.vsids.activity.values ∧
      cb'.vsids.increment = cb.vsids.increment := by
  obtain ⟨h', e, w, hv, hm, ho⟩ := Heap.enqueue_ok h.wf (x := l.index) (by rw [h.len]; exact hl)
  unfold Callbacks.unassign
  rw [e, bind_ok, upd_ok (by rw [h.phases]; exact hl), bind_ok]
  refine ⟨_, rfl, ⟨w, ?_, ?_, fun hm => ho (h.ord hm)⟩, hm, rfl, hv, rfl⟩
  · simp only [hv]; exact h.len
  · simp [h.phases]

/-- The phase saved for a variable by undoing steps. -/
def savePhases (phases : List Bool) : List Step → List Bool
  | [] => phases
  | s :: ss => savePhases (phases.set s.lit.index s.lit.isPositive) ss

theorem undoLoop_spec {env : Env} {n : Nat} (ss : List Step) :
    ∀ {values : PartialAssignment} {cb : Callbacks}, CbInv env n cb → values.WF →
    values.assigned.length = n → (∀ s ∈ ss, s.lit.index < n) →
    ∃ values' cb', undoLoop ss values cb = .ok (values', cb') ∧ CbInv env n cb' ∧ values'.WF ∧
      values'.assigned.length = n ∧
      (∀ l, values'.val l = if ∃ s ∈ ss, s.lit.index = l.index then none else values.val l) ∧
      (∀ z, z ∈ cb'.vsids.activity.heap ↔ (∃ s ∈ ss, s.lit.index = z) ∨
        z ∈ cb.vsids.activity.heap) ∧
      cb'.phases = savePhases cb.phases ss ∧
      cb'.vsids.activity.values = cb.vsids.activity.values ∧
      cb'.vsids.increment = cb.vsids.increment := by
  induction ss with
  | nil =>
    intro values cb h hw hl _
    exact ⟨values, cb, rfl, h, hw, hl, by simp, by simp, rfl, rfl, rfl⟩
  | cons s ss ih =>
    intro values cb h hw hl hs
    have hsn : s.lit.index < n := hs s (by simp)
    obtain ⟨cb1, e1, h1, m1, p1, v1, i1⟩ := unassign_spec h hsn
    obtain ⟨values', cb', e2, h2, w2, l2, val2, m2, p2, v2, i2⟩ := ih (values :=
      ⟨values.assigned.set s.lit.index (unassignedByte s.lit.index)⟩) h1
      (PartialAssignment.WF_unassign hw) (by simpa using hl) (fun x hx => hs x (by simp [hx]))
    refine ⟨values', cb', ?_, h2, w2, l2, ?_, ?_, ?_, v2.trans v1, i2.trans i1⟩
    · simp only [undoLoop, e1, bind_ok, PartialAssignment.unassign]
      rw [upd_ok (by rw [hl]; exact hsn), bind_ok, bind_pure_ok]
      exact e2
    · intro l
      rw [val2, PartialAssignment.val_unassign]
      by_cases hx : ∃ x ∈ ss, x.lit.index = l.index
      · rw [if_pos hx, if_pos]
        obtain ⟨x, hx1, hx2⟩ := hx
        exact ⟨x, by simp [hx1], hx2⟩
      · rw [if_neg hx]
        by_cases hy : l.index = s.lit.index
        · rw [if_pos hy, if_pos]; exact ⟨s, by simp, hy.symm⟩
        · rw [if_neg hy, if_neg]
          rintro ⟨x, hx1, hx2⟩
          rcases List.mem_cons.1 hx1 with rfl | hx1
          · exact hy hx2.symm
          · exact hx ⟨x, hx1, hx2⟩
    · intro z
      rw [m2, m1]
      constructor
      · rintro (⟨x, hx1, hx2⟩ | rfl | hz)
        · exact .inl ⟨x, by simp [hx1], hx2⟩
        · exact .inl ⟨s, by simp, rfl⟩
        · exact .inr hz
      · rintro (⟨x, hx1, hx2⟩ | hz)
        · rcases List.mem_cons.1 hx1 with rfl | hx1
          · exact .inr (.inl hx2.symm)
          · exact .inl ⟨x, hx1, hx2⟩
        · exact .inr (.inr hz)
    · rw [p2, p1]; rfl

/-- The trail cut at a decision. -/
def Trail.cut (t : Trail) (level target : Nat) : Trail :=
  { t with
    steps := t.steps.take target
    decisions := t.decisions.take (level + 1)
    propagated := min t.propagated target }

theorem getElem?_take_some {α : Type} {l : List α} {k i : Nat} {a : α} :
    (l.take k)[i]? = some a ↔ i < k ∧ l[i]? = some a := by
  rw [List.getElem?_take]
  by_cases h : i < k <;> simp [h]

theorem mem_take_iff {α : Type} {l : List α} {k : Nat} {a : α} :
    a ∈ l.take k ↔ ∃ i, i < k ∧ l[i]? = some a := by
  rw [List.mem_iff_getElem?]
  constructor
  · rintro ⟨i, h⟩; exact ⟨i, getElem?_take_some.1 h⟩
  · rintro ⟨i, h⟩; exact ⟨i, getElem?_take_some.2 h⟩

theorem mem_drop_iff {α : Type} {l : List α} {k : Nat} {a : α} :
    a ∈ l.drop k ↔ ∃ i, k ≤ i ∧ l[i]? = some a := by
  rw [List.mem_iff_getElem?]
  simp only [List.getElem?_drop]
  constructor
  · rintro ⟨i, h⟩; exact ⟨k + i, by omega, h⟩
  · rintro ⟨i, hi, h⟩; exact ⟨i - k, by rw [show k + (i - k) = i by omega]; exact h⟩

section
variable {n : Nat} {values values' : PartialAssignment} {t : Trail} {level target : Nat}

/-- Which steps remain. -/
theorem TrailInv.kept_iff (h : TrailInv n values t) (htarget : t.decisions[level + 1]? = some target)
    {i : Nat} {s : Step} (hs : t.steps[i]? = some s) : i < target ↔ s.level ≤ level := by
  have := h.level i s hs (level + 1) target (by omega) htarget
  omega

/-- A variable has steps on one side only. -/
theorem TrailInv.sides (h : TrailInv n values t) (htarget : t.decisions[level + 1]? = some target)
    {i j : Nat} {s s' : Step} (hs : t.steps[i]? = some s) (hs' : t.steps[j]? = some s')
    (hi : i < target) (hj : target ≤ j) : s.lit.index ≠ s'.lit.index := by
  intro e
  have h1 := (h.kept_iff htarget hs).1 hi
  have h2 : ¬ s'.level ≤ level := fun c => absurd ((h.kept_iff htarget hs').2 c) (by omega)
  have hm : s ∈ t.steps := List.mem_iff_getElem?.2 ⟨i, hs⟩
  have hm' : s' ∈ t.steps := List.mem_iff_getElem?.2 ⟨j, hs'⟩
  rcases Lit.eq_or_eq_neg e with e | e
  · have := h.level_unique hm hm' e; omega
  · exact h.not_both hm hm' e

theorem TrailInv.cut (h : TrailInv n values t) (htarget : t.decisions[level + 1]? = some target)
    (hw : values'.WF) (hval : ∀ l, values'.val l =
      if ∃ s ∈ t.steps.drop target, s.lit.index = l.index then none else values.val l) :
    TrailInv n values' (t.cut level target) := by
  have hlen : level + 1 < t.decisions.length := (List.getElem?_eq_some_iff.1 htarget).1
  obtain ⟨sd, hsd, _, _⟩ := h.decs (level + 1) target (by omega) htarget
  have htl : target < t.steps.length := (List.getElem?_eq_some_iff.1 hsd).1
  have hdl : (t.cut level target).decisionLevel = level := by
    simp only [Trail.cut, Trail.decisionLevel, List.length_take]; omega
  refine ⟨hw, ?_, ?_, ?_, ?_, ?_, ?_, ?_, ?_, ?_⟩
  · intro s hs; exact h.idx_lt s (List.mem_of_mem_take hs)
  · intro l
    rw [hval]
    simp only [Trail.cut, mem_take_iff]
    by_cases hd : ∃ s ∈ t.steps.drop target, s.lit.index = l.index
    · rw [if_pos hd]
      simp only [reduceCtorEq, false_iff, not_exists, not_and]
      rintro s ⟨i, hi, hs⟩ rfl
      obtain ⟨s', hs', e⟩ := hd
      obtain ⟨j, hj, hs'⟩ := mem_drop_iff.1 hs'
      exact h.sides htarget hs hs' hi hj e.symm
    · rw [if_neg hd, h.val_iff]
      constructor
      · rintro ⟨s, hs, e⟩
        obtain ⟨i, hi⟩ := List.mem_iff_getElem?.1 hs
        refine ⟨s, ⟨i, ?_, hi⟩, e⟩
        by_contra hc
        exact hd ⟨s, mem_drop_iff.2 ⟨i, by omega, hi⟩, by rw [e]⟩
      · rintro ⟨s, ⟨i, _, hi⟩, e⟩
        exact ⟨s, List.mem_iff_getElem?.2 ⟨i, hi⟩, e⟩
  · intro i s hs
    obtain ⟨hi, hs⟩ := getElem?_take_some.1 hs
    obtain ⟨j, s', h1, h2, h3, h4, h5⟩ := h.tix i s hs
    have hj : j < target := by
      by_contra hc
      exact h.sides htarget hs h2 hi (by omega) (by rw [h3])
    exact ⟨j, s', h1, getElem?_take_some.2 ⟨hj, h2⟩, h3, h4, h5⟩
  · exact getElem?_take_some.2 ⟨by omega, h.dec0⟩
  · intro i s hs
    obtain ⟨hi, hs⟩ := getElem?_take_some.1 hs
    rw [hdl]; exact (h.kept_iff htarget hs).1 hi
  · intro i s hs k d hk hd
    obtain ⟨_, hs⟩ := getElem?_take_some.1 hs
    obtain ⟨_, hd⟩ := getElem?_take_some.1 hd
    exact h.level i s hs k d hk hd
  · intro k d hk hd
    obtain ⟨hk', hd⟩ := getElem?_take_some.1 hd
    obtain ⟨s, h1, h2, h3⟩ := h.decs k d hk hd
    exact ⟨s, getElem?_take_some.2 ⟨(h.kept_iff htarget h1).2 (by omega), h1⟩, h2, h3⟩
  · simp only [Trail.cut, List.length_take]
    have := h.prop_le
    omega
  · intro i s hi hs
    obtain ⟨hi', hs⟩ := getElem?_take_some.1 hs
    rw [hdl]
    have h1 := (h.kept_iff htarget hs).1 hi'
    have h2 : t.propagated ≤ i := by simp only [Trail.cut] at hi; omega
    have h3 := h.prop_level i s h2 hs
    unfold Trail.decisionLevel at h3
    omega

end

theorem Before.take {steps : List Step} {i k : Nat} {l : Lit} (h : Before steps i l) (hi : i < k) :
    Before (steps.take k) i l := by
  obtain ⟨j, t, h1, h2, h3⟩ := h
  exact ⟨j, t, h1, getElem?_take_some.2 ⟨by omega, h2⟩, h3⟩

theorem ReasonInv.cut {n : Nat} {values : PartialAssignment} {bin : List (List Lit)} {S : List LC}
    {t : Trail} {level target : Nat} (h : ReasonInv bin S t) (ht : TrailInv n values t)
    (htarget : t.decisions[level + 1]? = some target) : ReasonInv bin S (t.cut level target) := by
  intro i s hs
  obtain ⟨hi, hs⟩ := getElem?_take_some.1 hs
  have hr := h i s hs
  have hlev := (ht.kept_iff htarget hs).1 hi
  unfold ReasonOK at *
  cases hx : s.reason with
  | decision =>
    rw [hx] at hr
    exact ⟨hr.1, getElem?_take_some.2 ⟨by omega, hr.2⟩⟩
  | unit => rw [hx] at hr; exact hr
  | binary o => rw [hx] at hr; exact ⟨hr.1, hr.2.take hi⟩
  | long c =>
    rw [hx] at hr
    obtain ⟨e, he, her, rest, h1, h2⟩ := hr
    exact ⟨e, he, her, rest, h1, fun o ho => (h2 o ho).take hi⟩

/-- What `backtrack_to_level` returns. -/
structure BackPost (env : Env) (n : Nat) (S : List LC) (p : PropState) (cb : Callbacks)
    (level target : Nat) (p' : PropState) (cb' : Callbacks) : Prop where
  inv : PInv n S p'
  cbinv : CbInv env n cb'
  trail : p'.trail = p.trail.cut level target
  level : p'.trail.decisionLevel = level
  long : p'.long = p.long
  binary : p'.binary = p.binary
  watches : p'.watches = p.watches
  unsat : p'.unsat = p.unsat
  heap : ∀ z, z ∈ cb'.vsids.activity.heap ↔
    (∃ s ∈ p.trail.steps.drop target, s.lit.index = z) ∨ z ∈ cb.vsids.activity.heap
  phases : cb'.phases = savePhases cb.phases (p.trail.steps.drop target)
  activity : cb'.vsids.activity.values = cb.vsids.activity.values
  increment : cb'.vsids.increment = cb.vsids.increment
  val : ∀ l, p'.values.val l =
    if ∃ s ∈ p.trail.steps.drop target, s.lit.index = l.index then none else p.values.val l
  covers : Covers n p.values cb → Covers n p'.values cb'

theorem backtrack_spec {env : Env} {n : Nat} {S : List LC} {p : PropState} {cb : Callbacks}
    (h : PInv n S p) (hcb : CbInv env n cb) {level : Nat} (hl : level < p.trail.decisionLevel) :
    ∃ target p' cb', p.trail.decisions[level + 1]? = some target ∧
      backtrackToLevel p level cb = .ok (p', cb') ∧ BackPost env n S p cb level target p' cb' := by
  have hlt : level + 1 < p.trail.decisions.length := by
    unfold Trail.decisionLevel at hl; omega
  have ht := List.getElem?_eq_getElem hlt
  generalize p.trail.decisions[level + 1] = target at ht
  obtain ⟨sd, hsd, _, _⟩ := h.trail.decs (level + 1) target (by omega) ht
  have htl : target < p.trail.steps.length := (List.getElem?_eq_some_iff.1 hsd).1
  obtain ⟨values', cb', e2, h2, w2, l2, val2, m2, p2, v2, i2⟩ := undoLoop_spec
    (p.trail.steps.drop target) hcb h.trail.vwf h.sized.values
    (fun s hs => h.trail.idx_lt s (List.mem_of_mem_drop hs))
  have htr := h.trail.cut ht w2 val2
  refine ⟨target, { p with values := values', trail := p.trail.cut level target }, cb', ht, ?_, ?_⟩
  · unfold backtrackToLevel
    rw [show assertM (decide (level < p.trail.decisionLevel)) = .ok () by
      simp [assertM, hl]; rfl, bind_ok, idx_ok ht, bind_ok,
      show assertM (decide (target ≤ p.trail.steps.length)) = .ok () by
        simp [assertM, Nat.le_of_lt htl]; rfl, bind_ok, e2]
    rfl
  · have hmin : (p.trail.cut level target).propagated = min p.trail.propagated target := rfl
    refine ⟨⟨⟨l2, h.sized.tix, h.sized.bin, h.sized.wat, h.sized.n_le⟩, htr,
      h.reasons.cut h.trail ht, h.rep, h.long, h.ws, h.blk, ?_, h.bs, ?_, h.enabled,
      by simp only [Trail.cut, List.length_take]; have := h.small; omega⟩, h2, rfl, ?_,
      rfl, rfl, rfl, rfl, m2, p2, v2, i2, val2, ?_⟩
    · intro e he hlv w hw i s hi hs hsw
      simp only [hmin] at hi
      obtain ⟨hi', hs⟩ := getElem?_take_some.1 hs
      obtain ⟨t, t1, t2, t3⟩ := h.wsat e he hlv w hw i s (by omega) hs hsw
      obtain ⟨j, hj⟩ := List.mem_iff_getElem?.1 t1
      have := (h.trail.kept_iff ht hs).1 hi'
      exact ⟨t, mem_take_iff.2 ⟨j, (h.trail.kept_iff ht hj).2 (by omega), hj⟩, t2, t3⟩
    · intro a bs ha b hb i s hi hs hsw
      simp only [hmin] at hi
      obtain ⟨hi', hs⟩ := getElem?_take_some.1 hs
      obtain ⟨t, t1, t2, t3⟩ := h.bsat a bs ha b hb i s (by omega) hs hsw
      obtain ⟨j, hj⟩ := List.mem_iff_getElem?.1 t1
      have := (h.trail.kept_iff ht hs).1 hi'
      exact ⟨t, mem_take_iff.2 ⟨j, (h.trail.kept_iff ht hj).2 (by omega), hj⟩, t2, t3⟩
    · simp only [Trail.cut, Trail.decisionLevel, List.length_take]; omega
    · intro hc l hln hv
      rw [m2]
      rw [val2] at hv
      by_cases hd : ∃ s ∈ p.trail.steps.drop target, s.lit.index = l.index
      · exact .inl hd
      · rw [if_neg hd] at hv
        exact .inr (hc l hln hv)

end Starlit
