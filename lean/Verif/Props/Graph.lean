import Verif.Props.Stats

/-!
# C65: the trail is the implication graph its documentation describes
-/

namespace Starlit

/-- What the documentation of `Step` and `Trail` says (`/repo/starlit/src/prop/trail.rs:84-145`, `166-228`), for a
formula with `n` variables. -/
structure ImplicationGraph (n : Nat) (p : PropState) : Prop where
  /-- The true literals are those on the trail, the false ones their negations. -/
  values : ∀ l : Lit, l.index < n →
    (p.values.value l = .ok (some true) ↔ ∃ st ∈ p.trail.steps, st.lit = l) ∧
    (p.values.value l = .ok (some false) ↔ ∃ st ∈ p.trail.steps, st.lit = l.neg)
  /-- `step_for_var` finds the step that assigned a variable. -/
  steps : ∀ st ∈ p.trail.steps, ∃ st' ∈ p.trail.steps, p.trail.stepForVar st.lit.index = .ok st' ∧
    st'.lit = st.lit ∧ st'.level = st.level ∧ (st.level ≠ 0 → st' = st)
  /-- Steps are ordered by level. -/
  sorted : p.trail.steps.Pairwise (fun st st' => st.level ≤ st'.level)
  /-- The decision level of the `k`-th decision literal is `k`. -/
  decisions : (p.trail.steps.filter (fun st => decide (st.reason = .decision))).map Step.level =
    List.range' 1 p.trail.decisionLevel
  /-- A decision is the first step of its level. -/
  first : ∀ (i : Nat) (st : Step), p.trail.steps[i]? = some st → st.reason = .decision →
    ∀ t ∈ p.trail.steps.take i, t.level < st.level
  /-- The other literals of the reason of a propagated literal are false when it is assigned, and its decision
  level is the maximum of theirs, or zero if there are none. -/
  implied : ∀ (i : Nat) (st : Step), p.trail.steps[i]? = some st → st.reason ≠ .decision →
    ∃ rs, p.reasonLits st.reason = .ok rs ∧ Stored p (st.lit ::ₘ (rs : Multiset Lit)) ∧
      (∀ o ∈ rs, ∃ t ∈ p.trail.steps.take i, t.lit = o.neg) ∧
      (∀ o ∈ rs, ∀ t, p.trail.stepForVar o.index = .ok t → t.level ≤ st.level) ∧
      (rs = [] → st.level = 0) ∧
      (rs ≠ [] → ∃ o ∈ rs, ∃ t, p.trail.stepForVar o.index = .ok t ∧ t.level = st.level)
  /-- `fixed_var_count` is the number of steps of the top level. -/
  fixed : p.trail.fixedVarCount = (p.trail.steps.filter (fun st => decide (st.level = 0))).length
  /-- Steps that are not yet propagated have the current level. -/
  pending : p.trail.propagated ≤ p.trail.steps.length ∧
    ∀ st ∈ p.trail.steps.drop p.trail.propagated, st.level = p.trail.decisionLevel

section
variable {n : Nat} {S : List LC} {p : PropState}

theorem decisionLevels_eq (h : PInv n S p) :
    (p.trail.steps.filter (fun st => decide (st.reason = .decision))).map Step.level =
      List.range' 1 p.trail.decisionLevel := by
  have hpos : ∀ (i : Nat) (st : Step), p.trail.steps[i]? = some st → st.reason = .decision →
      1 ≤ st.level ∧ p.trail.decisions[st.level]? = some i := by
    intro i st hs hr
    have := h.reasons i st hs
    unfold ReasonOK at this
    rw [hr] at this
    exact this
  have hlt : ((p.trail.steps.filter (fun st => decide (st.reason = .decision))).map Step.level).Pairwise (· < ·) := by
    rw [List.pairwise_map, List.pairwise_filter, List.pairwise_iff_getElem]
    intro i j hi hj hij h1 h2
    simp only [decide_eq_true_eq] at h1 h2
    have e1 := List.getElem?_eq_getElem hi
    have e2 := List.getElem?_eq_getElem hj
    have hle := h.trail.level_mono e1 e2 (by omega)
    have d1 := (hpos i _ e1 h1).2
    have d2 := (hpos j _ e2 h2).2
    rcases Nat.lt_or_eq_of_le hle with h | h
    · exact h
    · rw [h, d2] at d1
      cases d1
      omega
  have hr : (List.range' 1 p.trail.decisionLevel).Pairwise (· < ·) := List.pairwise_lt_range'
  have hperm : ((p.trail.steps.filter (fun st => decide (st.reason = .decision))).map Step.level).Perm
      (List.range' 1 p.trail.decisionLevel) := by
    rw [List.perm_ext_iff_of_nodup (hlt.imp fun h => Nat.ne_of_lt h) (hr.imp fun h => Nat.ne_of_lt h)]
    intro k
    simp only [List.mem_map, List.mem_filter, decide_eq_true_eq, List.mem_range'_1]
    constructor
    · rintro ⟨st, ⟨hm, hr⟩, rfl⟩
      obtain ⟨i, hi⟩ := List.mem_iff_getElem?.1 hm
      have := hpos i st hi hr
      have := h.trail.level_le i st hi
      omega
    · rintro ⟨h1, h2⟩
      have hk : k < p.trail.decisions.length := by
        unfold Trail.decisionLevel at h2; omega
      obtain ⟨st, h3, h4, h5⟩ := h.trail.decs k _ h1 (List.getElem?_eq_getElem hk)
      exact ⟨st, ⟨List.mem_iff_getElem?.2 ⟨_, h3⟩, h4⟩, h5⟩
  exact hperm.eq_of_pairwise (fun a b _ _ h1 h2 => by omega) hlt hr

theorem PInv.graph (h : PInv n S p) : ImplicationGraph n p := by
  have hfind : ∀ st ∈ p.trail.steps, ∃ st' ∈ p.trail.steps, p.trail.stepForVar st.lit.index = .ok st' ∧
      st'.lit = st.lit ∧ st'.level = st.level ∧ (st.level ≠ 0 → st' = st) := by
    intro st hs
    obtain ⟨i, hi⟩ := List.mem_iff_getElem?.1 hs
    obtain ⟨j, st', h1, h2, h3, h4, h5⟩ := h.trail.tix i st hi
    have hm : st' ∈ p.trail.steps := List.mem_iff_getElem?.2 ⟨j, h2⟩
    refine ⟨st', hm, stepForVar_ok h1 h2 (by rw [h3]), h3, h.trail.level_unique hm hs h3, ?_⟩
    intro h0
    rcases h5 with rfl | h5
    · rw [hi] at h2; exact (Option.some.inj h2).symm
    · exact absurd h5.1 h0
  refine ⟨?_, hfind, ?_, decisionLevels_eq h, ?_, ?_, ?_, h.trail.prop_le, ?_⟩
  · intro l hl
    have e := h.value hl
    have en := h.trail.val_iff l.neg
    rw [e]
    simp only [Except.ok.injEq]
    refine ⟨h.trail.val_iff l, ?_⟩
    rw [← en, PartialAssignment.val_neg h.trail.vwf]
    cases p.values.val l with
    | none => simp
    | some b => cases b <;> simp
  · rw [List.pairwise_iff_getElem]
    intro i j hi hj hij
    exact h.trail.level_mono (List.getElem?_eq_getElem hi) (List.getElem?_eq_getElem hj) (by omega)
  · intro i st hs hr t ht
    have hd := h.reasons i st hs
    unfold ReasonOK at hd
    rw [hr] at hd
    obtain ⟨j, hj, ht⟩ := mem_take_iff.1 ht
    have := h.trail.level j t ht _ _ hd.1 hd.2
    omega
  · intro i st hs hr
    obtain ⟨rs, h1, h2, _⟩ := h.reason hs
    have hb : ∀ o ∈ rs, ∃ t ∈ p.trail.steps.take i, t.lit = o.neg := by
      intro o ho
      obtain ⟨j, t, hj, ht, e⟩ := h2 o ho
      exact ⟨t, mem_take_iff.2 ⟨j, hj, ht⟩, e⟩
    have hlev : ∀ o : Lit, ∀ t ∈ p.trail.steps, t.lit = o.neg →
        ∀ t', p.trail.stepForVar o.index = .ok t' → t'.level = t.level := by
      intro o t ht e t' e'
      obtain ⟨t2, _, a1, _, a2, _⟩ := hfind t ht
      rw [e, Lit.index_neg, e'] at a1
      cases a1
      exact a2
    refine ⟨rs, h1, h.stored_of_mem (h.reason_db h.storedInv hs hr h1), hb, ?_, ?_, ?_⟩
    · intro o ho t' e'
      obtain ⟨j, t, hj, ht, e⟩ := h2 o ho
      rw [hlev o t (List.mem_iff_getElem?.2 ⟨j, ht⟩) e t' e']
      exact h.trail.level_mono ht hs (by omega)
    · rintro rfl
      by_contra h0
      obtain ⟨o, ho, _⟩ := h.reason_level hs h0 hr h1
      simp at ho
    · intro hne
      by_cases h0 : st.level = 0
      · obtain ⟨o, ho⟩ := List.exists_mem_of_ne_nil _ hne
        obtain ⟨j, t, hj, ht, e⟩ := h2 o ho
        obtain ⟨t2, _, a1, _, a2, _⟩ := hfind t (List.mem_iff_getElem?.2 ⟨j, ht⟩)
        rw [e, Lit.index_neg] at a1
        refine ⟨o, ho, t2, a1, ?_⟩
        have := h.trail.level_mono ht hs (by omega)
        omega
      · obtain ⟨o, ho, j, t, hj, ht, e, hl⟩ := h.reason_level hs h0 hr h1
        obtain ⟨t2, _, a1, _, a2, _⟩ := hfind t (List.mem_iff_getElem?.2 ⟨j, ht⟩)
        rw [e, Lit.index_neg] at a1
        exact ⟨o, ho, t2, a1, by omega⟩
  · unfold Trail.fixedVarCount
    cases hd : p.trail.decisions[1]? with
    | none =>
      have hlen := List.getElem?_eq_none_iff.1 hd
      rw [List.filter_eq_self.2]
      intro st hs
      obtain ⟨i, hi⟩ := List.mem_iff_getElem?.1 hs
      have := h.trail.level_le i st hi
      unfold Trail.decisionLevel at this
      simp only [decide_eq_true_eq]
      omega
    | some target =>
      obtain ⟨st, hst, _⟩ := h.trail.decs 1 target (Nat.le_refl _) hd
      have := (List.getElem?_eq_some_iff.1 hst).1
      have e := (h.trail.take_eq_filter (level := 0) hd).1
      have e2 := congrArg List.length e
      rw [List.length_take, Nat.min_eq_left (by omega)] at e2
      simp only [Nat.le_zero] at e2
      exact e2
  · intro st hs
    obtain ⟨i, hi⟩ := List.mem_iff_getElem?.1 hs
    rw [List.getElem?_drop] at hi
    exact h.trail.prop_level _ st (by omega) hi

end

/-- C65: in every visited state the trail is the implication graph described in its documentation. -/
theorem C65_graph {env : Env} {F : List (List Lit)} {p : PropState} {cb : Callbacks}
    (h : Solver.Visited env F p cb) : ImplicationGraph (formulaVars F) p := by
  obtain ⟨S, hi, _⟩ := h.inv
  exact hi.graph

/-- The hypothesis of C65 is met by a state with three decisions and three propagated literals. -/
theorem C65_example : ∃ p cb, Solver.Visited Example.env (Example.cnf (Example.php 4 3)) p cb ∧
    p.trail.steps.map Step.lit = [-1, -12, -11, 10, -4, -7].map Example.lit ∧
    p.trail.steps.map Step.level = [1, 2, 3, 3, 3, 3] ∧
    p.trail.steps.map (fun st => decide (st.reason = .decision)) = [true, true, true, false, false, false] := by
  have h : (Example.mid (Example.php 4 3) 3).map (fun x =>
      (x.2.2.2.1.trail.steps.map Step.lit, x.2.2.2.1.trail.steps.map Step.level,
        x.2.2.2.1.trail.steps.map (fun st => decide (st.reason = .decision)))) =
      .ok ([-1, -12, -11, 10, -4, -7].map Example.lit, [1, 2, 3, 3, 3, 3],
        [true, true, true, false, false, false]) := by
    decide +kernel
  obtain ⟨⟨s, p1, ctx, p, r⟩, h1, h2⟩ := Example.of_map h
  simp only [Prod.mk.injEq] at h2
  exact ⟨p, _, .propagated (Example.mid_propagating (by decide +kernel) h1), h2⟩

end Starlit
