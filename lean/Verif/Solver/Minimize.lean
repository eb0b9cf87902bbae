import Mathlib.Tactic.Ring
import Verif.Solver.Uip

/-!
# Clause minimisation
-/

namespace Starlit

/-- The trail literals at the given positions. -/
def TrailLits (t : Trail) (K : Nat → Prop) (l : Lit) : Prop :=
  ∃ (i : Nat) (s : Step), K i ∧ t.steps[i]? = some s ∧ s.lit = l

/-- Literals that follow from the literals `A` with the implications recorded on the trail. -/
inductive Recorded (p : PropState) (A : Lit → Prop) : Lit → Prop
  | asm {l : Lit} : A l → Recorded p A l
  | top {st : Step} : st ∈ p.trail.steps → st.level = 0 → Recorded p A st.lit
  | step {st : Step} {rs : List Lit} : st ∈ p.trail.steps → st.reason ≠ .decision →
      p.reasonLits st.reason = .ok rs → (∀ o ∈ rs, Recorded p A o.neg) → Recorded p A st.lit

/-- State of the minimisation with the literals at positions `K` retained and all positions below `b`
processed. -/
structure MInv (p : PropState) (K : Nat → Prop) (b : Nat) (m : Minimize) : Prop where
  flen : p.trail.decisionLevel < m.firstOnLevel.length
  clen : p.trail.steps.length ≤ m.cache.length
  f0 : m.firstOnLevel[0]? = some 0
  first : ∀ (lev f : Nat), lev ≠ 0 → m.firstOnLevel[lev]? = some f →
    (f = UNASSIGNED ∨ K f ∧ ∃ s, p.trail.steps[f]? = some s ∧ s.level = lev) ∧
    ∀ (k : Nat) (s : Step), K k → p.trail.steps[k]? = some s → s.level = lev → f ≤ k
  kept : ∀ k, K k → m.cache[k]? = some (some true)
  cache : ∀ (i : Nat) (c : Bool), m.cache[i]? = some (some c) → i < b ∧
    ∃ s, p.trail.steps[i]? = some s ∧ s.level ≠ 0 ∧ (c = true ↔ Recorded p (TrailLits p.trail K) s.lit)
  clean : ∀ (i : Nat) (c : Bool), m.cache[i]? = some (some c) → i ∈ m.toClean
  cleanlt : ∀ i ∈ m.toClean, i < m.cache.length

section
variable {n : Nat} {S : List LC} {p : PropState} {F L : DB} {K : Nat → Prop} {bnd : Nat}

theorem Recorded.mono {A B : Lit → Prop} (h : ∀ l, A l → B l) {l : Lit} (hl : Recorded p A l) :
    Recorded p B l := by
  induction hl with
  | asm ha => exact .asm (h _ ha)
  | top h1 h2 => exact .top h1 h2
  | step h1 h2 h3 _ ih => exact .step h1 h2 h3 ih

/-- Recorded consequences follow by unit propagation. -/
theorem Recorded.implied (h : PInv n S p) (d : DBInv F L S p.binary p.trail.steps p.unsat)
    {A : Lit → Prop} {l : Lit} (hl : Recorded p A l) : Implied (F + L) A l := by
  induction hl with
  | asm ha => exact .asm ha
  | top h1 h2 => exact h.implied0 d h1 h2 _
  | step h1 h2 h3 _ ih =>
    obtain ⟨i, hi⟩ := List.mem_iff_getElem?.1 h1
    exact h.implied_step d hi h2 h3 ih

/-- The position of a literal above the top level is unique. -/
theorem PInv.pos_unique (h : PInv n S p) {i j : Nat} {s x : Step} (hs : p.trail.steps[i]? = some s)
    (hx : p.trail.steps[j]? = some x) (e : x.lit = s.lit) (h0 : s.level ≠ 0) : i = j ∧ s = x := by
  have hl := h.trail.level_unique (List.mem_iff_getElem?.2 ⟨j, hx⟩) (List.mem_iff_getElem?.2 ⟨i, hs⟩) e
  have h1 := h.trail.tix_pos hs h0
  have h2 := h.trail.tix_pos hx (by omega)
  rw [e, h1] at h2
  injection h2 with h2
  subst h2
  rw [hs] at hx
  exact ⟨rfl, Option.some.inj hx⟩

/-- A reason has a literal of the level of the implied literal. -/
theorem PInv.reason_level (h : PInv n S p) {i : Nat} {s : Step} (hs : p.trail.steps[i]? = some s)
    (h0 : s.level ≠ 0) (hd : s.reason ≠ .decision) {rs : List Lit}
    (hrs : p.reasonLits s.reason = .ok rs) :
    ∃ o ∈ rs, ∃ (j : Nat) (x : Step), j < i ∧ p.trail.steps[j]? = some x ∧ x.lit = o.neg ∧
      x.level = s.level := by
  have hr := h.reasons i s hs
  unfold ReasonOK at hr
  -- by the invariants of the watches, or because the literal is not yet processed
  have key : ∀ (o : Lit) (j : Nat) (x : Step), j < i → p.trail.steps[j]? = some x → x.lit = o.neg →
      (j < p.trail.propagated → ∃ t ∈ p.trail.steps, t.lit = s.lit ∧ t.level ≤ x.level) →
      x.level = s.level := by
    intro o j x hj hx e hp
    have hle := h.trail.level_mono hx hs (by omega)
    by_cases hjp : j < p.trail.propagated
    · obtain ⟨t, h1, h2, h3⟩ := hp hjp
      have := h.trail.level_unique h1 (List.mem_iff_getElem?.2 ⟨i, hs⟩) h2
      omega
    · have h1 := h.trail.prop_level j x (by omega) hx
      have h2 := h.trail.level_le i s hs
      omega
  cases hx : s.reason with
  | decision => exact absurd hx hd
  | unit => rw [hx] at hr; exact absurd hr h0
  | binary o =>
    rw [hx] at hr hrs
    cases hrs
    obtain ⟨⟨bs, h1, h2⟩, j, x, hj, hxs, e⟩ := hr
    refine ⟨o, by simp, j, x, hj, hxs, e, key o j x hj hxs e ?_⟩
    intro hjp
    have hon : o.index < n := h.bs.idx _ _ h1 o h2
    have hoc : o.code < p.binary.length := by
      rw [h.sized.bin]; exact Lit.code_lt_of_index_lt hon
    have hos := List.getElem?_eq_getElem hoc
    have hcnt := h.bs.symm s.lit o _ _ h1 hos
    have hmem : s.lit ∈ p.binary[o.code] := by
      rw [← List.count_pos_iff, ← hcnt, List.count_pos_iff]; exact h2
    exact h.bsat o _ hos s.lit hmem j x hjp hxs e
  | long c =>
    rw [hx] at hr hrs
    obtain ⟨e, he, rfl, rest, h1, h2⟩ := hr
    simp only [PropState.reasonLits] at hrs
    rw [h.rep.lits_ok he, h1] at hrs
    cases hrs
    have hlive : e.live := LC.live_iff.2 (by rw [h1]; simp)
    have hlen := (h.long.len e he hlive).1
    match rs, h1, h2 with
    | [], h1, _ => rw [h1] at hlen; simp at hlen
    | o :: rest, h1, h2 =>
      obtain ⟨j, x, hj, hxs, e'⟩ := h2 o (by simp)
      refine ⟨o, by simp, j, x, hj, hxs, e', key o j x hj hxs e' ?_⟩
      intro hjp
      obtain ⟨t, ht, h3, h4⟩ := h.wsat e he hlive o (by rw [h1]; simp) j x hjp hxs e'
      refine ⟨t, ht, ?_, h4⟩
      rw [h1] at h3
      rcases List.mem_cons.1 h3 with h3 | h3
      · exact h3
      · obtain ⟨k, y, _, hy, e2⟩ := h2 _ h3
        have := h.trail.not_both (List.mem_iff_getElem?.2 ⟨k, hy⟩) ht
        exact absurd e2 this

/-- A recorded consequence needs an assumption of its level that is not later on the trail. -/
theorem PInv.recorded_level (h : PInv n S p) {A : Lit → Prop} {l : Lit} (hl : Recorded p A l) :
    ∀ {i : Nat} {s : Step}, p.trail.steps[i]? = some s → s.lit = l → s.level ≠ 0 →
      ∃ (k : Nat) (x : Step), k ≤ i ∧ p.trail.steps[k]? = some x ∧ A x.lit ∧ x.level = s.level := by
  induction hl with
  | asm ha => intro i s hs e h0; exact ⟨i, s, Nat.le_refl _, hs, e ▸ ha, rfl⟩
  | top h1 h2 =>
    intro i s hs e h0
    have := h.trail.level_unique (List.mem_iff_getElem?.2 ⟨i, hs⟩) h1 e
    omega
  | step h1 h2 h3 _ ih =>
    intro i s hs e h0
    obtain ⟨i', hi'⟩ := List.mem_iff_getElem?.1 h1
    obtain ⟨rfl, rfl⟩ := h.pos_unique hs hi' e.symm h0
    obtain ⟨o, ho, j, x, hj, hx, e', hlev⟩ := h.reason_level hs h0 h2 h3
    obtain ⟨k, y, hk, hy, ha, hyl⟩ := ih o ho hx e' (by omega)
    exact ⟨k, y, by omega, hy, ha, by omega⟩

/-- Assumptions later on the trail do not matter. -/
theorem PInv.recorded_cut (h : PInv n S p) {A B : Lit → Prop} {l : Lit} (hl : Recorded p B l) :
    ∀ {i : Nat} {s : Step}, p.trail.steps[i]? = some s → s.lit = l →
      (∀ (k : Nat) (x : Step), k ≤ i → p.trail.steps[k]? = some x → x.level ≠ 0 → B x.lit → A x.lit) →
      Recorded p A l := by
  induction hl with
  | asm ha =>
    intro i s hs e hAB
    subst e
    by_cases h0 : s.level = 0
    · exact .top (List.mem_iff_getElem?.2 ⟨i, hs⟩) h0
    · exact .asm (hAB i s (Nat.le_refl _) hs h0 ha)
  | top h1 h2 => intros; exact .top h1 h2
  | @step st rs h1 h2 h3 _ ih =>
    intro i s hs e hAB
    by_cases h0 : s.level = 0
    · exact e ▸ .top (List.mem_iff_getElem?.2 ⟨i, hs⟩) h0
    obtain ⟨i', hi'⟩ := List.mem_iff_getElem?.1 h1
    obtain ⟨rfl, rfl⟩ := h.pos_unique hs hi' e.symm h0
    refine .step h1 h2 h3 ?_
    obtain ⟨rs', e3, b3, _⟩ := h.reason hs
    cases h3.symm.trans e3
    intro o ho
    obtain ⟨j, x, hj, hx, e'⟩ := b3 o ho
    exact ih o ho hx e' (fun k y hk => hAB k y (by omega))

/-- The definition of `Recorded`, for a literal that is not an assumption. -/
theorem PInv.recorded_iff (h : PInv n S p) {A : Lit → Prop} {i : Nat} {s : Step} {rs : List Lit}
    (hs : p.trail.steps[i]? = some s) (h0 : s.level ≠ 0) (hd : s.reason ≠ .decision) (hA : ¬ A s.lit)
    (hrs : p.reasonLits s.reason = .ok rs) :
    Recorded p A s.lit ↔ ∀ o ∈ rs, Recorded p A o.neg := by
  constructor
  · intro hr
    generalize hl : s.lit = l at hr
    cases hr with
    | asm ha => exact absurd (hl ▸ ha) hA
    | top h1 h2 =>
      have := h.trail.level_unique (List.mem_iff_getElem?.2 ⟨i, hs⟩) h1 hl
      omega
    | step h1 h2 h3 h4 =>
      obtain ⟨i', hi'⟩ := List.mem_iff_getElem?.1 h1
      obtain ⟨rfl, rfl⟩ := h.pos_unique hs hi' hl.symm h0
      cases hrs.symm.trans h3
      exact h4
  · exact .step (List.mem_iff_getElem?.2 ⟨i, hs⟩) hd hrs

theorem PInv.not_trailLits (h : PInv n S p) {i : Nat} {s : Step} (hs : p.trail.steps[i]? = some s)
    (h0 : s.level ≠ 0) (hK : ¬ K i) : ¬ TrailLits p.trail K s.lit := by
  rintro ⟨j, x, hj, hx, e⟩
  obtain ⟨rfl, _⟩ := h.pos_unique hs hx e h0
  exact hK hj

/-- What a redundancy check leaves behind. -/
structure MStep (p : PropState) (K : Nat → Prop) (b : Nat) (m m' : Minimize) : Prop where
  inv : MInv p K b m'
  first : m'.firstOnLevel = m.firstOnLevel

theorem MStep.trans {a b c : Minimize} (h : MStep p K bnd a b)
    (h' : MStep p K bnd b c) : MStep p K bnd a c := ⟨h'.inv, h'.first.trans h.first⟩

theorem setCache_spec {m : Minimize} (h : MInv p K bnd m) {i : Nat} {s : Step}
    {b : Bool} (hs : p.trail.steps[i]? = some s) (h0 : s.level ≠ 0) (hi : i < bnd)
    (hb : b = true ↔ Recorded p (TrailLits p.trail K) s.lit) :
    ∃ m', m.setCache i b = .ok m' ∧ MStep p K bnd m m' := by
  have hic : i < m.cache.length := Nat.lt_of_lt_of_le (List.getElem?_eq_some_iff.1 hs).1 h.clen
  refine ⟨{ m with cache := m.cache.set i (some b), toClean := m.toClean ++ [i] }, ?_, ⟨?_, rfl⟩⟩
  · unfold Minimize.setCache
    rw [upd_ok hic]; rfl
  · refine ⟨h.flen, by simpa using h.clen, h.f0, h.first, ?_, ?_, ?_, ?_⟩
    · intro k hk
      by_cases hik : i = k
      · subst hik
        rw [List.getElem?_set_self hic, hb.2 (.asm ⟨i, s, hk, hs, rfl⟩)]
      · rw [List.getElem?_set_ne hik]; exact h.kept k hk
    · intro j c hj
      by_cases hij : i = j
      · subst hij
        rw [List.getElem?_set_self hic] at hj
        simp at hj
        subst hj
        exact ⟨hi, s, hs, h0, hb⟩
      · simp only [List.getElem?_set_ne hij] at hj
        exact h.cache j c hj
    · intro j c hj
      simp only [List.mem_append, List.mem_singleton]
      by_cases hij : i = j
      · exact .inr hij.symm
      · simp only [List.getElem?_set_ne hij] at hj
        exact .inl (h.clean j c hj)
    · intro j hj
      simp only [List.mem_append, List.mem_singleton, List.length_set] at hj ⊢
      rcases hj with hj | rfl
      · exact h.cleanlt j hj
      · exact hic

/-- Lookup of the position of an assigned literal. -/
theorem PInv.position (h : PInv n S p) {i : Nat} {o : Lit} (hb : Before p.trail.steps i o.neg) :
    ∃ j s, p.trail.trailIndex[o.index]? = some j ∧ p.trail.steps[j]? = some s ∧ s.lit = o.neg ∧
      (s.level ≠ 0 → j < i) := by
  obtain ⟨j0, s0, h1, h2, h3⟩ := hb
  obtain ⟨j, s, a1, a2, a3, a4⟩ := h.trail.step_of_mem (List.mem_iff_getElem?.2 ⟨j0, h2⟩)
  rw [h3, Lit.index_neg] at a1
  refine ⟨j, s, a1, a2, a3.trans h3, ?_⟩
  intro hl
  have := h.trail.tix_pos h2 (by omega)
  rw [h3, Lit.index_neg, a1] at this
  injection this with this
  omega

theorem cached_spec (h : PInv n S p) {m : Minimize} (hm : MInv p K bnd m) {i : Nat} {s : Step}
    (hs : p.trail.steps[i]? = some s) :
    ∃ r, m.cached p.trail i = .ok r ∧
      (∀ b, r = some b → (b = true ↔ Recorded p (TrailLits p.trail K) s.lit)) ∧
      (r = none → ¬ K i ∧ s.reason ≠ .decision ∧ s.level ≠ 0) := by
  have his : i < p.trail.steps.length := (List.getElem?_eq_some_iff.1 hs).1
  have hic : i < m.cache.length := Nat.lt_of_lt_of_le his hm.clen
  have hc := List.getElem?_eq_getElem hic
  generalize m.cache[i] = c at hc
  unfold Minimize.cached
  rw [idx_ok hc, bind_ok]
  cases c with
  | some b =>
    refine ⟨some b, rfl, ?_, by simp⟩
    intro c e
    injection e with e
    subst e
    obtain ⟨_, s', h1, _, h2⟩ := hm.cache i b hc
    rw [hs] at h1; cases h1; exact h2
  | none =>
    have hlev := h.trail.level_le i s hs
    have hlf : s.level < m.firstOnLevel.length := by have := hm.flen; omega
    have hf := List.getElem?_eq_getElem hlf
    generalize m.firstOnLevel[s.level] = f at hf
    simp only
    rw [idx_ok hs, bind_ok, idx_ok hf, bind_ok]
    have hKi : ¬ K i := by
      intro hk
      have := hm.kept i hk
      rw [hc] at this; simp at this
    by_cases h1 : f > i
    · rw [if_pos h1]
      refine ⟨_, rfl, ?_, by simp⟩
      intro b e
      injection e with e
      subst e
      simp only [Bool.false_eq_true, false_iff]
      have h0 : s.level ≠ 0 := by
        intro h0
        have := hm.f0
        rw [h0] at hf
        rw [hf] at this
        injection this with this
        omega
      intro hr
      obtain ⟨k, x, hk, hx, ⟨k', x', hK, hx', e'⟩, hxl⟩ := h.recorded_level hr hs rfl h0
      obtain ⟨rfl, rfl⟩ := h.pos_unique hx hx' e' (by omega)
      have := (hm.first s.level f h0 hf).2 k x hK hx hxl
      omega
    rw [if_neg h1]
    by_cases h2 : s.level = 0
    · rw [if_pos h2]
      refine ⟨_, rfl, ?_, by simp⟩
      intro b e
      injection e with e
      subst e
      simp only [true_iff]
      exact .top (List.mem_iff_getElem?.2 ⟨i, hs⟩) h2
    rw [if_neg h2]
    refine ⟨_, rfl, by simp, fun _ => ⟨hKi, ?_, h2⟩⟩
    intro hd
    rcases (hm.first s.level f h2 hf).1 with e | ⟨e, x, hx, hxl⟩
    · have := h.small; omega
    · have hr := h.reasons i s hs
      unfold ReasonOK at hr
      rw [hd] at hr
      have := (h.trail.level f x hx s.level i hr.1 hr.2).1 (by omega)
      have hfi : f = i := by omega
      exact hKi (hfi ▸ e)

theorem lookahead_spec (h : PInv n S p) {m : Minimize} (hm : MInv p K bnd m) {i : Nat} (ls : List Lit) :
    ∀ (acc : Option Bool), acc ≠ some false → (∀ o ∈ ls, Before p.trail.steps i o.neg) →
    ∃ r, m.lookahead p.trail ls acc = .ok r ∧
      (r = some true → acc = some true ∧ ∀ o ∈ ls, Recorded p (TrailLits p.trail K) o.neg) ∧
      (r = some false → ¬ ∀ o ∈ ls, Recorded p (TrailLits p.trail K) o.neg) := by
  induction ls with
  | nil => intro acc ha _; exact ⟨acc, rfl, fun e => ⟨e, by simp⟩, fun e => absurd e ha⟩
  | cons o ls ih =>
    intro acc ha hb
    obtain ⟨j, s, h1, h2, h3, _⟩ := h.position (hb o (by simp))
    obtain ⟨r, e, r1, r2⟩ := cached_spec h hm h2
    unfold Minimize.lookahead
    rw [Trail.indexOf_ok h1 h2 (by rw [h3, Lit.index_neg]), bind_ok, e, bind_ok]
    match r with
    | some false =>
      refine ⟨some false, rfl, by simp, fun _ hall => ?_⟩
      have := (r1 false rfl).2 (h3 ▸ hall o (by simp))
      simp at this
    | some true =>
      obtain ⟨r', e', q, q'⟩ := ih acc ha (fun x hx => hb x (by simp [hx]))
      refine ⟨r', e', fun hr => ⟨(q hr).1, ?_⟩, fun hr hall => q' hr (fun x hx => hall x (by simp [hx]))⟩
      intro x hx
      rcases List.mem_cons.1 hx with rfl | hx
      · rw [← h3]; exact (r1 true rfl).1 rfl
      · exact (q hr).2 x hx
    | none =>
      obtain ⟨r', e', q, q'⟩ := ih none (by simp) (fun x hx => hb x (by simp [hx]))
      refine ⟨r', e', fun hr => ?_, fun hr hall => q' hr (fun x hx => hall x (by simp [hx]))⟩
      have := (q hr).1
      simp at this

/-! ## The iterative check -/

/-- The frames below the top of the stack; `c` is the trail literal of the frame above. -/
def StackOK (p : PropState) (K : Nat → Prop) (b : Nat) (root : Lit) :
    Lit → List (Nat × List Lit) → Prop
  | c, [] => c = root
  | c, (i, ls) :: rest => (∀ o ∈ ls, Before p.trail.steps i o.neg) ∧ i < b ∧
      ∃ s, p.trail.steps[i]? = some s ∧ s.level ≠ 0 ∧
        (Recorded p (TrailLits p.trail K) s.lit ↔ Recorded p (TrailLits p.trail K) c ∧
          ∀ o ∈ ls, Recorded p (TrailLits p.trail K) o.neg) ∧ StackOK p K b root s.lit rest

/-- The frames below a literal that is not redundant. -/
theorem StackOK.fail {root : Lit} (st : List (Nat × List Lit)) : ∀ {c : Lit}, StackOK p K bnd root c st →
      ¬ Recorded p (TrailLits p.trail K) c →
      (∀ x ∈ st, x.1 < bnd ∧ ∃ s, p.trail.steps[x.1]? = some s ∧ s.level ≠ 0 ∧
        ¬ Recorded p (TrailLits p.trail K) s.lit) ∧ ¬ Recorded p (TrailLits p.trail K) root := by
  induction st with
  | nil => intro c h hn; exact ⟨by simp, (show c = root from h) ▸ hn⟩
  | cons x st ih =>
    intro c h hn
    obtain ⟨i, ls⟩ := x
    obtain ⟨h1, h2, s, h3, h0, h4, h5⟩ := h
    have hs : ¬ Recorded p (TrailLits p.trail K) s.lit := fun hr => hn (h4.1 hr).1
    obtain ⟨q1, q2⟩ := ih h5 hs
    refine ⟨?_, q2⟩
    intro y hy
    rcases List.mem_cons.1 hy with rfl | hy
    · exact ⟨h2, s, h3, h0, hs⟩
    · exact q1 y hy

theorem failStack_spec (st : List (Nat × List Lit)) :
    ∀ {m : Minimize}, MInv p K bnd m →
    (∀ x ∈ st, x.1 < bnd ∧ ∃ s, p.trail.steps[x.1]? = some s ∧ s.level ≠ 0 ∧
      ¬ Recorded p (TrailLits p.trail K) s.lit) →
    ∃ m', m.failStack st = .ok m' ∧ MStep p K bnd m m' := by
  induction st with
  | nil => intro m h _; exact ⟨m, rfl, h, rfl⟩
  | cons x st ih =>
    intro m h hx
    obtain ⟨i, ls⟩ := x
    obtain ⟨h1, s, h2, h0, h3⟩ := hx (i, ls) (by simp)
    obtain ⟨m1, e1, s1⟩ := setCache_spec (b := false) h h2 h0 h1 (by simpa using h3)
    obtain ⟨m2, e2, s2⟩ := ih s1.inv (fun y hy => hx y (by simp [hy]))
    refine ⟨m2, ?_, s1.trans s2⟩
    simp only [Minimize.failStack, e1, bind_ok]; exact e2

/-- Bound for the number of iterations for a literal at a position below the argument; `b` bounds
the number of literals of a reason. -/
def cost (b : Nat) : Nat → Nat
  | 0 => 0
  | i + 1 => b * (1 + cost b i) + 1

theorem cost_mono {b i j : Nat} (h : i ≤ j) (hb : 1 ≤ b) : cost b i ≤ cost b j := by
  induction h with
  | refl => exact Nat.le_refl _
  | step _ ih =>
    refine Nat.le_trans ih ?_
    rename_i k _
    have e : cost b (k + 1) = b * (1 + cost b k) + 1 := rfl
    rw [Nat.succ_eq_add_one, e]
    have : 1 * (1 + cost b k) ≤ b * (1 + cost b k) := Nat.mul_le_mul_right _ hb
    omega

theorem cost_le {b : Nat} (i : Nat) : 1 + cost b i ≤ (b + 3) ^ i := by
  induction i with
  | zero => simp [cost]
  | succ i ih =>
    have h1 : 1 ≤ (b + 3) ^ i := Nat.one_le_pow _ _ (by omega)
    have h2 : b * (1 + cost b i) ≤ b * (b + 3) ^ i := Nat.mul_le_mul_left _ ih
    have h3 : (b + 3) ^ (i + 1) = b * (b + 3) ^ i + 3 * (b + 3) ^ i := by ring
    simp only [cost]
    omega

/-- Iterations needed for the given stack. -/
def stackCost (b : Nat) : List (Nat × List Lit) → Nat
  | [] => 0
  | (i, ls) :: rest => ls.length * (1 + cost b i) + 1 + stackCost b rest

theorem iterLoop_spec (h : PInv n S p) {root : Lit} (fuel : Nat) :
    ∀ {m : Minimize} {stack : List (Nat × List Lit)} {i : Nat} {s : Step}
    {ls : List Lit}, MInv p K bnd m → i < bnd → p.trail.steps[i]? = some s → s.level ≠ 0 →
    (∀ o ∈ ls, Before p.trail.steps i o.neg) →
    (Recorded p (TrailLits p.trail K) s.lit ↔ ∀ o ∈ ls, Recorded p (TrailLits p.trail K) o.neg) →
    StackOK p K bnd root s.lit stack →
    stackCost (p.long.buffer.length + 1) ((i, ls) :: stack) ≤ fuel →
    ∃ m' b, Minimize.iterLoop p fuel m stack i ls = .ok (m', b) ∧ MStep p K bnd m m' ∧
      (b = true ↔ Recorded p (TrailLits p.trail K) root) := by
  induction fuel with
  | zero => intro m stack i s ls _ _ _ _ _ _ _ hf; simp only [stackCost] at hf; omega
  | succ fuel ih =>
    intro m stack i s ls hm hib hs hs0 hb hcl hst hf
    match ls with
    | [] =>
      have hi := hcl.2 (by simp)
      obtain ⟨m1, e1, s1⟩ := setCache_spec (b := true) hm hs hs0 hib (by simpa using hi)
      unfold Minimize.iterLoop
      rw [e1, bind_ok]
      match stack with
      | [] =>
        refine ⟨m1, true, rfl, s1, ?_⟩
        have : s.lit = root := hst
        rw [← this]; simpa using hi
      | (i', ls') :: stack' =>
        obtain ⟨q1, q2, s', q3, q0, q4, q5⟩ := hst
        obtain ⟨m2, b, e2, s2, r2⟩ := ih s1.inv q2 q3 q0 q1 (q4.trans ⟨fun a => a.2, fun a => ⟨hi, a⟩⟩)
          q5 (by simp only [stackCost] at hf ⊢; omega)
        exact ⟨m2, b, e2, s1.trans s2, r2⟩
    | l :: ls =>
      obtain ⟨j, x, h1, h2, h3, hlt⟩ := h.position (hb l (by simp))
      obtain ⟨r, e, r1, r2⟩ := cached_spec h hm h2
      have hb' : ∀ o ∈ ls, Before p.trail.steps i o.neg := fun o ho => hb o (by simp [ho])
      have hdec : stackCost (p.long.buffer.length + 1) ((i, l :: ls) :: stack) =
          1 + cost (p.long.buffer.length + 1) i +
            stackCost (p.long.buffer.length + 1) ((i, ls) :: stack) := by
        simp only [stackCost, List.length_cons]; ring
      rw [hdec] at hf
      have hcl' : Recorded p (TrailLits p.trail K) s.lit ↔ Recorded p (TrailLits p.trail K) x.lit ∧
          ∀ o ∈ ls, Recorded p (TrailLits p.trail K) o.neg := by
        rw [hcl, h3]; simp
      -- the failing case
      have hfail : ∀ {m0 : Minimize}, MStep p K bnd m m0 → ¬ Recorded p (TrailLits p.trail K) x.lit →
          ∃ m' b,
          (do
            let m ← m0.setCache i false
            let m ← m.failStack stack.reverse
            pure (m, false) : M (Minimize × Bool)) = .ok (m', b) ∧ MStep p K bnd m m' ∧
          (b = true ↔ Recorded p (TrailLits p.trail K) root) := by
        intro m0 s0 hx
        have hns : ¬ Recorded p (TrailLits p.trail K) s.lit := fun hr => hx (hcl'.1 hr).1
        obtain ⟨f1, f2⟩ := StackOK.fail _ hst hns
        obtain ⟨m1, e1, s1⟩ := setCache_spec (b := false) s0.inv hs hs0 hib (by simpa using hns)
        obtain ⟨m2, e2, s2⟩ := failStack_spec stack.reverse s1.inv
          (fun y hy => f1 y (List.mem_reverse.1 hy))
        refine ⟨m2, false, ?_, (s0.trans s1).trans s2, by simpa using f2⟩
        rw [e1, bind_ok, e2]; rfl
      -- continuing with the next literal
      have hnext : ∀ {m0 : Minimize}, MStep p K bnd m m0 →
          Recorded p (TrailLits p.trail K) x.lit →
          ∃ m' b, Minimize.iterLoop p fuel m0 stack i ls = .ok (m', b) ∧ MStep p K bnd m m' ∧
            (b = true ↔ Recorded p (TrailLits p.trail K) root) := by
        intro m0 s0 hx
        obtain ⟨m2, b, e2, s2, r2⟩ := ih s0.inv hib hs hs0 hb'
          (hcl'.trans ⟨fun a => a.2, fun a => ⟨hx, a⟩⟩) hst (by omega)
        exact ⟨m2, b, e2, s0.trans s2, r2⟩
      unfold Minimize.iterLoop
      rw [Trail.indexOf_ok h1 h2 (by rw [h3, Lit.index_neg]), bind_ok, e, bind_ok]
      match r with
      | some true => exact hnext ⟨hm, rfl⟩ ((r1 true rfl).1 rfl)
      | some false => exact hfail ⟨hm, rfl⟩ (fun hr => by simpa using (r1 false rfl).2 hr)
      | none =>
        obtain ⟨n1, n2, n3⟩ := r2 rfl
        obtain ⟨rs, e3, b3, l3⟩ := h.reason h2
        obtain ⟨r', e4, q4, q5⟩ := lookahead_spec h hm rs (some true) (by simp) b3
        have hiff := h.recorded_iff h2 n3 n2 (h.not_trailLits h2 n3 n1) e3
        have hji := hlt n3
        simp only
        rw [idx_ok h2, bind_ok, e3, bind_ok, e4, bind_ok]
        match r' with
        | some false =>
          have hx := fun hr => q5 rfl (hiff.1 hr)
          obtain ⟨m1, e1, s1⟩ := setCache_spec (b := false) hm h2 n3 (by omega) (by simpa using hx)
          obtain ⟨m2, b, e2, s2⟩ := hfail s1 hx
          refine ⟨m2, b, ?_, s2⟩
          simp only
          rw [e1, bind_ok]; exact e2
        | some true =>
          have hx := hiff.2 (q4 rfl).2
          obtain ⟨m1, e1, s1⟩ := setCache_spec (b := true) hm h2 n3 (by omega) (by simpa using hx)
          obtain ⟨m2, b, e2, s2⟩ := hnext s1 hx
          refine ⟨m2, b, ?_, s2⟩
          simp only
          rw [e1, bind_ok]; exact e2
        | none =>
          refine ih hm (by omega) h2 n3 b3 hiff ⟨hb', hib, s, hs, hs0, hcl', hst⟩ ?_
          have h5 := cost_mono (b := p.long.buffer.length + 1) (show j + 1 ≤ i by omega) (by omega)
          have h6 : rs.length * (1 + cost (p.long.buffer.length + 1) j) ≤
              (p.long.buffer.length + 1) * (1 + cost (p.long.buffer.length + 1) j) :=
            Nat.mul_le_mul_right _ l3
          simp only [cost] at h5
          rw [stackCost]
          omega

/-- The iterative check from the start. -/
theorem iterLoop_start (h : PInv n S p) {m : Minimize} {i : Nat} {s : Step} {rs : List Lit}
    (hm : MInv p K bnd m) (hK : ¬ K i) (hib : i < bnd) (hs : p.trail.steps[i]? = some s)
    (hd : s.reason ≠ .decision) (h0 : s.level ≠ 0)
    (hrs : p.reasonLits s.reason = .ok rs) (hb : ∀ o ∈ rs, Before p.trail.steps i o.neg)
    (hlen : rs.length ≤ p.long.buffer.length + 1) :
    ∃ m' b, Minimize.iterLoop p (Minimize.iterFuel p i) m [] i rs = .ok (m', b) ∧
      MStep p K bnd m m' ∧ (b = true ↔ Recorded p (TrailLits p.trail K) s.lit) := by
  refine iterLoop_spec h (root := s.lit) _ hm hib hs h0 hb
    (h.recorded_iff hs h0 hd (h.not_trailLits hs h0 hK) hrs) rfl ?_
  have h6 : rs.length * (1 + cost (p.long.buffer.length + 1) i) ≤
      (p.long.buffer.length + 1) * (1 + cost (p.long.buffer.length + 1) i) :=
    Nat.mul_le_mul_right _ hlen
  have h7 := cost_le (b := p.long.buffer.length + 1) (i + 1)
  simp only [cost] at h7
  simp only [stackCost, Minimize.iterFuel]
  have h8 : p.long.buffer.length + 1 + 3 = p.long.buffer.length + 4 := by omega
  rw [h8] at h7
  omega

/-! ## The recursive check -/

theorem allRedundant_spec (h : PInv n S p) {i : Nat} (hib : i < bnd)
    {f : Minimize → Nat → M (Minimize × Bool)}
    (hf : ∀ {m : Minimize} {j : Nat} {s : Step}, MInv p K bnd m → ¬ K j → j < bnd →
      p.trail.steps[j]? = some s → s.reason ≠ .decision → s.level ≠ 0 →
      ∃ m' b, f m j = .ok (m', b) ∧ MStep p K bnd m m' ∧
        (b = true ↔ Recorded p (TrailLits p.trail K) s.lit)) (ls : List Lit) :
    ∀ {m : Minimize}, MInv p K bnd m → (∀ o ∈ ls, Before p.trail.steps i o.neg) →
    ∃ m' b, Minimize.allRedundant p.trail (Minimize.redundantRec p.trail f) ls m = .ok (m', b) ∧
      MStep p K bnd m m' ∧
      (b = true ↔ ∀ o ∈ ls, Recorded p (TrailLits p.trail K) o.neg) := by
  induction ls with
  | nil => intro m hm _; exact ⟨m, true, rfl, ⟨hm, rfl⟩, by simp⟩
  | cons o ls ih =>
    intro m hm hb
    obtain ⟨j, s, h1, h2, h3, hlt⟩ := h.position (hb o (by simp))
    obtain ⟨r, e, r1, r2⟩ := cached_spec h hm h2
    have hrec : ∃ m' b, Minimize.redundantRec p.trail f m j = .ok (m', b) ∧ MStep p K bnd m m' ∧
        (b = true ↔ Recorded p (TrailLits p.trail K) s.lit) := by
      unfold Minimize.redundantRec
      rw [e, bind_ok]
      match r with
      | some b => exact ⟨m, b, rfl, ⟨hm, rfl⟩, r1 b rfl⟩
      | none =>
        obtain ⟨n1, n2, n3⟩ := r2 rfl
        have := hlt n3
        exact hf hm n1 (by omega) h2 n2 n3
    obtain ⟨m1, b, e1, s1, q1⟩ := hrec
    unfold Minimize.allRedundant
    rw [Trail.indexOf_ok h1 h2 (by rw [h3, Lit.index_neg]), bind_ok, e1, bind_ok]
    rw [h3] at q1
    cases b with
    | false => exact ⟨m1, false, rfl, s1, by simpa using fun hr => absurd hr (by simpa using q1)⟩
    | true =>
      obtain ⟨m2, b2, e2, s2, q2⟩ := ih s1.inv (fun x hx => hb x (by simp [hx]))
      refine ⟨m2, b2, by simpa using e2, s1.trans s2, ?_⟩
      rw [q2]
      simp [q1.1 rfl]

theorem redundantUncached_spec (h : PInv n S p) (r : Nat) :
    ∀ {m : Minimize} {i : Nat} {s : Step}, MInv p K bnd m → ¬ K i → i < bnd →
    p.trail.steps[i]? = some s → s.reason ≠ .decision → s.level ≠ 0 →
    ∃ m' b, Minimize.redundantUncached p r m i = .ok (m', b) ∧ MStep p K bnd m m' ∧
      (b = true ↔ Recorded p (TrailLits p.trail K) s.lit) := by
  induction r with
  | zero =>
    intro m i s hm hK hib hs hd h0
    obtain ⟨rs, e3, b3, l3⟩ := h.reason hs
    obtain ⟨r', e4, q4, q5⟩ := lookahead_spec h hm rs (some true) (by simp) b3
    have hiff := h.recorded_iff hs h0 hd (h.not_trailLits hs h0 hK) e3
    unfold Minimize.redundantUncached
    rw [idx_ok hs, bind_ok, e3, bind_ok, e4, bind_ok]
    match r' with
    | some false =>
      have hx : false = true ↔ Recorded p (TrailLits p.trail K) s.lit := by
        simpa using fun hr => q5 rfl (hiff.1 hr)
      obtain ⟨m1, e1, s1⟩ := setCache_spec hm hs h0 hib hx
      refine ⟨m1, false, ?_, s1, hx⟩
      simp only [e1, bind_ok]; rfl
    | some true =>
      have hx : true = true ↔ Recorded p (TrailLits p.trail K) s.lit := by
        simpa using hiff.2 (q4 rfl).2
      obtain ⟨m1, e1, s1⟩ := setCache_spec hm hs h0 hib hx
      refine ⟨m1, true, ?_, s1, hx⟩
      simp only [e1, bind_ok]; rfl
    | none => exact iterLoop_start h hm hK hib hs hd h0 e3 b3 l3
  | succ r ih =>
    intro m i s hm hK hib hs hd h0
    obtain ⟨rs, e3, b3, l3⟩ := h.reason hs
    obtain ⟨r', e4, q4, q5⟩ := lookahead_spec h hm rs (some true) (by simp) b3
    have hiff := h.recorded_iff hs h0 hd (h.not_trailLits hs h0 hK) e3
    unfold Minimize.redundantUncached
    rw [idx_ok hs, bind_ok, e3, bind_ok, e4, bind_ok]
    match r' with
    | some false =>
      have hx : false = true ↔ Recorded p (TrailLits p.trail K) s.lit := by
        simpa using fun hr => q5 rfl (hiff.1 hr)
      obtain ⟨m1, e1, s1⟩ := setCache_spec hm hs h0 hib hx
      refine ⟨m1, false, ?_, s1, hx⟩
      simp only [e1, bind_ok]; rfl
    | some true =>
      have hx : true = true ↔ Recorded p (TrailLits p.trail K) s.lit := by
        simpa using hiff.2 (q4 rfl).2
      obtain ⟨m1, e1, s1⟩ := setCache_spec hm hs h0 hib hx
      refine ⟨m1, true, ?_, s1, hx⟩
      simp only [e1, bind_ok]; rfl
    | none =>
      obtain ⟨m1, b1, e1, s1, q1⟩ := allRedundant_spec h (i := i) hib (f := Minimize.redundantUncached p r)
        (fun hm hK hib hs hd h0 => ih hm hK hib hs hd h0) rs hm b3
      have hx : b1 = true ↔ Recorded p (TrailLits p.trail K) s.lit := q1.trans hiff.symm
      obtain ⟨m2, e2, s2⟩ := setCache_spec (b := b1) s1.inv hs h0 hib hx
      refine ⟨m2, b1, ?_, s1.trans s2, hx⟩
      simp only
      rw [e1, bind_ok]
      simp only
      rw [e2, bind_ok]; rfl

end

end Starlit
