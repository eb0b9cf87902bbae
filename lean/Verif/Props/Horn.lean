import Verif.Props.Guided

/-!
# C81: Horn formulas are solved by unit propagation alone

No search is needed for Horn formulas, in which every clause has at most one positive literal: unit propagation finds a
contradiction or the least model.  The solver does not know about this.  It profits from it because the phases are
initially negative.
-/

namespace Starlit

/-- Every clause has at most one positive literal. -/
def HornFormula (F : List (List Lit)) : Prop := ∀ c ∈ F, (c.filter Lit.isPositive).length ≤ 1

instance (F : List (List Lit)) : Decidable (HornFormula F) :=
  inferInstanceAs (Decidable (∀ c ∈ F, (c.filter Lit.isPositive).length ≤ 1))

/-- The variables that are true are those that are true in every model. -/
def LeastModel (F : List (List Lit)) (α : Nat → Bool) : Prop :=
  FormulaSat α F ∧ ∀ β, FormulaSat β F → ∀ x, α x = true → β x = true

section
variable {env : Env} {F : List (List Lit)} {s s' : Solver} {p1 p : PropState} {ctx : Ctx} {r : Option ConflictClause}

/-- The clauses of the formula when `propagate()` is called. -/
theorem Solver.Propagating.input (h : Solver.Propagating env F s p1 ctx p r) {c : List Lit} (hc : c ∈ F) :
    Stored p (c : Multiset Lit) ∨ ∃ a, c = [a] ∧ ∃ st ∈ p.trail.steps, st.lit = a := by
  obtain ⟨L, S, S2, hi, q⟩ := h.phase
  have d := q.db _ _ hi.db
  have hm : (c : Multiset Lit) ∈ toDB F := by
    unfold toDB
    simp only [Multiset.mem_coe, List.mem_map]
    exact ⟨c, hc, rfl⟩
  have hu : p.unsat = false := by
    rw [q.unsat]; exact h.unsat
  match c, hm with
  | [], hm =>
    have := d.fempty hm
    rw [hu] at this; cases this
  | [a], hm =>
    rcases d.funit a hm with h1 | ⟨st, h1, h2, _⟩
    · rw [hu] at h1; cases h1
    · exact .inr ⟨a, rfl, st, h1, h2⟩
  | [a, b], hm =>
    obtain ⟨bs, k1, k2⟩ := d.fbin a b hm
    exact .inl (.binary k1 k2)
  | a :: b :: x :: c, hm =>
    obtain ⟨e, he, hl, hcl⟩ := d.stored hm (by simp)
    rw [← hcl]
    exact .inl (.long (q.inv.rep.storedAt_iff.2 ⟨e, he, hl, rfl, rfl, rfl⟩))

/-- The assignment in which only the variables assigned to true are true. -/
def PropState.least (p : PropState) (x : Nat) : Bool :=
  p.trail.steps.any fun st => decide (st.lit.index = x) && st.lit.isPositive

theorem least_iff {x : Nat} : p.least x = true ↔ ∃ st ∈ p.trail.steps, st.lit.index = x ∧ st.lit.isPositive = true := by
  simp [PropState.least, List.any_eq_true]

theorem PInv.least_sat {n : Nat} {S : List LC} (h : PInv n S p) : ∀ st ∈ p.trail.steps, LitSat p.least st.lit := by
  intro st hst
  unfold LitSat
  cases hp : st.lit.isPositive with
  | true => exact least_iff.2 ⟨st, hst, rfl, hp⟩
  | false =>
    rw [Bool.eq_false_iff, Ne, least_iff]
    rintro ⟨t, ht, h1, h2⟩
    have v1 := (h.trail.val_iff st.lit).2 ⟨st, hst, rfl⟩
    have v2 := (h.trail.val_iff t.lit).2 ⟨t, ht, rfl⟩
    have hne : t.lit = st.lit.neg := by
      apply Lit.ext_index
      · rw [Lit.index_neg, h1]
      · rw [Lit.isPositive_neg, h2, hp]; rfl
    rw [hne, PartialAssignment.val_neg h.trail.vwf, v1] at v2
    cases v2

/-- If propagation finds no conflict, the assignment made, with false for all other variables, is a model of
a Horn formula. -/
theorem horn_model (hF : HornFormula F) (h : Solver.Propagating env F s p1 ctx p none) : FormulaSat p.least F := by
  obtain ⟨L, S, S2, hi, q⟩ := h.phase
  intro c hc
  rcases h.input hc with hs | ⟨a, rfl, st, h1, rfl⟩
  · have hidx := q.inv.stored_idx hs
    rcases C08_pair h hs with ⟨l, hl, hv⟩ | ⟨a, b, R, e, va, vb⟩
    · rw [q.inv.value (hidx l hl)] at hv
      obtain ⟨st, h1, rfl⟩ := (q.inv.trail.val_iff l).1 (Except.ok.inj hv)
      exact ⟨st.lit, by simpa using hl, q.inv.least_sat st h1⟩
    · have neg : ∀ x ∈ (c : Multiset Lit), p.values.value x = .ok none → x.isPositive = false → LitSat p.least x := by
        intro x hx hv hn
        rw [q.inv.value (hidx x hx)] at hv
        unfold LitSat
        rw [hn, Bool.eq_false_iff, Ne, least_iff]
        rintro ⟨t, ht, h1, h2⟩
        have v2 := (q.inv.trail.val_iff t.lit).2 ⟨t, ht, rfl⟩
        have := (val_index q.inv.trail.vwf h1).2 (Except.ok.inj hv)
        rw [v2] at this; cases this
      have hab : a.isPositive = false ∨ b.isPositive = false := by
        by_contra hcon
        rw [not_or, Bool.not_eq_false, Bool.not_eq_false] at hcon
        have h1 := hF c hc
        have h2 : ((c : Multiset Lit).filter (fun l => l.isPositive = true)).card = (c.filter Lit.isPositive).length := by
          simp
        rw [e] at h2
        simp only [Multiset.filter_cons, hcon.1, hcon.2, if_true, Multiset.card_add, Multiset.card_singleton] at h2
        omega
      have ha : a ∈ (c : Multiset Lit) := by rw [e]; simp
      have hb : b ∈ (c : Multiset Lit) := by rw [e]; simp
      rcases hab with hn | hn
      · exact ⟨a, by simpa using ha, neg a ha va hn⟩
      · exact ⟨b, by simpa using hb, neg b hb vb hn⟩
  · exact ⟨st.lit, by simp, q.inv.least_sat st h1⟩

/-- On the top level the assignment is contained in every model. -/
theorem least_of_top (h : Solver.Propagating env F s p1 ctx p none)
    (h0 : s.search.prop.trail.decisionLevel = 0) {β : Nat → Bool} (hβ : FormulaSat β F) {x : Nat}
    (hx : p.least x = true) : β x = true := by
  obtain ⟨L, S, S2, hi, q⟩ := h.phase
  obtain ⟨st, h1, rfl, h2⟩ := least_iff.1 hx
  have := q.inv.trail_sat (q.db _ _ hi.db) (hi.sat hβ) (by
    intro t ht hr
    obtain ⟨i, hi'⟩ := List.mem_iff_getElem?.1 ht
    have h3 := q.inv.trail.level_le i t hi'
    have h4 := q.inv.reasons i t hi'
    unfold ReasonOK at h4
    rw [hr] at h4
    rw [q.level, h0] at h3
    have := h4.1
    omega) st h1
  unfold LitSat at this
  rw [this, h2]

/-- The first iteration on a Horn formula. -/
theorem horn_first (hF : HornFormula F) (h : Solver.Input env F s) {r : Option Bool}
    (e : s.scheduleStep env = .ok (s', r)) :
    (r = some false → s'.ctx.search.conflicts ≤ 1 ∧ s'.ctx.search.decisions = 0) ∧
    (r ≠ some false → s'.ctx.search.conflicts = 0 ∧ ∃ α, LeastModel F α ∧ Follows F α s' ∧
      (r = none → s'.ctx.search.conflicts < s'.schedule.nextRestart ∧ s'.search.prop.trail.decisionLevel = 1) ∧
      (r = some true → ∀ l : Lit, l.index < formulaVars F →
        s'.search.prop.values.value l = .ok (some (α l.index == l.isPositive)))) := by
  obtain ⟨s1, s2, ctx, search, e1, e2, e3, rfl⟩ := Solver.scheduleStep_eq e
  have h0 : Solver.Reachable env F s := .input h
  have hst := h.start
  have hl0 : s.search.prop.trail.decisionLevel = 0 := by
    unfold Trail.decisionLevel; rw [h.trail.level]
  -- the restart and the reduction
  have r1 := h0.restart e1
  have r2 := r1.reduce e2
  obtain ⟨n1, n2, _⟩ := maybeRestart_next h0 e1
  obtain ⟨m1, m2, m3, m4⟩ := maybeReduce_next r1 e2
  have hs1 : s1.search = s.search ∧ s1.ctx.search.decisions = 0 := by
    obtain ⟨L, S, hi⟩ := h0.inv
    obtain ⟨t, f1, _, hc⟩ := maybeRestart_spec hi
    cases e1.symm.trans f1
    rcases hc with ⟨_, rfl⟩ | ⟨_, h2, _⟩
    · exact ⟨rfl, by rw [hst.search]⟩
    · obtain ⟨ctx', t', f2, _, f3, _, _, f4⟩ := restart_spec hi
      rw [h2] at f2
      simp only [Except.ok.injEq, Prod.mk.injEq] at f2
      rcases f4 with ⟨_, rfl⟩ | ⟨target, f5, _⟩
      · exact ⟨f2.2, by rw [f2.1, f3, hst.search]⟩
      · have := (List.getElem?_eq_some_iff.1 f5).1
        rw [h.trail.level] at this
        omega
  have hc0 : s2.ctx.search.conflicts = 0 := by rw [m1, n1, hst.search]
  have hd0 : s2.ctx.search.decisions = 0 := by rw [m1]; exact hs1.2
  have hl2 : s2.search.prop.trail.decisionLevel = 0 := by rw [m3, hs1.1]; exact hl0
  have hph : s2.search.cb.phases = List.replicate (formulaVars F) false := by rw [m4, hs1.1]; exact hst.phases
  have hnext : s2.ctx.search.conflicts < s2.schedule.nextRestart := by rw [m1, m2]; exact n2
  -- the state after propagation
  have key : ∀ {p1 p : PropState} {ctx1 : Ctx}, Solver.Propagating env F s2 p1 ctx1 p none → LeastModel F p.least :=
    fun hp => ⟨horn_model hF hp, fun β hβ x hx => least_of_top hp hl2 hβ hx⟩
  have notrail : ∀ {p : PropState} {x : Nat}, x < formulaVars F → (∀ st ∈ p.trail.steps, st.lit.index ≠ x) →
      s2.search.cb.phases[x]? = some (p.least x) := by
    intro p x hx hno
    rw [hph]
    have : p.least x = false := by
      rw [Bool.eq_false_iff, Ne, least_iff]
      rintro ⟨st, h1, h2, _⟩
      exact hno st h1 h2
    rw [this]
    simp [hx]
  cases searchStep_cases r2 e3 with
  | already hu => exact ⟨fun _ => ⟨by simp only; omega, hd0⟩, by simp⟩
  | fail hp h0 =>
    refine ⟨fun _ => ⟨?_, ?_⟩, by simp⟩
    · simp only [Ctx.conflict, hp.search]; omega
    · simp only [Ctx.conflict, hp.search]; exact hd0
  | learn hp h0 ea =>
    obtain ⟨L, S, S2, hi, q⟩ := hp.phase
    exact absurd (q.level.trans hl2) h0
  | @decide p1 p p' ctx1 x v l hp e4 e5 e6 =>
    obtain ⟨L, S, S2, hi, q⟩ := hp.phase
    have hmod := key hp
    obtain ⟨r, v', e', _, _, _, h2⟩ := popDecisionVar_spec hi.cb q.inv.trail.vwf q.inv.sized.values
      q.inv.sized.n_le (q.covers hi.prop hi.covers)
    rw [e4] at e'
    simp only [Except.ok.injEq, Prod.mk.injEq] at e'
    obtain ⟨rfl, rfl⟩ := e'
    obtain ⟨hx, hv, _⟩ := h2 x rfl
    obtain ⟨d1, d2, _⟩ := assignDecision_trail q.inv.trail e6
    have hmx : x ≤ MAX_INDEX := by have := q.inv.sized.n_le; omega
    have hnot : ∀ st ∈ p.trail.steps, st.lit.index ≠ x := by
      intro st hst hix
      have hval := (q.inv.trail.val_iff st.lit).2 ⟨st, hst, rfl⟩
      have := (val_index q.inv.trail.vwf (hix.trans (litOf_index hmx true).symm)).2 (hv true)
      rw [hval] at this
      cases this
    have hphx := notrail hx hnot
    unfold decidePhase at e5
    rw [idx_ok hphx, bind_ok] at e5
    have e5 : litOf x (p.least x) = l := Except.ok.inj e5
    refine ⟨by simp, fun _ => ⟨?_, p.least, hmod, ⟨?_, ?_⟩, fun _ => ⟨?_, ?_⟩, by simp⟩⟩
    · simp only [Ctx.decision, hp.search]; exact hc0
    · intro st hst
      simp only at hst
      rw [d1] at hst
      rcases List.mem_append.1 hst with hst | hst
      · exact q.inv.least_sat st hst
      · simp only [List.mem_singleton] at hst
        rw [hst]
        simp only
        rw [← e5]
        unfold LitSat
        rw [litOf_index hmx, litOf_isPositive hmx]
    · intro y hy hn
      refine notrail hy fun st hst => hn st ?_
      simp only
      rw [d1]; exact List.mem_append_left _ hst
    · simp only [Ctx.decision, hp.search]; exact hnext
    · simp only
      rw [d2, q.level, hl2]
  | @sat p1 p ctx1 v hp e4 =>
    obtain ⟨L, S, S2, hi, q⟩ := hp.phase
    obtain ⟨r, v', e', _, _, hall, _⟩ := popDecisionVar_spec hi.cb q.inv.trail.vwf q.inv.sized.values
      q.inv.sized.n_le (q.covers hi.prop hi.covers)
    rw [e4] at e'
    simp only [Except.ok.injEq, Prod.mk.injEq] at e'
    obtain ⟨rfl, rfl⟩ := e'
    refine ⟨by simp, fun _ => ⟨?_, p.least, key hp, ⟨q.inv.least_sat, fun x => notrail⟩, by simp, fun _ l hl => ?_⟩⟩
    · simp only [hp.search]; exact hc0
    · show p.values.value l = _
      rw [q.inv.value hl]
      cases hv : p.values.val l with
      | none => exact absurd hv (hall rfl l hl)
      | some b =>
        cases b with
        | true =>
          obtain ⟨st, h1, rfl⟩ := (q.inv.trail.val_iff l).1 hv
          have := q.inv.least_sat st h1
          unfold LitSat at this
          simp [this]
        | false =>
          obtain ⟨st, h1, h2⟩ := (q.inv.trail.val_false_iff l).1 hv
          have := q.inv.least_sat st h1
          rw [h2] at this
          unfold LitSat at this
          rw [Lit.index_neg, Lit.isPositive_neg] at this
          rw [this]
          cases l.isPositive <;> simp

/-- C81: on a Horn formula, `solve()` answers after at most one more iteration than there are variables, with at most one
conflict.  It answers unsatisfiable without having made a decision.  It answers satisfiable without a conflict, and the
model is the least one. -/
theorem C81_horn (hF : HornFormula F) (h : Solver.Input env F s) {k : Nat} {r : Option Bool}
    (e : s.solve env k = .ok (s', r)) :
    s'.ctx.search.conflicts ≤ 1 ∧ (r = none → k ≤ formulaVars F) ∧
    (r = some false → s'.ctx.search.decisions = 0) ∧
    (r = some true → s'.ctx.search.conflicts = 0 ∧ ∃ α, LeastModel F α ∧
      ∀ l : Lit, l.index < formulaVars F → s'.value l = .ok (some (α l.index == l.isPositive))) := by
  cases k with
  | zero =>
    cases e
    exact ⟨by rw [h.start.search]; exact Nat.zero_le _, fun _ => Nat.zero_le _, by simp, by simp⟩
  | succ k =>
    unfold Solver.solve at e
    obtain ⟨⟨s1, r1⟩, e1, e2⟩ := bind_eq_ok.1 e
    have hr1 : Solver.Reachable env F s1 := by
      obtain ⟨t1, t2, ctx, search, q1, q2, q3, rfl⟩ := Solver.scheduleStep_eq e1
      exact (((Solver.Reachable.input h).restart q1).reduce q2).step q3
    obtain ⟨a1, a2⟩ := horn_first hF h e1
    cases r1 with
    | some b =>
      cases e2
      cases b with
      | false => exact ⟨(a1 rfl).1, by simp, fun _ => (a1 rfl).2, by simp⟩
      | true =>
        obtain ⟨b1, α, b2, b3, b4, b5⟩ := a2 (by simp)
        exact ⟨by omega, by simp, by simp, fun _ => ⟨b1, α, b2, fun l hl => by rw [hr1.value_eq hl]; exact b5 rfl l hl⟩⟩
    | none =>
      obtain ⟨b1, α, b2, b3, b4, b5⟩ := a2 (by simp)
      obtain ⟨c1, c2, c3, c4, c5, c6⟩ := b3.solve b2.1 hr1 e2
      refine ⟨by omega, fun hr => ?_, fun hr => absurd hr c4, fun hr => ⟨by omega, α, b2, fun l hl => ?_⟩⟩
      · obtain ⟨L, S, hi⟩ := c1.inv
        have h1 := hi.prop.trail.level_le_vars
        have h2 := (c5 hr).2 (b4 rfl).1
        have h3 := (b4 rfl).2
        omega
      · rw [c1.value_eq hl]
        exact c6 hr l hl

end

/-- The hypotheses of `C81_horn` are met by a formula with definite clauses and goals, for which two variables follow
and the others are decided, -/
theorem C81_example : ∃ s s', HornFormula (Example.cnf [[1], [-1, 2], [-2, -3, 4], [-4, -5, 6], [-6, -7]]) ∧
    Solver.Input Example.env (Example.cnf [[1], [-1, 2], [-2, -3, 4], [-4, -5, 6], [-6, -7]]) s ∧
    s.solve Example.env 7 = .ok (s', some true) ∧ s'.ctx.search.decisions = 4 ∧
    s'.value (Example.lit 2) = .ok (some true) ∧ s'.value (Example.lit 4) = .ok (some false) := by
  have h : (do
      let s ← (Solver.default Example.env).addClauses
        (Example.cnf [[1], [-1, 2], [-2, -3, 4], [-4, -5, 6], [-6, -7]])
      let (s', r) ← s.solve Example.env 7
      pure (s'.ctx.search.decisions, s'.value (Example.lit 2), s'.value (Example.lit 4), r) :
        M (Nat × M (Option Bool) × M (Option Bool) × Option Bool)) =
      .ok (4, .ok (some true), .ok (some false), some true) := by decide +kernel
  obtain ⟨s, h1, h2⟩ := bind_eq_ok.1 h
  obtain ⟨⟨s', r⟩, h3, h2⟩ := bind_eq_ok.1 h2
  have h2 := Except.ok.inj h2
  simp only [Prod.mk.injEq] at h2
  obtain ⟨a1, a2, a3, rfl⟩ := h2
  have hin := Solver.Input.addClauses _ (.new (env := Example.env))
    (Example.ok_valid (F := [[1], [-1, 2], [-2, -3, 4], [-4, -5, 6], [-6, -7]]) (by decide +kernel)) h1
  exact ⟨s, s', by decide +kernel, by simpa using hin, h3, a1, a2, a3⟩

/-- and by one that has no model, which is found without a decision. -/
theorem C81_unsat_example : ∃ s s', HornFormula (Example.cnf [[1], [-1, -2, 3], [-1, 2], [-2, -3]]) ∧
    Solver.Input Example.env (Example.cnf [[1], [-1, -2, 3], [-1, 2], [-2, -3]]) s ∧
    s.solve Example.env 1 = .ok (s', some false) ∧ s'.ctx.search.conflicts = 1 := by
  have h : (do
      let s ← (Solver.default Example.env).addClauses (Example.cnf [[1], [-1, -2, 3], [-1, 2], [-2, -3]])
      let (s', r) ← s.solve Example.env 1
      pure (s'.ctx.search.conflicts, r) : M (Nat × Option Bool)) = .ok (1, some false) := by decide +kernel
  obtain ⟨s, h1, h2⟩ := bind_eq_ok.1 h
  obtain ⟨⟨s', r⟩, h3, h2⟩ := bind_eq_ok.1 h2
  have h2 := Except.ok.inj h2
  simp only [Prod.mk.injEq] at h2
  obtain ⟨a1, rfl⟩ := h2
  have hin := Solver.Input.addClauses _ (.new (env := Example.env))
    (Example.ok_valid (F := [[1], [-1, -2, 3], [-1, 2], [-2, -3]]) (by decide +kernel)) h1
  exact ⟨s, s', by decide +kernel, by simpa using hin, h3, a1⟩

end Starlit
