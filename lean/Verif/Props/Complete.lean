import Verif.Props.Horn
import Verif.Props.Closure
import Verif.Props.Effort

/-!
# C91: propagation complete formulas are solved without search

A formula is propagation complete if unit propagation derives everything that follows from the formula and a set of
literals (Bordeaux and Marques-Silva, "Knowledge compilation with empowerment").  Many encodings of constraints are
made to have this property.  No decision can be wrong then, so it does not matter which variables the solver
takes and which phases are saved.
-/

namespace Starlit

/-- The literal is true in all models of the formula in which the literals of `A` are true. -/
def Entails (F : List (List Lit)) (A : List Lit) (l : Lit) : Prop :=
  ∀ α, FormulaSat α F → (∀ a ∈ A, LitSat α a) → LitSat α l

/-- For every consistent set of literals of the formula, unit propagation derives every literal that follows, or finds
that there is a contradiction. -/
def PropagationComplete (F : List (List Lit)) : Prop :=
  ∀ (A : List Lit) (l : Lit), (∀ a ∈ A, a.index < formulaVars F ∧ a.neg ∉ A) → l.index < formulaVars F → Entails F A l →
    Implied (toDB F) (· ∈ A) l ∨ UpConflict (toDB F) (· ∈ A)

section
variable {env : Env} {F : List (List Lit)} {s s' : Solver} {p1 p : PropState} {ctx : Ctx} {r : Option ConflictClause}
  {α : Nat → Bool}

theorem mem_toDB {c : Multiset Lit} : c ∈ toDB F ↔ ∃ d ∈ F, (d : Multiset Lit) = c := by
  simp [toDB]

/-- What is derived from the formula alone is assigned. -/
theorem Solver.Propagating.formula_implied (h : Solver.Propagating env F s p1 ctx p none) {l : Lit}
    (hi : Implied (toDB F) s.Decided l) : p.values.val l = some true := by
  obtain ⟨L, S, S2, hi', q⟩ := h.phase
  induction hi with
  | @asm l ha =>
    obtain ⟨u, hu, _, rfl⟩ := ha
    obtain ⟨ρ, new, e, hn⟩ := q.steps
    exact (q.inv.trail.val_iff _).2 ⟨u.ren ρ, by rw [e]; exact List.mem_append_left _ (List.mem_map_of_mem hu), rfl⟩
  | @unit l R hm _ ih =>
    obtain ⟨c, hc, hcl⟩ := mem_toDB.1 hm
    rcases h.input hc with hs | ⟨a, rfl, st, h1, rfl⟩
    · rw [hcl] at hs
      have hfalse : ∀ o ∈ R, p.values.value o = .ok (some false) := by
        intro o ho
        rw [q.inv.value (q.inv.stored_idx hs o (Multiset.mem_cons_of_mem ho))]
        have := ih o ho
        rw [PartialAssignment.val_neg q.inv.trail.vwf] at this
        cases hx : p.values.val o with
        | none => rw [hx] at this; cases this
        | some b => rw [hx] at this; cases b <;> simp_all
      rcases C08_pair h hs with ⟨x, hx, hv⟩ | ⟨a, b, R', hab, va, vb⟩
      · rcases Multiset.mem_cons.1 hx with rfl | hx
        · rw [q.inv.value (q.inv.stored_idx hs _ (Multiset.mem_cons_self _ _))] at hv
          exact Except.ok.inj hv
        · rw [hfalse x hx] at hv; cases hv
      · exfalso
        rcases Multiset.cons_eq_cons.1 hab with ⟨rfl, rfl⟩ | ⟨_, cs, rfl, _⟩
        · rw [hfalse b (Multiset.mem_cons_self _ _)] at vb; cases vb
        · rw [hfalse a (Multiset.mem_cons_self _ _)] at va; cases va
    · have hla : l = st.lit := by
        have : l ∈ (([st.lit] : List Lit) : Multiset Lit) := by rw [hcl]; simp
        simpa using this
      rw [hla]
      exact (q.inv.trail.val_iff _).2 ⟨st, h1, rfl⟩

/-- Without a conflict reported, unit propagation with the formula alone finds none. -/
theorem Solver.Propagating.formula_open (h : Solver.Propagating env F s p1 ctx p none) :
    ¬ UpConflict (toDB F) s.Decided := by
  rintro ⟨K, hK, hall⟩
  obtain ⟨L, S, S2, hi', q⟩ := h.phase
  obtain ⟨c, hc, rfl⟩ := mem_toDB.1 hK
  have hall : ∀ o ∈ c, p.values.val o = some false := by
    intro o ho
    have := h.formula_implied (hall o (by simpa using ho))
    rw [PartialAssignment.val_neg q.inv.trail.vwf] at this
    cases hx : p.values.val o with
    | none => rw [hx] at this; cases this
    | some b => rw [hx] at this; cases b <;> simp_all
  rcases h.input hc with hs | ⟨a, rfl, st, h1, rfl⟩
  · have hv : ∀ o ∈ (c : Multiset Lit), p.values.value o = .ok (some false) := fun o ho => by
      rw [q.inv.value (q.inv.stored_idx hs o ho), hall o (by simpa using ho)]
    rcases C08_pair h hs with ⟨x, hx, hxv⟩ | ⟨a, b, R', hab, va, vb⟩
    · rw [hv x hx] at hxv; cases hxv
    · rw [hv a (by rw [hab]; simp)] at va; cases va
  · have h2 := hall st.lit (by simp)
    rw [(q.inv.trail.val_iff _).2 ⟨st, h1, rfl⟩] at h2
    cases h2

/-- In a state whose assignment is part of a model, propagation finds no conflict and stays in the model. -/
theorem Solver.Propagating.model (hp : Solver.Propagating env F s p1 ctx p r) (hα : FormulaSat α F)
    (hs : ∀ l, s.Decided l → LitSat α l) : r = none ∧ ∀ st ∈ p.trail.steps, LitSat α st.lit := by
  obtain ⟨L, S, S2, hi, q⟩ := hp.phase
  have d2 := q.db _ _ hi.db
  have hs := q.inv.trail_sat d2 (hi.sat hα) (by
    intro st hst hr
    obtain ⟨ρ, new, e1, h1⟩ := q.steps
    rw [e1] at hst
    rcases List.mem_append.1 hst with hst | hst
    · obtain ⟨st', hst', rfl⟩ := List.mem_map.1 hst
      refine hs st'.lit ⟨st', hst', ?_, rfl⟩
      unfold Step.ren at hr
      cases hx : st'.reason <;> simp [hx, Reason.ren] at hr ⊢
    · exact absurd hr (h1 st hst).2.2)
  refine ⟨?_, hs⟩
  cases r with
  | none => rfl
  | some c =>
    obtain ⟨ls, _, h1, _, h2⟩ := q.inv.conflict d2 (q.conflict c rfl)
    obtain ⟨l, hl, hsat⟩ := hi.sat hα _ h2
    obtain ⟨st, h3, h4⟩ := h1 l (by simpa using hl)
    exact absurd (h4 ▸ hs st h3) hsat.not_neg

/-- No decision is wrong: every literal without a value is true in a model that has all values assigned. -/
theorem Solver.Propagating.free (hF : PropagationComplete F) (hp : Solver.Propagating env F s p1 ctx p none) {l : Lit}
    (hl : l.index < formulaVars F) (hv : p.values.val l = none) :
    ∃ α, FormulaSat α F ∧ (∀ a, s.Decided a → LitSat α a) ∧ LitSat α l := by
  by_contra hcon
  obtain ⟨L, S, S2, hi, q⟩ := hp.phase
  let A := (s.search.prop.trail.steps.filter (fun t => decide (t.reason = .decision))).map Step.lit
  have hA : ∀ a, a ∈ A ↔ s.Decided a := by
    intro a
    simp only [A, List.mem_map, List.mem_filter, decide_eq_true_eq, Solver.Decided, and_assoc]
  have he : Entails F A l.neg := by
    intro α h1 h2
    rw [litSat_neg]
    exact fun h3 => hcon ⟨α, h1, fun a ha => h2 a ((hA a).2 ha), h3⟩
  have hidx : ∀ a ∈ A, a.index < formulaVars F ∧ a.neg ∉ A := by
    intro a ha
    obtain ⟨st, h1, _, rfl⟩ := (hA a).1 ha
    refine ⟨hi.prop.trail.idx_lt st h1, fun hn => ?_⟩
    obtain ⟨t, h2, _, h3⟩ := (hA _).1 hn
    have v1 := (hi.prop.trail.val_iff st.lit).2 ⟨st, h1, rfl⟩
    have v2 := (hi.prop.trail.val_iff st.lit.neg).2 ⟨t, h2, h3⟩
    rw [PartialAssignment.val_neg hi.prop.trail.vwf, v1] at v2
    cases v2
  rcases hF A l.neg hidx (by rw [Lit.index_neg]; exact hl) he with h1 | h1
  · have := hp.formula_implied (h1.mono (fun _ hc => hc) fun a ha => .asm ((hA a).1 ha))
    rw [PartialAssignment.val_neg q.inv.trail.vwf, hv] at this
    cases this
  · exact hp.formula_open (h1.mono (fun _ hc => hc) fun a ha => .asm ((hA a).1 ha))

/-- The decisions are true in a model of the formula. -/
def Solver.Right (F : List (List Lit)) (s : Solver) : Prop := ∃ α, FormulaSat α F ∧ ∀ l, s.Decided l → LitSat α l

theorem Solver.Right.step (hF : PropagationComplete F) (hs : s.Right F) (h : Solver.Reachable env F s) {ctx : Ctx}
    {search : Search} {b : Option Bool} (e : searchStep env s.ctx s.search = .ok (ctx, search, b)) :
    Solver.Right F { s with ctx := ctx, search := search } ∧ ctx.search.conflicts = s.ctx.search.conflicts ∧
      b ≠ some false ∧
      (b = none → search.prop.trail.decisionLevel = s.search.prop.trail.decisionLevel + 1) := by
  obtain ⟨α, hα, hs⟩ := hs
  have hnf : b ≠ some false := by
    rintro rfl
    obtain ⟨L, S, hi⟩ := h.inv
    obtain ⟨L', S', h', q⟩ := (searchStep_spec hi).ok_elim e
    obtain ⟨log, _, _, hr⟩ := h'.proof
    obtain ⟨log0, L0, _, a, c⟩ := hr q.unsat
    exact a.unsat c α hα
  cases searchStep_cases h e with
  | already hu => exact absurd rfl hnf
  | fail hp h0 => exact absurd rfl hnf
  | learn hp h0 e1 => exact absurd (hp.model hα hs).1 (by simp)
  | @decide p1 p p' ctx1 x v l hp e1 e2 e3 =>
    obtain ⟨L, S, S2, hi, q⟩ := hp.phase
    obtain ⟨r, v', e', _, _, _, h2⟩ := popDecisionVar_spec hi.cb q.inv.trail.vwf q.inv.sized.values
      q.inv.sized.n_le (q.covers hi.prop hi.covers)
    rw [e1] at e'
    simp only [Except.ok.injEq, Prod.mk.injEq] at e'
    obtain ⟨rfl, rfl⟩ := e'
    obtain ⟨hx, hv, _⟩ := h2 x rfl
    obtain ⟨d1, d2, _⟩ := assignDecision_trail q.inv.trail e3
    have hmx : x ≤ MAX_INDEX := by have := q.inv.sized.n_le; omega
    obtain ⟨b, hb⟩ : ∃ b, litOf x b = l := by
      unfold decidePhase at e2
      obtain ⟨b, _, e2⟩ := bind_eq_ok.1 e2
      exact ⟨b, Except.ok.inj e2⟩
    obtain ⟨β, k1, k2, k3⟩ := hp.free hF (l := l) (by rw [← hb, litOf_index hmx]; exact hx) (hb ▸ hv b)
    refine ⟨⟨β, k1, ?_⟩, ?_, hnf, fun _ => by rw [d2, q.level]⟩
    · have hall := (hp.model k1 k2).2
      rintro a ⟨st, hst, _, rfl⟩
      simp only at hst
      rw [d1] at hst
      rcases List.mem_append.1 hst with hst | hst
      · exact hall st hst
      · simp only [List.mem_singleton] at hst
        rw [hst]; exact k3
    · show ctx1.search.conflicts = _
      rw [hp.search]
  | @sat p1 p ctx1 v hp e1 =>
    refine ⟨⟨α, hα, ?_⟩, by rw [hp.search], hnf, by simp⟩
    rintro a ⟨st, hst, _, rfl⟩
    exact (hp.model hα hs).2 st hst

theorem Solver.Right.schedule (hF : PropagationComplete F) (hs : s.Right F) (h : Solver.Reachable env F s)
    {b : Option Bool} (e : s.scheduleStep env = .ok (s', b)) :
    s'.Right F ∧ s'.ctx.search.conflicts = s.ctx.search.conflicts ∧ b ≠ some false ∧
    s'.ctx.search.conflicts < s'.schedule.nextRestart ∧
    (b = none → 0 < s'.search.prop.trail.decisionLevel ∧ (s.ctx.search.conflicts < s.schedule.nextRestart →
      s'.search.prop.trail.decisionLevel = s.search.prop.trail.decisionLevel + 1)) := by
  obtain ⟨s1, s2, ctx, search, e1, e2, e3, rfl⟩ := Solver.scheduleStep_eq e
  have r1 := h.restart e1
  have r2 := r1.reduce e2
  obtain ⟨c1, n1, q1⟩ := maybeRestart_next h e1
  obtain ⟨c2, n2, t2, _⟩ := maybeReduce_next r1 e2
  have k1 : s1.Right F := by
    obtain ⟨α, hα, hs⟩ := hs
    refine ⟨α, hα, ?_⟩
    obtain ⟨L, S, hi⟩ := h.inv
    obtain ⟨t, f1, _, hc⟩ := maybeRestart_spec hi
    cases e1.symm.trans f1
    rcases hc with ⟨_, rfl⟩ | ⟨_, h2, _⟩
    · exact hs
    · obtain ⟨ctx', s3, e3, _, hst, _⟩ := C34_restart h
      rw [h2] at e3
      simp only [Except.ok.injEq, Prod.mk.injEq] at e3
      obtain ⟨_, e4⟩ := e3
      rintro a ⟨st, k1, k2, rfl⟩
      rw [e4, hst, List.mem_filter] at k1
      exact hs _ ⟨st, k1.1, k2, rfl⟩
  have k2 : s2.Right F := by
    obtain ⟨α, hα, hs⟩ := k1
    refine ⟨α, hα, fun l hl => hs l ?_⟩
    unfold Solver.Decided at hl ⊢
    rw [t2] at hl
    exact hl
  obtain ⟨k3, k4, k5, k6⟩ := k2.step hF r2 e3
  refine ⟨k3, by rw [k4, c2, c1], k5, ?_, fun hb => ⟨?_, fun hq => ?_⟩⟩
  · simp only
    rw [k4, c2, n2]; exact n1
  · simp only
    rw [k6 hb]; omega
  · simp only
    rw [k6 hb, t2, q1 hq]

theorem Solver.Right.solve (hF : PropagationComplete F) {k : Nat} : ∀ {s : Solver}, s.Right F →
    Solver.Reachable env F s → ∀ {b : Option Bool}, s.solve env k = .ok (s', b) →
    s'.Right F ∧ s'.ctx.search.conflicts = s.ctx.search.conflicts ∧ b ≠ some false ∧
    (b = none → (0 < k → k ≤ s'.search.prop.trail.decisionLevel) ∧ (s.ctx.search.conflicts < s.schedule.nextRestart →
      s'.search.prop.trail.decisionLevel = s.search.prop.trail.decisionLevel + k)) := by
  induction k with
  | zero =>
    intro s hs h b e
    cases e
    exact ⟨hs, rfl, by simp, fun _ => ⟨fun h => absurd h (by omega), fun _ => rfl⟩⟩
  | succ k ih =>
    intro s hs h b e
    unfold Solver.solve at e
    obtain ⟨⟨s1, b1⟩, e1, e2⟩ := bind_eq_ok.1 e
    obtain ⟨k1, k2, k3, n1, l1⟩ := hs.schedule hF h e1
    cases b1 with
    | some b =>
      cases e2
      exact ⟨k1, k2, k3, by simp⟩
    | none =>
      obtain ⟨k4, k5, k6, l2⟩ := ih k1 (h.schedule e1) e2
      refine ⟨k4, by omega, k6, fun hb => ?_⟩
      have a1 := l1 rfl
      have a2 := (l2 hb).2 n1
      refine ⟨fun _ => by omega, fun hq => ?_⟩
      have := a1.2 hq
      omega

/-- Before the first iteration there are no decisions. -/
theorem Solver.Input.undecided (h : Solver.Input env F s) (l : Lit) : ¬ s.Decided l := by
  rintro ⟨st, h1, h2, _⟩
  obtain ⟨S, hi⟩ := h.inv
  obtain ⟨i, hi'⟩ := List.mem_iff_getElem?.1 h1
  have h3 := hi.prop.trail.level_le i st hi'
  have h4 := hi.prop.reasons i st hi'
  unfold ReasonOK at h4
  rw [h2] at h4
  have := h4.1
  unfold Trail.decisionLevel at h3
  rw [hi.decisions] at h3
  simp at h3
  omega

/-- The first iteration on an unsatisfiable formula. -/
theorem complete_first (hF : PropagationComplete F) (h : Solver.Input env F s) (hu : FormulaUnsat F) {b : Option Bool}
    (e : s.scheduleStep env = .ok (s', b)) :
    b = some false ∧ s'.ctx.search.conflicts ≤ 1 ∧ s'.ctx.search.decisions = 0 := by
  obtain ⟨s1, s2, ctx, search, e1, e2, e3, rfl⟩ := Solver.scheduleStep_eq e
  have h0 : Solver.Reachable env F s := .input h
  have r1 := h0.restart e1
  have r2 := r1.reduce e2
  obtain ⟨n1, _⟩ := maybeRestart_next h0 e1
  obtain ⟨m1, _, m3, _⟩ := maybeReduce_next r1 e2
  have hl0 : s.search.prop.trail.decisionLevel = 0 := by
    unfold Trail.decisionLevel; rw [h.trail.level]
  have hs1 : s1.search = s.search ∧ s1.ctx.search.decisions = 0 := by
    obtain ⟨L, S, hi⟩ := h0.inv
    obtain ⟨t, f1, _, hc⟩ := maybeRestart_spec hi
    cases e1.symm.trans f1
    rcases hc with ⟨_, rfl⟩ | ⟨_, h2, _⟩
    · exact ⟨rfl, by rw [h.start.search]⟩
    · obtain ⟨ctx', t', f2, _, f3, _, _, f4⟩ := restart_spec hi
      rw [h2] at f2
      simp only [Except.ok.injEq, Prod.mk.injEq] at f2
      rcases f4 with ⟨_, rfl⟩ | ⟨target, f5, _⟩
      · exact ⟨f2.2, by rw [f2.1, f3, h.start.search]⟩
      · have := (List.getElem?_eq_some_iff.1 f5).1
        rw [h.trail.level] at this
        omega
  have hc0 : s2.ctx.search.conflicts = 0 := by rw [m1, n1, h.start.search]
  have hd0 : s2.ctx.search.decisions = 0 := by rw [m1]; exact hs1.2
  cases searchStep_cases r2 e3 with
  | already hu => exact ⟨rfl, by simp only; omega, hd0⟩
  | fail hp h0 =>
    refine ⟨rfl, ?_, ?_⟩
    · simp only [Ctx.conflict, hp.search]; omega
    · simp only [Ctx.conflict, hp.search]; exact hd0
  | learn hp h0 ea =>
    obtain ⟨L, S, S2, hi, q⟩ := hp.phase
    exact absurd (q.level.trans (by rw [m3, hs1.1]; exact hl0)) h0
  | @decide p1 p p' ctx1 x v l hp e4 e5 e6 =>
    obtain ⟨L, S, S2, hi, q⟩ := hp.phase
    obtain ⟨r, v', e', _, _, _, h2⟩ := popDecisionVar_spec hi.cb q.inv.trail.vwf q.inv.sized.values
      q.inv.sized.n_le (q.covers hi.prop hi.covers)
    rw [e4] at e'
    simp only [Except.ok.injEq, Prod.mk.injEq] at e'
    obtain ⟨rfl, rfl⟩ := e'
    obtain ⟨hx, hv, _⟩ := h2 x rfl
    have hmx : x ≤ MAX_INDEX := by have := q.inv.sized.n_le; omega
    obtain ⟨α, k1, _⟩ := hp.free hF (l := litOf x true) (by rw [litOf_index hmx]; exact hx) (hv true)
    exact absurd k1 (hu α)
  | @sat p1 p ctx1 v hp e4 =>
    exfalso
    obtain ⟨L, S, hi⟩ := r2.inv
    obtain ⟨α, hα, _⟩ := searchStep_sat (sch := s2.schedule) hi e3
    exact hu α hα

/-- C91: on a propagation complete formula `solve()` answers after at most one more iteration than there are variables,
with at most one conflict.  It answers unsatisfiable without having made a decision, and satisfiable without a conflict.
-/
theorem C91_search (hF : PropagationComplete F) (h : Solver.Input env F s) {k : Nat} {b : Option Bool}
    (e : s.solve env k = .ok (s', b)) :
    s'.ctx.search.conflicts ≤ 1 ∧ (b = none → k ≤ formulaVars F) ∧
    (b = some false → s'.ctx.search.decisions = 0) ∧ (b = some true → s'.ctx.search.conflicts = 0) := by
  by_cases hu : ∃ α, FormulaSat α F
  · obtain ⟨α, hα⟩ := hu
    have hs : s.Right F := ⟨α, hα, fun l hl => absurd hl (h.undecided l)⟩
    obtain ⟨_, k2, k3, k4⟩ := hs.solve hF (.input h) e
    have k2 : s'.ctx.search.conflicts = 0 := by rw [k2, h.start.search]
    refine ⟨by omega, fun hb => ?_, fun hb => absurd hb k3, fun _ => k2⟩
    obtain ⟨L, S, hi⟩ := ((Solver.Reachable.input h).solve e).inv
    have := hi.prop.trail.level_le_vars
    by_cases hk : 0 < k
    · have := (k4 hb).1 hk
      omega
    · omega
  · cases k with
    | zero =>
      cases e
      exact ⟨by rw [h.start.search]; exact Nat.zero_le _, fun _ => Nat.zero_le _, by simp, by simp⟩
    | succ k =>
      unfold Solver.solve at e
      obtain ⟨⟨s1, b1⟩, e1, e2⟩ := bind_eq_ok.1 e
      obtain ⟨k1, k2, k3⟩ := complete_first hF h (fun α hα => hu ⟨α, hα⟩) e1
      subst k1
      cases e2
      exact ⟨k2, by simp, fun _ => k3, by simp⟩

/-- C91: no decision is ever wrong: in every state of a run on a satisfiable propagation complete formula the decisions
are part of a model. -/
theorem C91_decisions (hF : PropagationComplete F) (h : Solver.Input env F s) {k : Nat} {b : Option Bool}
    (e : s.solve env k = .ok (s', b)) (hα : FormulaSat α F) :
    ∃ β, FormulaSat β F ∧ ∀ l, s'.Decided l → LitSat β l := by
  have hs : s.Right F := ⟨α, hα, fun l hl => absurd hl (h.undecided l)⟩
  exact (hs.solve hF (.input h) e).1

/-- C91: formulas that contain their prime implicates are propagation complete: it is enough that every clause that
follows from the formula contains one of its clauses. -/
theorem C91_implicates (hF : ∀ P : List Lit, (∀ l ∈ P, l.index < formulaVars F ∧ l.neg ∉ P) →
    (∀ α, FormulaSat α F → ∃ l ∈ P, LitSat α l) → ∃ c ∈ F, c.Nodup ∧ ∀ l ∈ c, l ∈ P) : PropagationComplete F := by
  intro A l hA hl he
  by_cases hlA : l ∈ A
  · exact .inl (.asm hlA)
  have hneg : ∀ o, o ∈ A.map Lit.neg ↔ o.neg ∈ A := by
    intro o
    rw [List.mem_map]
    constructor
    · rintro ⟨a, ha, rfl⟩; rwa [Lit.neg_neg]
    · intro ho; exact ⟨_, ho, Lit.neg_neg o⟩
  by_cases hln : l.neg ∈ A
  · -- the assumptions are contradictory
    obtain ⟨c, hc, _, hsub⟩ := hF (A.map Lit.neg) (fun o ho => by
        rw [hneg] at ho
        have := hA _ ho
        rw [Lit.neg_neg] at this
        exact ⟨by rw [Lit.index_neg] at this; exact this.1, fun h2 => by
          rw [hneg, Lit.neg_neg] at h2; exact this.2 h2⟩) (fun α hα => by
        by_contra hcon
        have hall : ∀ a ∈ A, LitSat α a := fun a ha => by
          by_contra hna
          exact hcon ⟨a.neg, (hneg _).2 (by rwa [Lit.neg_neg]), litSat_neg.2 hna⟩
        exact (he α hα hall).not_neg (hall _ hln))
    exact .inr ⟨c, mem_toDB.2 ⟨c, hc, rfl⟩, fun o ho => .asm ((hneg o).1 (hsub o (by simpa using ho)))⟩
  obtain ⟨c, hc, hn, hsub⟩ := hF (l :: A.map Lit.neg) (fun o ho => by
      rcases List.mem_cons.1 ho with rfl | ho
      · refine ⟨hl, fun h2 => ?_⟩
        rcases List.mem_cons.1 h2 with h2 | h2
        · exact Lit.neg_ne o h2
        · rw [hneg, Lit.neg_neg] at h2; exact hlA h2
      · rw [hneg] at ho
        have := hA _ ho
        rw [Lit.neg_neg, Lit.index_neg] at this
        refine ⟨this.1, fun h2 => ?_⟩
        rcases List.mem_cons.1 h2 with h2 | h2
        · exact hlA (h2 ▸ ho)
        · rw [hneg, Lit.neg_neg] at h2; exact this.2 h2) (fun α hα => by
      by_contra hcon
      have hall : ∀ a ∈ A, LitSat α a := fun a ha => by
        by_contra hna
        exact hcon ⟨a.neg, List.mem_cons_of_mem _ ((hneg _).2 (by rwa [Lit.neg_neg])), litSat_neg.2 hna⟩
      exact hcon ⟨l, List.mem_cons_self, he α hα hall⟩)
  by_cases hlc : l ∈ c
  · refine .inl (.unit (R := (c.erase l : Multiset Lit)) (mem_toDB.2 ⟨c, hc, ?_⟩) fun o ho => ?_)
    · exact Multiset.coe_eq_coe.2 (List.perm_cons_erase hlc)
    · have ho : o ∈ c.erase l := by simpa using ho
      rcases List.mem_cons.1 (hsub o (List.mem_of_mem_erase ho)) with rfl | h2
      · exact absurd ho (hn.not_mem_erase)
      · exact .asm ((hneg o).1 h2)
  · refine .inr ⟨c, mem_toDB.2 ⟨c, hc, rfl⟩, fun o ho => .asm ?_⟩
    have ho : o ∈ c := by simpa using ho
    rcases List.mem_cons.1 (hsub o ho) with rfl | h2
    · exact absurd ho hlc
    · exact (hneg o).1 h2

end

namespace Example

/-- An AND gate and a clause, with all prime implicates. -/
def primes : List (List Int) := [[-4, 1], [-4, 2], [4, -1, -2], [3, 4], [3, 1], [3, 2]]

/-- The literals of four variables. -/
def lits4 : List Lit := [1, -1, 2, -2, 3, -3, 4, -4].map lit

theorem mem_lits4 {l : Lit} (h : l.index < 4) : l ∈ lits4 := by
  have : ∀ (i : Fin 4) (b : Bool), ∃ m ∈ lits4, m.index = i ∧ m.isPositive = b := by decide
  obtain ⟨m, h1, h2, h3⟩ := this ⟨l.index, h⟩ l.isPositive
  rwa [Lit.ext_index h2.symm h3.symm]

theorem primes_check : ∀ Q ∈ lits4.sublists, (Q.all fun l => !Q.contains l.neg) = true →
    (∀ a b c d : Bool, ((cnf primes).all fun c' => c'.any fun l => [a, b, c, d].getD l.index false == l.isPositive) =
      true → (Q.any fun l => [a, b, c, d].getD l.index false == l.isPositive) = true) →
    ((cnf primes).any fun c => c.all fun l => Q.contains l) = true := by
  decide +kernel

theorem primes_complete : PropagationComplete (cnf primes) := by
  refine C91_implicates fun P hP hα => ?_
  have hn : formulaVars (cnf primes) = 4 := by decide +kernel
  have hQ : ∀ l, l ∈ lits4.filter (fun l => P.contains l) ↔ l ∈ P := by
    intro l
    rw [List.mem_filter, List.contains_iff_mem]
    exact ⟨fun h => h.2, fun h => ⟨mem_lits4 (hn ▸ (hP l h).1), h⟩⟩
  have h := primes_check (lits4.filter fun l => P.contains l) (List.mem_sublists.2 (List.filter_sublist)) (by
      rw [List.all_eq_true]
      intro l hl
      rw [Bool.not_eq_true', ← Bool.not_eq_true, List.contains_iff_mem, hQ]
      exact (hP l ((hQ l).1 hl)).2) (by
      intro a b c d hs
      have hs' : FormulaSat (fun x => [a, b, c, d].getD x false) (cnf primes) := by
        intro c' hc
        have := List.any_eq_true.1 (List.all_eq_true.1 hs c' hc)
        obtain ⟨l, h1, h2⟩ := this
        exact ⟨l, h1, by simpa [LitSat] using h2⟩
      obtain ⟨l, h1, h2⟩ := hα _ hs'
      exact List.any_eq_true.2 ⟨l, (hQ l).2 h1, by simpa [LitSat] using h2⟩)
  obtain ⟨c, h1, h2⟩ := List.any_eq_true.1 h
  refine ⟨c, h1, ?_, fun l hl => ?_⟩
  · have : ∀ c ∈ cnf primes, c.Nodup := by decide +kernel
    exact this c h1
  · have := List.all_eq_true.1 h2 l hl
    rwa [List.contains_iff_mem, hQ] at this

end Example

/-- The hypotheses of C91 are met by an AND gate with a further clause.  The solver makes 2 decisions and propagates the
rest. -/
theorem C91_example : ∃ s s', PropagationComplete (Example.cnf Example.primes) ∧
    Solver.Input Example.env (Example.cnf Example.primes) s ∧
    s.solve Example.env 4 = .ok (s', some true) ∧ s'.ctx.search.decisions = 2 ∧ s'.ctx.search.conflicts = 0 := by
  have h : (do
      let s ← (Solver.default Example.env).addClauses (Example.cnf Example.primes)
      let (s', r) ← s.solve Example.env 4
      pure (s'.ctx.search.decisions, s'.ctx.search.conflicts, r) : M (Nat × Nat × Option Bool)) =
      .ok (2, 0, some true) := by decide +kernel
  obtain ⟨s, h1, h2⟩ := bind_eq_ok.1 h
  obtain ⟨⟨s', r⟩, h3, h2⟩ := bind_eq_ok.1 h2
  have h2 := Except.ok.inj h2
  simp only [Prod.mk.injEq] at h2
  obtain ⟨a1, a2, rfl⟩ := h2
  have hin := Solver.Input.addClauses _ (.new (env := Example.env))
    (Example.ok_valid (F := Example.primes) (by decide +kernel)) h1
  exact ⟨s, s', Example.primes_complete, by simpa using hin, h3, a1, a2⟩

end Starlit
