import Verif.Props.Complete
import Verif.Props.SolveEvery

/-!
# C111: formulas that unit propagation refutes

A formula is unit refutation complete if unit propagation finds a contradiction for every set of literals that
contradicts the formula (del Val 1994).  Less is asked than for propagation complete formulas (C91): a literal may follow
without being derived.  All formulas that become Horn formulas by renaming literals are of this kind.  On such a formula
the solver never follows a wrong decision for longer than one propagation.
-/

namespace Starlit

/-- Unit propagation finds a contradiction if the formula has no model in which the literals of `A` are true. -/
def RefutationComplete (F : List (List Lit)) : Prop :=
  ∀ A : List Lit, (∀ a ∈ A, a.index < formulaVars F ∧ a.neg ∉ A) →
    (∀ α, FormulaSat α F → ¬ ∀ a ∈ A, LitSat α a) → UpConflict (toDB F) (· ∈ A)

/-- The formula is a Horn formula if the literals of the variables in `f` are exchanged with their negations: every
clause has at most one literal that is positive then. -/
def RenamedHorn (f : Nat → Bool) (F : List (List Lit)) : Prop :=
  ∀ c ∈ F, (c.filter fun l => l.isPositive != f l.index).length ≤ 1

instance (f : Nat → Bool) (F : List (List Lit)) : Decidable (RenamedHorn f F) :=
  inferInstanceAs (Decidable (∀ c ∈ F, (c.filter fun l => l.isPositive != f l.index).length ≤ 1))

section
variable {env : Env} {F : List (List Lit)} {s s' : Solver} {p1 p : PropState} {ctx : Ctx} {r : Option ConflictClause}
  {α : Nat → Bool}

/-- Unit propagation derives no literal together with its negation unless it finds a contradiction. -/
theorem Implied.consistent {D : DB} {A : Lit → Prop} (hA : ∀ a, A a → ¬ A a.neg) (hc : ¬ UpConflict D A) {l : Lit}
    (h1 : Implied D A l) (h2 : Implied D A l.neg) : False := by
  cases h1 with
  | asm a1 =>
    cases h2 with
    | asm a2 => exact hA l a1 a2
    | @unit _ R hm hR =>
      refine hc ⟨_, hm, fun o ho => ?_⟩
      rcases Multiset.mem_cons.1 ho with rfl | ho
      · rw [Lit.neg_neg]; exact .asm a1
      · exact hR o ho
  | @unit _ R hm hR =>
    refine hc ⟨_, hm, fun o ho => ?_⟩
    rcases Multiset.mem_cons.1 ho with rfl | ho
    · exact h2
    · exact hR o ho

/-- What is derived, and the renaming for the rest. -/
noncomputable def upModel (D : DB) (A : Lit → Prop) (f : Nat → Bool) (x : Nat) : Bool :=
  open Classical in
  if ∃ l : Lit, l.index = x ∧ l.isPositive = true ∧ Implied D A l then true
  else if ∃ l : Lit, l.index = x ∧ l.isPositive = false ∧ Implied D A l then false else f x

theorem upModel_implied {D : DB} {A : Lit → Prop} {f : Nat → Bool} (hA : ∀ a, A a → ¬ A a.neg) (hc : ¬ UpConflict D A)
    {l : Lit} (h : Implied D A l) : LitSat (upModel D A f) l := by
  unfold LitSat upModel
  cases hp : l.isPositive with
  | true => rw [if_pos ⟨l, rfl, hp, h⟩]
  | false =>
    rw [if_neg, if_pos ⟨l, rfl, hp, h⟩]
    rintro ⟨m, h1, h2, h3⟩
    have : m = l.neg := Lit.ext_index (by rw [h1, Lit.index_neg]) (by rw [h2, Lit.isPositive_neg, hp]; rfl)
    exact h.consistent hA hc (this ▸ h3)

theorem upModel_free {D : DB} {A : Lit → Prop} {f : Nat → Bool} {l : Lit} (h1 : ¬ Implied D A l)
    (h2 : ¬ Implied D A l.neg) : upModel D A f l.index = f l.index := by
  have key : ∀ m : Lit, m.index = l.index → ¬ Implied D A m := by
    intro m hm hi
    by_cases hp : m.isPositive = l.isPositive
    · exact h1 (Lit.ext_index hm hp ▸ hi)
    · have : m = l.neg := Lit.ext_index (by rw [hm, Lit.index_neg]) (by
        rw [Lit.isPositive_neg]; revert hp; cases m.isPositive <;> cases l.isPositive <;> simp)
      exact h2 (this ▸ hi)
  unfold upModel
  rw [if_neg, if_neg]
  · rintro ⟨m, k1, _, k2⟩; exact key m k1 k2
  · rintro ⟨m, k1, _, k2⟩; exact key m k1 k2

/-- C111: renamed Horn formulas, and so Horn formulas and formulas in which every clause has at most one negative
literal, are refutation complete. -/
theorem C111_horn {f : Nat → Bool} (hF : RenamedHorn f F) : RefutationComplete F := by
  intro A hA hu
  by_contra hc
  have hA' : ∀ a, a ∈ A → a.neg ∉ A := fun a ha => (hA a ha).2
  refine hu (upModel (toDB F) (· ∈ A) f) (fun c hcF => ?_) fun a ha => upModel_implied hA' hc (.asm ha)
  by_contra hcon
  have hcon : ∀ l ∈ c, ¬ LitSat (upModel (toDB F) (· ∈ A) f) l := fun l hl hs => hcon ⟨l, hl, hs⟩
  have hni : ∀ l ∈ c, ¬ Implied (toDB F) (· ∈ A) l := fun l hl hi => hcon l hl (upModel_implied hA' hc hi)
  have hpos : ∀ l ∈ c, ¬ Implied (toDB F) (· ∈ A) l.neg → (l.isPositive != f l.index) = true := by
    intro l hl hn
    have := hcon l hl
    unfold LitSat at this
    rw [upModel_free (hni l hl) hn] at this
    rw [bne_iff_ne]
    exact fun h => this h.symm
  -- two occurrences of literals that are not false
  obtain ⟨a, ha, han⟩ : ∃ a ∈ c, ¬ Implied (toDB F) (· ∈ A) a.neg := by
    by_contra h
    exact hc ⟨c, mem_toDB.2 ⟨c, hcF, rfl⟩, fun o ho => by
      by_contra h2; exact h ⟨o, by simpa using ho, h2⟩⟩
  obtain ⟨b, hb, hbn⟩ : ∃ b ∈ c.erase a, ¬ Implied (toDB F) (· ∈ A) b.neg := by
    by_contra h
    refine hni a ha (.unit (R := (c.erase a : Multiset Lit)) (mem_toDB.2 ⟨c, hcF, ?_⟩) fun o ho => ?_)
    · exact Multiset.coe_eq_coe.2 (List.perm_cons_erase ha)
    · by_contra h2; exact h ⟨o, by simpa using ho, h2⟩
  have h1 := hF c hcF
  rw [(((List.perm_cons_erase ha).trans ((List.perm_cons_erase hb).cons a)).filter _).length_eq] at h1
  rw [List.filter_cons, if_pos (hpos a ha han), List.filter_cons,
    if_pos (hpos b (List.mem_of_mem_erase hb) hbn)] at h1
  simp only [List.length_cons] at h1
  omega

/-- C111: propagation complete formulas are refutation complete. -/
theorem C111_complete (hF : PropagationComplete F) : RefutationComplete F := by
  intro A hA hu
  by_cases hn : ∃ l : Lit, l.index < formulaVars F
  · obtain ⟨l, hl⟩ := hn
    by_contra hc
    have he : ∀ m, Entails F A m := fun m α h1 h2 => absurd h2 (hu α h1)
    rcases hF A l hA hl (he l) with h1 | h1
    · rcases hF A l.neg hA (by rw [Lit.index_neg]; exact hl) (he _) with h2 | h2
      · exact h1.consistent (fun a ha => (hA a ha).2) hc h2
      · exact hc h2
    · exact hc h1
  · have hA0 : ∀ a, a ∉ A := fun a ha => hn ⟨a, (hA a ha).1⟩
    have : ¬ FormulaSat (fun _ => false) F := fun h => hu _ h fun a ha => absurd ha (hA0 a)
    unfold FormulaSat at this
    push Not at this
    obtain ⟨c, hc, _⟩ := this
    refine ⟨c, mem_toDB.2 ⟨c, hc, rfl⟩, fun o ho => absurd ⟨o, ?_⟩ hn⟩
    have ho : o ∈ c := by simpa using ho
    exact lt_formulaVars hc ho

/-- Propagation without a conflict shows that the decisions are right. -/
theorem Solver.Propagating.right (hF : RefutationComplete F) (hp : Solver.Propagating env F s p1 ctx p none) :
    s.Right F := by
  by_contra hcon
  obtain ⟨L, S, S2, hi, q⟩ := hp.phase
  let A := (s.search.prop.trail.steps.filter (fun t => decide (t.reason = .decision))).map Step.lit
  have hA : ∀ a, a ∈ A ↔ s.Decided a := by
    intro a
    simp only [A, List.mem_map, List.mem_filter, decide_eq_true_eq, Solver.Decided, and_assoc]
  have hidx : ∀ a ∈ A, a.index < formulaVars F ∧ a.neg ∉ A := by
    intro a ha
    obtain ⟨st, h1, _, rfl⟩ := (hA a).1 ha
    refine ⟨hi.prop.trail.idx_lt st h1, fun hn => ?_⟩
    obtain ⟨t, h2, _, h3⟩ := (hA _).1 hn
    have v1 := (hi.prop.trail.val_iff st.lit).2 ⟨st, h1, rfl⟩
    have v2 := (hi.prop.trail.val_iff st.lit.neg).2 ⟨t, h2, h3⟩
    rw [PartialAssignment.val_neg hi.prop.trail.vwf, v1] at v2
    cases v2
  have := hF A hidx fun α h1 h2 => hcon ⟨α, h1, fun l hl => h2 l ((hA l).2 hl)⟩
  exact hp.formula_open (this.mono (fun _ hc => hc) fun a ha => .asm ((hA a).1 ha))

/-- The decisions of all levels but the last are true in a model of the formula. -/
def Solver.Almost (F : List (List Lit)) (s : Solver) : Prop :=
  ∃ α, FormulaSat α F ∧ ∀ st ∈ s.search.prop.trail.steps, st.reason = .decision →
    st.level < s.search.prop.trail.decisionLevel → LitSat α st.lit

/-- The decisions are right, or the last one has not been tried yet and is not paid for. -/
def Solver.Tried (F : List (List Lit)) (s : Solver) : Prop :=
  (s.Right F ∧ s.ctx.search.conflicts ≤ s.ctx.search.decisions) ∨
  (s.Almost F ∧ s.ctx.search.conflicts + 1 ≤ s.ctx.search.decisions)

theorem Solver.Tried.step (hF : RefutationComplete F) (hs : s.Tried F) (h : Solver.Reachable env F s) {ctx : Ctx}
    {search : Search} {b : Option Bool} (e : searchStep env s.ctx s.search = .ok (ctx, search, b)) :
    Solver.Tried F { s with ctx := ctx, search := search } ∧ b ≠ some false ∧
    (ctx.search.conflicts ≠ s.ctx.search.conflicts → Solver.Right F { s with ctx := ctx, search := search } ∧ ¬ s.Right F) := by
  have hnf : b ≠ some false := by
    rintro rfl
    obtain ⟨L, S, hi⟩ := h.inv
    obtain ⟨L', S', h', q⟩ := (searchStep_spec hi).ok_elim e
    obtain ⟨log, _, _, hr⟩ := h'.proof
    obtain ⟨log0, L0, _, a, c⟩ := hr q.unsat
    rcases hs with ⟨⟨α, hα, _⟩, _⟩ | ⟨⟨α, hα, _⟩, _⟩ <;> exact a.unsat c α hα
  have hcd : s.ctx.search.conflicts ≤ s.ctx.search.decisions := by rcases hs with ⟨_, h⟩ | ⟨_, h⟩ <;> omega
  cases searchStep_cases h e with
  | already hu => exact absurd rfl hnf
  | fail hp h0 => exact absurd rfl hnf
  | @learn p1 p p' ctx1 ctx' c an cb hp h0 e1 =>
    have hnr : ¬ s.Right F := by
      rintro ⟨α, hα, hs⟩
      exact absurd (hp.model hα hs).1 (by simp)
    rcases hs with ⟨hr, _⟩ | ⟨⟨α, hα, ha⟩, hc⟩
    · exact absurd hr hnr
    obtain ⟨S2', S', C, lvl, target, hi2, A⟩ := hp.analyze h0 e1
    obtain ⟨L, S, S2, hi, q⟩ := hp.phase
    obtain ⟨hcut, _⟩ := hi2.trail.take_eq_filter A.cutpos
    obtain ⟨a, rest, r, _, hrd, ht, _⟩ := A.trail
    have hlt := A.asserting.lt
    have hright : Solver.Right F { s with ctx := ctx, search := ⟨p', an, cb⟩ } := by
      refine ⟨α, hα, ?_⟩
      rintro l ⟨st, hst, hd, rfl⟩
      simp only at hst
      rw [ht] at hst
      simp only [Trail.push, Trail.cut] at hst
      rw [hcut] at hst
      rcases List.mem_append.1 hst with hst | hst
      · obtain ⟨h1, h2⟩ := List.mem_filter.1 hst
        obtain ⟨ρ, new, e2, hn⟩ := q.steps
        rw [e2] at h1
        rcases List.mem_append.1 h1 with h1 | h1
        · obtain ⟨st', hst', rfl⟩ := List.mem_map.1 h1
          refine ha st' hst' ?_ ?_
          · unfold Step.ren at hd
            cases hx : st'.reason <;> simp [hx, Reason.ren] at hd ⊢
          · have h2 : st'.level ≤ lvl := of_decide_eq_true h2
            rw [← q.level]; omega
        · exact absurd hd (hn st h1).2.2
      · simp only [List.mem_singleton] at hst
        rw [hst] at hd
        exact absurd hd hrd
    have hcf : ctx.search.conflicts = s.ctx.search.conflicts + 1 ∧ ctx.search.decisions = s.ctx.search.decisions := by
      rw [A.search]
      simp only [Ctx.conflict, hp.search, and_self]
    refine ⟨.inl ⟨hright, ?_⟩, hnf, fun _ => ⟨hright, hnr⟩⟩
    simp only
    omega
  | @decide p1 p p' ctx1 x v l hp e1 e2 e3 =>
    obtain ⟨α, hα, hr⟩ := hp.right hF
    have hall := (hp.model hα hr).2
    obtain ⟨L, S, S2, hi, q⟩ := hp.phase
    obtain ⟨d1, d2, _⟩ := assignDecision_trail q.inv.trail e3
    have hcf : ctx1.decision.search.conflicts = s.ctx.search.conflicts ∧
        ctx1.decision.search.decisions = s.ctx.search.decisions + 1 := by
      simp only [Ctx.decision, hp.search, and_self]
    refine ⟨.inr ⟨⟨α, hα, ?_⟩, ?_⟩, hnf, fun hne => absurd hcf.1 hne⟩
    · intro st hst _ hlv
      simp only at hst hlv
      rw [d1] at hst
      rcases List.mem_append.1 hst with hst | hst
      · exact hall st hst
      · simp only [List.mem_singleton] at hst
        rw [d2, hst] at hlv
        simp only at hlv
        omega
    · simp only
      omega
  | @sat p1 p ctx1 v hp e1 =>
    obtain ⟨α, hα, hr⟩ := hp.right hF
    refine ⟨.inl ⟨⟨α, hα, ?_⟩, ?_⟩, hnf, fun hne => absurd (by rw [hp.search]) hne⟩
    · rintro a ⟨st, hst, _, rfl⟩
      exact (hp.model hα hr).2 st hst
    · simp only
      rw [hp.search]; exact hcd

theorem Solver.Right.restart (hs : s.Right F) (h : Solver.Reachable env F s) (e : s.maybeRestart = .ok s') :
    s'.Right F := by
  obtain ⟨α, hα, hs⟩ := hs
  refine ⟨α, hα, ?_⟩
  obtain ⟨L, S, hi⟩ := h.inv
  obtain ⟨t, f1, _, hc⟩ := maybeRestart_spec hi
  cases e.symm.trans f1
  rcases hc with ⟨_, rfl⟩ | ⟨_, h2, _⟩
  · exact hs
  · obtain ⟨ctx', s3, e3, _, hst, _⟩ := C34_restart h
    rw [h2] at e3
    simp only [Except.ok.injEq, Prod.mk.injEq] at e3
    obtain ⟨_, e4⟩ := e3
    rintro a ⟨st, k1, k2, rfl⟩
    rw [e4, hst, List.mem_filter] at k1
    exact hs _ ⟨st, k1.1, k2, rfl⟩

theorem Solver.Almost.restart (hs : s.Almost F) (h : Solver.Reachable env F s) (e : s.maybeRestart = .ok s') :
    s'.Almost F := by
  obtain ⟨α, hα, hs⟩ := hs
  refine ⟨α, hα, ?_⟩
  obtain ⟨L, S, hi⟩ := h.inv
  obtain ⟨t, f1, _, hc⟩ := maybeRestart_spec hi
  cases e.symm.trans f1
  rcases hc with ⟨_, rfl⟩ | ⟨_, h2, _⟩
  · exact hs
  · obtain ⟨ctx', s3, e3, h0, _⟩ := C34_restart h
    rw [h2] at e3
    simp only [Except.ok.injEq, Prod.mk.injEq] at e3
    obtain ⟨_, e4⟩ := e3
    intro st _ _ hlv
    rw [e4, h0] at hlv
    omega

theorem maybeRestart_counts (h : Solver.Reachable env F s) (e : s.maybeRestart = .ok s') :
    s'.ctx.search.conflicts = s.ctx.search.conflicts ∧ s'.ctx.search.decisions = s.ctx.search.decisions := by
  obtain ⟨L, S, hi⟩ := h.inv
  obtain ⟨t, f1, _, hc⟩ := maybeRestart_spec hi
  cases e.symm.trans f1
  rcases hc with ⟨_, rfl⟩ | ⟨_, h2, _⟩
  · exact ⟨rfl, rfl⟩
  · obtain ⟨ctx', t', f2, _, f3, _, _, _⟩ := restart_spec hi
    rw [h2] at f2
    simp only [Except.ok.injEq, Prod.mk.injEq] at f2
    rw [f2.1, f3]
    exact ⟨rfl, rfl⟩

theorem Solver.Tried.before (hs : s.Tried F) (h : Solver.Reachable env F s) {s1 : Solver} (e1 : s.maybeRestart = .ok s1)
    (e2 : s1.maybeReduce env = .ok s') : s'.Tried F ∧ (s.Right F → s'.Right F) := by
  have r1 := h.restart e1
  obtain ⟨c1, d1⟩ := maybeRestart_counts h e1
  obtain ⟨c2, n2, t2, _⟩ := maybeReduce_next r1 e2
  have hR : s1.Right F → s'.Right F := fun ⟨α, hα, hs⟩ => ⟨α, hα, fun l hl => hs l (by
    unfold Solver.Decided at hl ⊢
    rw [t2] at hl
    exact hl)⟩
  refine ⟨?_, fun hr => hR (hr.restart h e1)⟩
  have hcd : s'.ctx.search.conflicts = s.ctx.search.conflicts ∧ s'.ctx.search.decisions = s.ctx.search.decisions := by
    rw [c2]; exact ⟨c1, d1⟩
  unfold Solver.Tried
  rw [hcd.1, hcd.2]
  rcases hs with ⟨hr, h1⟩ | ⟨ha, h1⟩
  · exact .inl ⟨hR (hr.restart h e1), h1⟩
  · refine .inr ⟨?_, h1⟩
    have := ha.restart h e1
    unfold Solver.Almost at this ⊢
    rw [t2]
    exact this

theorem Solver.Tried.schedule (hF : RefutationComplete F) (hs : s.Tried F) (h : Solver.Reachable env F s)
    {b : Option Bool} (e : s.scheduleStep env = .ok (s', b)) :
    s'.Tried F ∧ b ≠ some false ∧
    (s'.ctx.search.conflicts ≠ s.ctx.search.conflicts → s'.Right F ∧ ¬ s.Right F) := by
  obtain ⟨s1, s2, ctx, search, e1, e2, e3, rfl⟩ := Solver.scheduleStep_eq e
  obtain ⟨k1, k2⟩ := hs.before h e1 e2
  obtain ⟨k3, k4, k5⟩ := k1.step hF ((h.restart e1).reduce e2) e3
  have hc : s2.ctx.search.conflicts = s.ctx.search.conflicts := by
    rw [(maybeReduce_next (h.restart e1) e2).1]; exact (maybeRestart_counts h e1).1
  refine ⟨k3, k4, fun hne => ?_⟩
  obtain ⟨a, b⟩ := k5 (by rw [hc]; exact hne)
  exact ⟨a, fun hr => b (k2 hr)⟩

theorem Solver.Tried.solve (hF : RefutationComplete F) {k : Nat} : ∀ {s : Solver}, s.Tried F →
    Solver.Reachable env F s → ∀ {b : Option Bool}, s.solve env k = .ok (s', b) → s'.Tried F ∧ b ≠ some false := by
  induction k with
  | zero =>
    intro s hs h b e
    cases e
    exact ⟨hs, by simp⟩
  | succ k ih =>
    intro s hs h b e
    unfold Solver.solve at e
    obtain ⟨⟨s1, b1⟩, e1, e2⟩ := bind_eq_ok.1 e
    obtain ⟨k1, k2, _⟩ := hs.schedule hF h e1
    cases b1 with
    | some b => cases e2; exact ⟨k1, k2⟩
    | none => exact ih k1 (h.schedule e1) e2

/-- The first iteration on an unsatisfiable formula. -/
theorem refutation_first (hF : RefutationComplete F) (h : Solver.Input env F s) (hu : FormulaUnsat F) {b : Option Bool}
    (e : s.scheduleStep env = .ok (s', b)) :
    b = some false ∧ s'.ctx.search.conflicts ≤ 1 ∧ s'.ctx.search.decisions = 0 := by
  obtain ⟨s1, s2, ctx, search, e1, e2, e3, rfl⟩ := Solver.scheduleStep_eq e
  have h0 : Solver.Reachable env F s := .input h
  have r1 := h0.restart e1
  have r2 := r1.reduce e2
  obtain ⟨c1, d1⟩ := maybeRestart_counts h0 e1
  obtain ⟨m1, _, m3, _⟩ := maybeReduce_next r1 e2
  have hl2 : s2.search.prop.trail.decisionLevel = 0 := by
    rw [m3]
    obtain ⟨L, S, hi⟩ := h0.inv
    obtain ⟨t, f1, _, hc⟩ := maybeRestart_spec hi
    cases e1.symm.trans f1
    rcases hc with ⟨_, rfl⟩ | ⟨_, h2, _⟩
    · unfold Trail.decisionLevel; rw [h.trail.level]
    · obtain ⟨ctx', t', f2, f3, _⟩ := C34_restart h0
      rw [h2] at f2
      simp only [Except.ok.injEq, Prod.mk.injEq] at f2
      rw [f2.2]; exact f3
  have hc0 : s2.ctx.search.conflicts = 0 := by rw [m1]; simp only; rw [c1, h.start.search]
  have hd0 : s2.ctx.search.decisions = 0 := by rw [m1]; simp only; rw [d1, h.start.search]
  cases searchStep_cases r2 e3 with
  | already hu => exact ⟨rfl, by simp only; omega, hd0⟩
  | fail hp h0 =>
    refine ⟨rfl, ?_, ?_⟩
    · simp only [Ctx.conflict, hp.search]; omega
    · simp only [Ctx.conflict, hp.search]; exact hd0
  | learn hp h0 ea =>
    obtain ⟨L, S, S2, hi, q⟩ := hp.phase
    exact absurd (q.level.trans hl2) h0
  | decide hp => obtain ⟨α, hα, _⟩ := hp.right hF; exact absurd hα (hu α)
  | sat hp => obtain ⟨α, hα, _⟩ := hp.right hF; exact absurd hα (hu α)

/-- C111: on a refutation complete formula `solve()` never has more conflicts than decisions while it is satisfiable.
If it is not, this is answered in the first iteration, with at most one conflict and without a decision. -/
theorem C111_search (hF : RefutationComplete F) (h : Solver.Input env F s) {k : Nat} {b : Option Bool}
    (e : s.solve env k = .ok (s', b)) :
    ((∃ α, FormulaSat α F) → s'.ctx.search.conflicts ≤ s'.ctx.search.decisions ∧ b ≠ some false) ∧
    (FormulaUnsat F → 0 < k → b = some false ∧ s'.ctx.search.conflicts ≤ 1 ∧ s'.ctx.search.decisions = 0) := by
  constructor
  · rintro ⟨α, hα⟩
    have hs : s.Tried F := .inl ⟨⟨α, hα, fun l hl => absurd hl (h.undecided l)⟩, by rw [h.start.search]⟩
    obtain ⟨k1, k2⟩ := hs.solve hF (.input h) e
    exact ⟨by rcases k1 with ⟨_, h⟩ | ⟨_, h⟩ <;> omega, k2⟩
  · intro hu hk
    cases k with
    | zero => omega
    | succ k =>
      unfold Solver.solve at e
      obtain ⟨⟨s1, b1⟩, e1, e2⟩ := bind_eq_ok.1 e
      obtain ⟨k1, k2, k3⟩ := refutation_first hF h hu e1
      subst k1
      cases e2
      exact ⟨rfl, k2, k3⟩

/-- C111: the steps of all loops until the answer for an unsatisfiable formula that is refutation complete. -/
theorem C111_time (hF : RefutationComplete F) (h : Solver.Input env F s) (hu : FormulaUnsat F) {k : Nat} (hk : 0 < k)
    {b : Option Bool} (e : s.solve env k = .ok (s', b)) :
    ∃ t, s.solveT env k = .ok (t, s', some false) ∧
      t.1 ≤ (3 * formulaVars F + 2) * ((146 + 4 * Nat.log 2 (formulaVars F)) * sizeEvery F 1) ∧
      t.2 ≤ 3 * sizeEvery F 1 := by
  obtain ⟨rfl, hc, _⟩ := (C111_search hF h e).2 hu hk
  obtain ⟨t, et⟩ := C83_counts e
  obtain ⟨h1, h2⟩ := C83_every h et
  have hb := sizeEvery_mono (F := F) hc
  refine ⟨t, et, h1.trans (Nat.mul_le_mul ?_ (Nat.mul_le_mul_left _ hb)),
    h2.trans (by simpa using Nat.mul_le_mul (Nat.mul_le_mul_left 3 hb) hc)⟩
  have := Nat.mul_le_mul_left (formulaVars F)
    (show s'.ctx.search.conflicts + s'.ctx.search.conflicts / 512 + 2 ≤ 3 by omega)
  omega

/-- C111: a wrong decision is found at once.  In every state of a run on a satisfiable refutation complete formula, the
decisions of all levels but the last are part of a model.  An iteration has a conflict only if the last decision is
wrong, and after it all decisions are part of a model again. -/
theorem C111_decisions (hF : RefutationComplete F) (h : Solver.Input env F s) (hα : FormulaSat α F) {k : Nat}
    (e : s.solve env k = .ok (s', none)) :
    (∃ β, FormulaSat β F ∧ ∀ st ∈ s'.search.prop.trail.steps, st.reason = .decision →
      st.level < s'.search.prop.trail.decisionLevel → LitSat β st.lit) ∧
    ∀ {s2 b}, s'.scheduleStep env = .ok (s2, b) → s2.ctx.search.conflicts ≠ s'.ctx.search.conflicts →
      (∃ β, FormulaSat β F ∧ ∀ l, s2.Decided l → LitSat β l) ∧ ¬ ∃ β, FormulaSat β F ∧ ∀ l, s'.Decided l → LitSat β l := by
  have hs : s.Tried F := .inl ⟨⟨α, hα, fun l hl => absurd hl (h.undecided l)⟩, by rw [h.start.search]⟩
  have k1 := (hs.solve hF (.input h) e).1
  refine ⟨?_, fun e2 hne => (k1.schedule hF ((Solver.Reachable.input h).solve e) e2).2.2 hne⟩
  rcases k1 with ⟨⟨β, h1, h2⟩, _⟩ | ⟨ha, _⟩
  · exact ⟨β, h1, fun st hst hd _ => h2 _ ⟨st, hst, hd, rfl⟩⟩
  · exact ha

end

namespace Example

/-- Every clause has at most one negative literal. -/
def dual : List (List Int) := [[1, 2, 3], [-1, 2, 3], [-2, 3, 4], [-3, 1, 4], [2, 4, 5], [-4, 2, 3], [-5, 1, 3]]

end Example

/-- The hypotheses of C111 are met by a formula that is Horn with all literals exchanged, so that the phases of the solver
are the wrong ones. -/
theorem C111_example : ∃ s s1 s2 s', RenamedHorn (fun _ => true) (Example.cnf Example.dual) ∧
    RefutationComplete (Example.cnf Example.dual) ∧ Solver.Input Example.env (Example.cnf Example.dual) s ∧
    s.solve Example.env 3 = .ok (s1, none) ∧ s1.ctx.search.conflicts = 0 ∧
    s1.scheduleStep Example.env = .ok (s2, none) ∧ s2.ctx.search.conflicts = 1 ∧
    s.solve Example.env 7 = .ok (s', some true) ∧ s'.ctx.search.decisions = 5 ∧ s'.ctx.search.conflicts = 1 := by
  have h : (do
      let s ← (Solver.default Example.env).addClauses (Example.cnf Example.dual)
      let (s1, r1) ← s.solve Example.env 3
      let (s2, r2) ← s1.scheduleStep Example.env
      let (s', r) ← s.solve Example.env 7
      pure ((s1.ctx.search.conflicts, s2.ctx.search.conflicts, s'.ctx.search.decisions, s'.ctx.search.conflicts),
        r1, r2, r) : M ((Nat × Nat × Nat × Nat) × Option Bool × Option Bool × Option Bool)) =
      .ok ((0, 1, 5, 1), none, none, some true) := by decide +kernel
  obtain ⟨s, h1, h2⟩ := bind_eq_ok.1 h
  obtain ⟨⟨s1, r1⟩, h3, h2⟩ := bind_eq_ok.1 h2
  obtain ⟨⟨s2, r2⟩, h4, h2⟩ := bind_eq_ok.1 h2
  obtain ⟨⟨s', r⟩, h5, h2⟩ := bind_eq_ok.1 h2
  have h2 := Except.ok.inj h2
  simp only [Prod.mk.injEq] at h2
  obtain ⟨⟨a1, a2, a3, a4⟩, rfl, rfl, rfl⟩ := h2
  have hin := Solver.Input.addClauses _ (.new (env := Example.env))
    (Example.ok_valid (F := Example.dual) (by decide +kernel)) h1
  have hd : RenamedHorn (fun _ => true) (Example.cnf Example.dual) := by decide +kernel
  exact ⟨s, s1, s2, s', hd, C111_horn hd, by simpa using hin, h3, a1, h4, a2, h5, a3, a4⟩

/-- An unsatisfiable formula that is renamed Horn, with clauses of two positive and of two negative literals. -/
theorem C111_unsat_example : ∃ s s', RenamedHorn (fun x => x == 0) (Example.cnf [[-1], [1, 2], [1, -2, 3], [-2, -3]]) ∧
    FormulaUnsat (Example.cnf [[-1], [1, 2], [1, -2, 3], [-2, -3]]) ∧
    Solver.Input Example.env (Example.cnf [[-1], [1, 2], [1, -2, 3], [-2, -3]]) s ∧
    s.solve Example.env 1 = .ok (s', some false) ∧ s'.ctx.search.conflicts = 1 := by
  have h : (do
      let s ← (Solver.default Example.env).addClauses (Example.cnf [[-1], [1, 2], [1, -2, 3], [-2, -3]])
      let (s', r) ← s.solve Example.env 1
      pure (s'.ctx.search.conflicts, r) : M (Nat × Option Bool)) = .ok (1, some false) := by decide +kernel
  obtain ⟨s, h1, h2⟩ := bind_eq_ok.1 h
  obtain ⟨⟨s', r⟩, h3, h2⟩ := bind_eq_ok.1 h2
  have h2 := Except.ok.inj h2
  simp only [Prod.mk.injEq] at h2
  obtain ⟨a1, rfl⟩ := h2
  have hin := Solver.Input.addClauses _ (.new (env := Example.env))
    (Example.ok_valid (F := [[-1], [1, 2], [1, -2, 3], [-2, -3]]) (by decide +kernel)) h1
  have hin : Solver.Input Example.env (Example.cnf [[-1], [1, 2], [1, -2, 3], [-2, -3]]) s := by simpa using hin
  exact ⟨s, s', by decide +kernel, C01_unsat_correct (.input hin) h3, hin, h3, a1⟩

end Starlit
