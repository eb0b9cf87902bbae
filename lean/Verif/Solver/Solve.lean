import Verif.Solver.Init

/-!
# Whole runs of the solver
-/

namespace Starlit

namespace Solver

/-- The solver states before the first `solve()`: a fresh solver to which the clauses were added,
with or without a proof writer attached at some point.  Literals are those that exist in the code
(`Lit.Valid`). -/
inductive Input (env : Env) : List (List Lit) → Solver → Prop
  | new : Input env [] (Solver.default env)
  | proof {F : List (List Lit)} {s : Solver} : Input env F s → Input env F s.writeProof
  | add {F : List (List Lit)} {s s' : Solver} {c : List Lit} : Input env F s → (∀ l ∈ c, l.Valid) →
      s.addClause c = .ok s' → Input env (F ++ [c]) s'

/-- The solver states between the parts of the iterations of `solve()`, possibly called repeatedly,
after the clauses of `F` were added. -/
inductive Reachable (env : Env) (F : List (List Lit)) : Solver → Prop
  | input {s : Solver} : Input env F s → Reachable env F s
  | restart {s s' : Solver} : Reachable env F s → s.maybeRestart = .ok s' → Reachable env F s'
  | reduce {s s' : Solver} : Reachable env F s → s.maybeReduce env = .ok s' → Reachable env F s'
  | step {s : Solver} {ctx : Ctx} {search : Search} {r : Option Bool} : Reachable env F s →
      searchStep env s.ctx s.search = .ok (ctx, search, r) →
      Reachable env F { s with ctx := ctx, search := search }

/-- All calls of `add_clause` succeeded. -/
theorem Input.addClauses {env : Env} : ∀ (cs : List (List Lit)) {F : List (List Lit)} {s s' : Solver},
    Input env F s → (∀ c ∈ cs, ∀ l ∈ c, l.Valid) → s.addClauses cs = .ok s' → Input env (F ++ cs) s'
  | [], F, s, s', h, _, e => by
    simp only [Solver.addClauses, pure_eq, Except.ok.injEq] at e
    subst e; simpa using h
  | c :: cs, F, s, s', h, hc, e => by
    simp only [Solver.addClauses] at e
    obtain ⟨s1, e1, e2⟩ := bind_eq_ok.1 e
    have := Input.addClauses cs (h.add (hc c (by simp)) e1) (fun c hx => hc c (by simp [hx])) e2
    simpa using this

theorem scheduleStep_eq {env : Env} {s s' : Solver} {r : Option Bool}
    (h : s.scheduleStep env = .ok (s', r)) : ∃ s1 s2 ctx search, s.maybeRestart = .ok s1 ∧
      s1.maybeReduce env = .ok s2 ∧ searchStep env s2.ctx s2.search = .ok (ctx, search, r) ∧
      s' = { s2 with ctx := ctx, search := search } := by
  unfold Solver.scheduleStep at h
  obtain ⟨s1, e1, h⟩ := bind_eq_ok.1 h
  obtain ⟨s2, e2, h⟩ := bind_eq_ok.1 h
  obtain ⟨⟨ctx, search, r'⟩, e3, h⟩ := bind_eq_ok.1 h
  simp only [pure_eq, Except.ok.injEq, Prod.mk.injEq] at h
  obtain ⟨rfl, rfl⟩ := h
  exact ⟨s1, s2, ctx, search, e1, e2, e3, rfl⟩

theorem Reachable.schedule {env : Env} {F : List (List Lit)} {s s' : Solver} {r : Option Bool}
    (h : Reachable env F s) (e : s.scheduleStep env = .ok (s', r)) : Reachable env F s' := by
  obtain ⟨s1, s2, ctx, search, e1, e2, e3, rfl⟩ := scheduleStep_eq e
  exact ((h.restart e1).reduce e2).step e3

theorem Reachable.solve {env : Env} {F : List (List Lit)} : ∀ {k : Nat} {s s' : Solver}
    {r : Option Bool}, Reachable env F s → Solver.solve env k s = .ok (s', r) → Reachable env F s'
  | 0, s, s', r, h, e => by
    simp only [Solver.solve, pure_eq, Except.ok.injEq, Prod.mk.injEq] at e
    obtain ⟨rfl, _⟩ := e; exact h
  | k + 1, s, s', r, h, e => by
    simp only [Solver.solve] at e
    obtain ⟨⟨s1, r1⟩, e1, e⟩ := bind_eq_ok.1 e
    cases r1 with
    | some b =>
      simp only [pure_eq, Except.ok.injEq, Prod.mk.injEq] at e
      obtain ⟨rfl, _⟩ := e; exact h.schedule e1
    | none => exact Reachable.solve (h.schedule e1) e

/-- The last step of a run that has answered. -/
theorem solve_last {env : Env} {F : List (List Lit)} : ∀ {k : Nat} {s s' : Solver}
    {b : Bool}, Reachable env F s → Solver.solve env k s = .ok (s', some b) →
      ∃ s2 ctx search, Reachable env F s2 ∧ searchStep env s2.ctx s2.search = .ok (ctx, search, some b) ∧
        s' = { s2 with ctx := ctx, search := search }
  | 0, s, s', b, h, e => by
    simp only [Solver.solve, pure_eq, Except.ok.injEq, Prod.mk.injEq] at e
    simp at e
  | k + 1, s, s', b, h, e => by
    simp only [Solver.solve] at e
    obtain ⟨⟨s1, r1⟩, e1, e⟩ := bind_eq_ok.1 e
    cases r1 with
    | some b1 =>
      simp only [pure_eq, Except.ok.injEq, Prod.mk.injEq, Option.some.injEq] at e
      obtain ⟨rfl, rfl⟩ := e
      obtain ⟨s3, s2, ctx, search, e4, e2, e3, rfl⟩ := scheduleStep_eq e1
      exact ⟨s2, ctx, search, (h.restart e4).reduce e2, e3, rfl⟩
    | none => exact solve_last (h.schedule e1) e

end Solver

section
variable {env : Env} {n : Nat} {F : DB} {s s' : Solver}

/-- The invariant of a solver during `solve()`. -/
def SolverInv (env : Env) (n : Nat) (F : DB) (s : Solver) : Prop :=
  ∃ L S, SInv env n F L S s.ctx s.search

theorem maybeRestart_spec {L : DB} {S : List LC} (h : SInv env n F L S s.ctx s.search) :
    ∃ s', s.maybeRestart = .ok s' ∧ SInv env n F L S s'.ctx s'.search ∧
      ((s.ctx.search.conflicts < s.schedule.nextRestart ∧ s' = s) ∨
       (s.schedule.nextRestart ≤ s.ctx.search.conflicts ∧
        restart s.ctx s.search = .ok (s'.ctx, s'.search) ∧
        s'.schedule = { s.schedule with
          nextRestart := s.ctx.search.conflicts + s.schedule.luby.advance.1 * 512
          luby := s.schedule.luby.advance.2 })) := by
  unfold Solver.maybeRestart
  by_cases hc : s.ctx.search.conflicts ≥ s.schedule.nextRestart
  · rw [if_pos hc]
    obtain ⟨ctx', s', e, h', _⟩ := restart_spec h
    simp only
    rw [e, bind_ok]
    exact ⟨_, rfl, h', .inr ⟨hc, rfl, rfl⟩⟩
  · rw [if_neg hc]
    exact ⟨s, rfl, h, .inl ⟨by omega, rfl⟩⟩

theorem maybeReduce_spec {L : DB} {S : List LC} (h : SInv env n F L S s.ctx s.search) :
    ∃ s', s.maybeReduce env = .ok s' ∧ (∃ L' S', SInv env n F L' S' s'.ctx s'.search) ∧
      ((s.ctx.search.conflicts < s.schedule.nextReduce ∧ s' = s) ∨
       (s.schedule.nextReduce ≤ s.ctx.search.conflicts ∧
        reduce env s.ctx s.search = .ok (s'.ctx, s'.search) ∧
        s'.schedule = { s.schedule with
          reductions := s.schedule.reductions + 1
          nextReduce := s.schedule.nextReduce + env.reduceInterval (s.schedule.reductions + 1) })) := by
  unfold Solver.maybeReduce
  by_cases hc : s.ctx.search.conflicts ≥ s.schedule.nextReduce
  · rw [if_pos hc]
    obtain ⟨ctx', s', L', D, S', e, h', _⟩ := reduce_inv h
    simp only
    rw [e, bind_ok]
    exact ⟨_, rfl, ⟨L', S', h'⟩, .inr ⟨hc, rfl, rfl⟩⟩
  · rw [if_neg hc]
    exact ⟨s, rfl, ⟨L, S, h⟩, .inl ⟨by omega, rfl⟩⟩

theorem scheduleStep_spec (h : SolverInv env n F s) :
    Wp (s.scheduleStep env) (fun (s', _) => SolverInv env n F s') := by
  obtain ⟨L, S, h⟩ := h
  unfold Solver.scheduleStep
  obtain ⟨s1, e1, h1, _⟩ := maybeRestart_spec h
  obtain ⟨s2, e2, ⟨L2, S2, h2⟩, _⟩ := maybeReduce_spec h1
  rw [e1, bind_ok, e2, bind_ok, wp_bind]
  refine (searchStep_spec h2).mono ?_
  rintro ⟨ctx', s', r⟩ ⟨L', S', h', _⟩
  simp only [wp_pure]
  exact ⟨L', S', h'⟩

theorem solve_spec : ∀ (k : Nat) {s : Solver}, SolverInv env n F s →
    Wp (s.solve env k) (fun (s', _) => SolverInv env n F s')
  | 0, s, h => by simpa [Solver.solve] using h
  | k + 1, s, h => by
    simp only [Solver.solve, wp_bind]
    refine (scheduleStep_spec h).mono ?_
    rintro ⟨s', r⟩ h'
    cases r with
    | some b => simpa using h'
    | none => exact solve_spec k h'

theorem Solver.Input.inv {cs : List (List Lit)} (h : Solver.Input env cs s) :
    ∃ S, InputInv env (formulaVars cs) (toDB cs) S s := by
  induction h with
  | new => exact ⟨[], default_spec env⟩
  | proof _ ih => obtain ⟨S, h⟩ := ih; exact ⟨S, writeProof_spec h⟩
  | @add F s s' c _ hc e ih =>
    obtain ⟨S, h⟩ := ih
    obtain ⟨S', h', _⟩ := (addClause_spec h hc).ok_elim e
    refine ⟨S', ?_⟩
    have e1 : formulaVars (F ++ [c]) = max (formulaVars F) (Solver.varCount c) := by
      simp [formulaVars]
    have e2 : toDB (F ++ [c]) = (c : Multiset Lit) ::ₘ toDB F := by
      unfold toDB
      rw [List.map_append, List.map_singleton]
      exact Multiset.coe_eq_coe.2 List.perm_append_comm
    rw [e1, e2]; exact h'

theorem Solver.Reachable.inv {cs : List (List Lit)} (h : Solver.Reachable env cs s) :
    SolverInv env (formulaVars cs) (toDB cs) s := by
  induction h with
  | input h => obtain ⟨S, h⟩ := h.inv; exact ⟨0, S, h.sinv⟩
  | restart _ e ih =>
    obtain ⟨L, S, h⟩ := ih
    obtain ⟨s1, e1, h1, _⟩ := maybeRestart_spec h
    cases e.symm.trans e1; exact ⟨L, S, h1⟩
  | reduce _ e ih =>
    obtain ⟨L, S, h⟩ := ih
    obtain ⟨s1, e1, h1, _⟩ := maybeReduce_spec h
    cases e.symm.trans e1; exact h1
  | step _ e ih =>
    obtain ⟨L, S, h⟩ := ih
    obtain ⟨L', S', h', _⟩ := (searchStep_spec h).ok_elim e
    exact ⟨L', S', h'⟩

/-- All clauses are satisfied when all variables are assigned and propagated. -/
theorem SInv.model {L : DB} {S : List LC} {ctx : Ctx} {s : Search} (h : SInv env n F L S ctx s)
    (hu : s.prop.unsat = false) (hall : ∀ l : Lit, l.index < n → s.prop.values.val l ≠ none)
    (hd : s.prop.trail.propagated = s.prop.trail.steps.length) {c : Multiset Lit} (hc : c ∈ F) :
    ∃ l ∈ c, l.index < n ∧ s.prop.values.val l = some true := by
  have hp := h.prop
  have hfalse : ∀ l : Lit, l.index < n → s.prop.values.val l ≠ some true →
      ∃ (i : Nat) (x : Step), i < s.prop.trail.propagated ∧ s.prop.trail.steps[i]? = some x ∧
        x.lit = l.neg := by
    intro l hl hv
    have : s.prop.values.val l = some false := by
      cases hx : s.prop.values.val l with
      | none => exact absurd hx (hall l hl)
      | some b => cases b with
        | true => exact absurd hx hv
        | false => rfl
    obtain ⟨x, hx, e⟩ := (hp.trail.val_false_iff l).1 this
    obtain ⟨i, hi⟩ := List.mem_iff_getElem?.1 hx
    exact ⟨i, x, by rw [hd]; exact (List.getElem?_eq_some_iff.1 hi).1, hi, e⟩
  have htrue : ∀ x ∈ s.prop.trail.steps, x.lit.index < n ∧ s.prop.values.val x.lit = some true :=
    fun x hx => ⟨hp.trail.idx_lt x hx, (hp.trail.val_iff _).2 ⟨x, hx, rfl⟩⟩
  rcases Nat.lt_or_ge c.card 3 with h3 | h3
  · have hcases : c.card = 0 ∨ c.card = 1 ∨ c.card = 2 := by omega
    rcases hcases with h0 | h1 | h2
    · rw [Multiset.card_eq_zero] at h0
      subst h0
      have := h.db.fempty hc
      rw [hu] at this; simp at this
    · obtain ⟨a, rfl⟩ := Multiset.card_eq_one.1 h1
      rcases h.db.funit a hc with e | ⟨x, hx, rfl, _⟩
      · rw [hu] at e; simp at e
      · exact ⟨x.lit, by simp, htrue x hx⟩
    · obtain ⟨a, b, rfl⟩ := Multiset.card_eq_two.1 h2
      obtain ⟨bs, e1, e2⟩ := h.db.fbin a b hc
      have ha : a.index < n := by
        have := (List.getElem?_eq_some_iff.1 e1).1
        rw [hp.sized.bin] at this
        exact Lit.index_lt_of_code_lt this
      by_cases hv : s.prop.values.val a = some true
      · exact ⟨a, by simp, ha, hv⟩
      · obtain ⟨i, x, hi, hx, e⟩ := hfalse a ha hv
        obtain ⟨t, ht, rfl, _⟩ := hp.bsat a bs e1 b e2 i x hi hx e
        exact ⟨t.lit, by simp, htrue t ht⟩
  · obtain ⟨e, he, hl, rfl⟩ := h.db.stored hc h3
    have hlen := (hp.long.len e he hl).1
    have hmem : ∃ w, w ∈ e.lits.take 2 := by
      match e.lits, hlen with
      | a :: b :: c :: r, _ => exact ⟨a, by simp⟩
    obtain ⟨w, hw⟩ := hmem
    have hwn := hp.long.idx e he w (List.mem_of_mem_take hw)
    by_cases hv : s.prop.values.val w = some true
    · exact ⟨w, by simpa [LC.cl] using List.mem_of_mem_take hw, hwn, hv⟩
    · obtain ⟨i, x, hi, hx, ex⟩ := hfalse w hwn hv
      obtain ⟨t, ht, htl, _⟩ := hp.wsat e he hl w hw i x hi hx ex
      exact ⟨t.lit, by simpa [LC.cl] using htl, htrue t ht⟩

/-- A step that answers "satisfiable". -/
theorem StepPost.sat_model {L L' : DB} {S S' : List LC} {ctx ctx' : Ctx} {s s' : Search}
    (h' : SInv env n F L' S' ctx' s')
    (q : StepPost env n F L S ctx s L' S' ctx' s' (some true)) :
    s'.prop.unsat = false ∧ (∀ l : Lit, l.index < n → s'.prop.values.val l ≠ none) ∧
      ∀ c ∈ F, ∃ l ∈ c, l.index < n ∧ s'.prop.values.val l = some true := by
  generalize hr : some true = r at q
  cases q with
  | already => simp at hr
  | fail => simp at hr
  | learn => simp at hr
  | decide => simp at hr
  | sat hu q all _ _ _ =>
    have hu' := q.unsat.trans hu
    exact ⟨hu', all, fun c hc => h'.model hu' all (q.done rfl) hc⟩

/-- A step that answers "unsatisfiable". -/
theorem StepPost.unsat {L L' : DB} {S S' : List LC} {ctx ctx' : Ctx} {s s' : Search}
    (q : StepPost env n F L S ctx s L' S' ctx' s' (some false)) : s'.prop.unsat = true := by
  generalize hr : some false = r at q
  cases q with
  | already h => exact h
  | fail => rfl
  | learn => simp at hr
  | decide => simp at hr
  | sat => simp at hr

end

end Starlit
