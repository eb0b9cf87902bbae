import Verif.Solver.Incremental
import Verif.Props.Solver

/-!
# C40: which clauses can be added between calls of `solve()`
-/

namespace Starlit

/-- The solver states of incremental use in which every clause is added in a state where it does no harm
(`SafeAdd`). -/
inductive Solver.Incr (env : Env) : List (List Lit) → Solver → Prop
  | input {F : List (List Lit)} {s : Solver} : Solver.Input env F s → Incr env F s
  | add {F : List (List Lit)} {s s' : Solver} {c : List Lit} : Incr env F s → (∀ l ∈ c, l.Valid) →
      SafeAdd s.search.prop c → s.addClause c = .ok s' → Incr env (F ++ [c]) s'
  | solve {F : List (List Lit)} {s s' : Solver} {k : Nat} {r : Option Bool} : Incr env F s →
      s.solve env k = .ok (s', r) → Incr env F s'

section
variable {env : Env} {F : List (List Lit)} {s s' : Solver} {c : List Lit}

theorem Solver.Incr.inv (h : Solver.Incr env F s) : SolverInv env (formulaVars F) (toDB F) s := by
  induction h with
  | input h => obtain ⟨S, h⟩ := h.inv; exact ⟨0, S, h.sinv⟩
  | @add F s s' c _ hc hs e ih =>
    obtain ⟨L, S, hi⟩ := ih
    obtain ⟨S', h', _⟩ := (hi.addClause hc hs).ok_elim e
    have e1 : formulaVars (F ++ [c]) = max (formulaVars F) (Solver.varCount c) := by
      simp [formulaVars]
    have e2 : toDB (F ++ [c]) = (c : Multiset Lit) ::ₘ toDB F := by
      unfold toDB
      rw [List.map_append, List.map_singleton]
      exact Multiset.coe_eq_coe.2 List.perm_append_comm
    rw [e1, e2]; exact ⟨L, S', h'⟩
  | @solve F s s' k r _ e ih => exact (solve_spec k ih).ok_elim e

/-- Before the first `solve()` every clause can be added. -/
theorem C40_safe_input (h : Solver.Input env F s) (c : List Lit) : SafeAdd s.search.prop c := by
  obtain ⟨S, hi⟩ := h.inv
  match c with
  | [] => trivial
  | [a] => simp [SafeAdd, Trail.decisionLevel, hi.decisions]
  | a :: b :: c =>
    intro i st h1
    rw [hi.propagated] at h1
    omega

/-- A clause with two or more literals can be added in any state in which `value()` does not return `false`
for one of its first two literals. -/
theorem C40_safe_value (h : Solver.Incr env F s) {a b : Lit} {rest : List Lit}
    (ha : s.value a ≠ .ok (some false)) (hb : s.value b ≠ .ok (some false)) :
    SafeAdd s.search.prop (a :: b :: rest) := by
  obtain ⟨L, S, hi⟩ := h.inv
  intro i st h1 h2 w hw e
  exfalso
  have hm : st ∈ s.search.prop.trail.steps := List.mem_iff_getElem?.2 ⟨i, h2⟩
  have hv := (hi.prop.trail.val_false_iff w).2 ⟨st, hm, e⟩
  have hw' : s.value w = .ok (some false) := by
    have hn := hi.prop.trail.idx_lt st hm
    rw [e, Lit.index_neg] at hn
    unfold Solver.value
    rw [if_pos (by rw [hi.stats.vars]; exact hn),
      PartialAssignment.value_eq (by rw [hi.prop.sized.values]; exact hn), hv]
  simp at hw
  rcases hw with rfl | rfl
  · exact ha hw'
  · exact hb hw'

/-- C40 for clauses added in a state where they do no harm (Missing: other clauses, for which it is wrong,
see `C40_false` and `C40_false_sat`): answers are correct, `true` comes with a model, and nothing panics. -/
theorem C40_incremental_partial (h : Solver.Incr env F s) :
    (∀ {k : Nat} {s' : Solver}, s.solve env k = .ok (s', some false) → FormulaUnsat F) ∧
    (∀ {k : Nat} {s' : Solver}, s.solve env k = .ok (s', some true) → ∃ α : Nat → Bool, FormulaSat α F ∧
      ∀ c ∈ F, ∀ l ∈ c, s'.value l = .ok (some (α l.index == l.isPositive))) ∧
    (∀ (k : Nat) (err : Err), s.solve env k = .error err → err = .arenaFull ∨ err = .tooBig) ∧
    (∀ (c : List Lit) (err : Err), (∀ l ∈ c, l.Valid) → SafeAdd s.search.prop c →
      s.addClause c = .error err → err = .arenaFull ∨ err = .tooBig) := by
  refine ⟨?_, ?_, ?_, ?_⟩
  · intro k s' e
    obtain ⟨s2, ctx, search, ⟨L, S, h2⟩, e2, rfl⟩ := solve_last_inv h.inv e
    obtain ⟨L', S', h', q⟩ := (searchStep_spec h2).ok_elim e2
    obtain ⟨log, _, _, hr⟩ := h'.proof
    obtain ⟨log0, L0, _, a, c⟩ := hr q.unsat
    exact a.unsat c
  · intro k s' e
    obtain ⟨s2, ctx, search, ⟨L, S, h2⟩, e2, rfl⟩ := solve_last_inv h.inv e
    obtain ⟨α, h3, h4, _⟩ := searchStep_sat (sch := s2.schedule) h2 e2
    exact ⟨α, h3, fun c hc l hl => h4 l ⟨c, hc, l, hl, Nat.le_refl _⟩⟩
  · intro k err e
    have := solve_spec k h.inv
    rw [e] at this
    cases err <;> simp [Wp] at this ⊢
  · intro c err hc hs e
    obtain ⟨L, S, hi⟩ := h.inv
    have := hi.addClause hc hs
    rw [e] at this
    cases err <;> simp [Wp] at this ⊢

/-! ## Histories of calls -/

theorem addClause_unsat (hu : s.search.prop.unsat = true) (e : s.addClause c = .ok s') :
    s'.search.prop.unsat = true := by
  unfold Solver.addClause at e
  obtain ⟨s1, e1, e⟩ := bind_eq_ok.1 e
  obtain ⟨⟨ctx, p, r⟩, e2, e⟩ := bind_eq_ok.1 e
  cases e
  have hu1 : s1.search.prop.unsat = true := by
    unfold Solver.ensureVars at e1
    split at e1
    · unfold Solver.resize at e1
      obtain ⟨_, _, e1⟩ := bind_eq_ok.1 e1
      cases e1
      exact hu
    · cases e1; exact hu
  match c with
  | [] => cases e2; rfl
  | [a] =>
    simp only [addClauseVerbatim] at e2
    obtain ⟨b, _, e2⟩ := bind_eq_ok.1 e2
    cases b with
    | true => cases e2; rfl
    | false =>
      simp only [Bool.false_eq_true, if_false] at e2
      obtain ⟨p1, e3, e2⟩ := bind_eq_ok.1 e2
      cases e2
      unfold PropState.assignUnit at e3
      split at e3
      · obtain ⟨_, _, e3⟩ := bind_eq_ok.1 e3
        obtain ⟨_, _, e3⟩ := bind_eq_ok.1 e3
        cases e3
        exact hu1
      · cases e3
  | [a, b] =>
    simp only [addClauseVerbatim] at e2
    obtain ⟨_, _, e2⟩ := bind_eq_ok.1 e2
    cases e2; exact hu1
  | a :: b :: c :: ls =>
    simp only [addClauseVerbatim] at e2
    obtain ⟨x, _, e2⟩ := bind_eq_ok.1 e2
    match x with
    | none => cases e2
    | some (long, r) =>
      simp only at e2
      obtain ⟨_, _, e2⟩ := bind_eq_ok.1 e2
      cases e2
      exact hu1

theorem solve_unsat : ∀ {k : Nat} {s s' : Solver} {r : Option Bool}, s.search.prop.unsat = true →
    s.solve env k = .ok (s', r) → s'.search.prop.unsat = true ∧ r ≠ some true
  | 0, s, s', r, hu, e => by cases e; exact ⟨hu, by simp⟩
  | k + 1, s, s', r, hu, e => by
    simp only [Solver.solve] at e
    obtain ⟨⟨s1, r1⟩, e1, e⟩ := bind_eq_ok.1 e
    obtain ⟨s3, s2, ctx, search, e4, e2, e3, rfl⟩ := Solver.scheduleStep_eq e1
    have h3 : s3.search.prop.unsat = true := by
      unfold Solver.maybeRestart at e4
      split at e4
      · obtain ⟨⟨ctx3, search3⟩, e5, e4⟩ := bind_eq_ok.1 e4
        cases e4
        unfold restart at e5
        simp only at e5
        split at e5
        · obtain ⟨⟨p, cb⟩, e6, e5⟩ := bind_eq_ok.1 e5
          cases e5
          unfold backtrackToLevel at e6
          obtain ⟨_, _, e6⟩ := bind_eq_ok.1 e6
          obtain ⟨_, _, e6⟩ := bind_eq_ok.1 e6
          obtain ⟨_, _, e6⟩ := bind_eq_ok.1 e6
          obtain ⟨⟨_, _⟩, _, e6⟩ := bind_eq_ok.1 e6
          cases e6
          exact hu
        · cases e5; exact hu
      · cases e4; exact hu
    have h2 : s2.search.prop.unsat = true := by
      unfold Solver.maybeReduce at e2
      split at e2
      · obtain ⟨⟨ctx3, search3⟩, e5, e2⟩ := bind_eq_ok.1 e2
        cases e2
        simp only
        unfold reduce at e5
        simp only at e5
        obtain ⟨_, _, e5⟩ := bind_eq_ok.1 e5
        obtain ⟨⟨_, _⟩, _, e5⟩ := bind_eq_ok.1 e5
        obtain ⟨⟨_, _⟩, _, e5⟩ := bind_eq_ok.1 e5
        obtain ⟨_, _, e5⟩ := bind_eq_ok.1 e5
        cases e5
        exact h3
      · cases e2; exact h3
    unfold searchStep at e3
    rw [if_pos h2] at e3
    cases e3
    cases e
    exact ⟨h2, by simp⟩

theorem Solver.Incr.unsat (h : Solver.Incr env F s) (hu : s.search.prop.unsat = true) : FormulaUnsat F := by
  obtain ⟨L, S, hi⟩ := h.inv
  obtain ⟨log, _, _, hr⟩ := hi.proof
  obtain ⟨log0, L0, _, a, c⟩ := hr hu
  exact a.unsat c

theorem Call.run_append : ∀ (xs ys : List Call) (s : Solver) (r : Option Bool),
    Call.run env (xs ++ ys) s r = (Call.run env xs s r >>= fun x => Call.run env ys x.1 x.2)
  | [], ys, s, r => rfl
  | .add c :: xs, ys, s, r => by
    simp only [List.cons_append, Call.run]
    cases s.addClause c with
    | error e => rfl
    | ok s1 => exact Call.run_append xs ys s1 none
  | .solve k :: xs, ys, s, r => by
    simp only [List.cons_append, Call.run]
    cases s.solve env k with
    | error e => rfl
    | ok x => exact Call.run_append xs ys x.1 x.2

theorem Call.clauses_append : ∀ xs ys : List Call,
    Call.clauses (xs ++ ys) = Call.clauses xs ++ Call.clauses ys
  | [], ys => rfl
  | .add c :: xs, ys => by simp [Call.clauses, Call.clauses_append xs ys]
  | .solve k :: xs, ys => by simp [Call.clauses, Call.clauses_append xs ys]

/-- Every clause of the history is added in a state where it does no harm, or after the solver found the
clauses unsatisfiable. -/
def Call.Safe (env : Env) (cs : List Call) : Prop := ∀ xs c ys s r, cs = xs ++ .add c :: ys →
  Call.run env xs (Solver.default env) none = .ok (s, r) →
  SafeAdd s.search.prop c ∨ s.search.prop.unsat = true

theorem Call.run_safe (env : Env) (cs : List Call) (hc : ∀ c ∈ Call.clauses cs, ∀ l ∈ c, l.Valid)
    (hs : Call.Safe env cs) : ∀ (ys xs : List Call), xs ++ ys = cs → ∀ (zs : List Call), xs.reverse = zs →
    ∀ s r, Call.run env xs (Solver.default env) none = .ok (s, r) →
    (Solver.Incr env (Call.clauses xs) s ∨ s.search.prop.unsat = true ∧ FormulaUnsat (Call.clauses xs)) ∧
    ∀ b, r = some b → (b = true ↔ ∃ α, FormulaSat α (Call.clauses xs)) := by
  intro ys xs hx zs
  induction zs generalizing xs ys with
  | nil =>
    intro hz s r e
    rw [List.reverse_eq_nil_iff] at hz
    subst hz
    cases e
    exact ⟨.inl (.input .new), by simp⟩
  | cons z zs ih =>
    intro hz s r e
    have hx2 : xs = zs.reverse ++ [z] := by
      rw [← List.reverse_reverse xs, hz, List.reverse_cons]
    subst hx2
    rw [Call.run_append] at e
    obtain ⟨⟨s1, r1⟩, e1, e⟩ := bind_eq_ok.1 e
    obtain ⟨h1, -⟩ := ih (z :: ys) zs.reverse (by simpa using hx) (List.reverse_reverse zs) s1 r1 e1
    rw [Call.clauses_append]
    cases z with
    | add c =>
      simp only [Call.run] at e
      obtain ⟨s2, e2, e⟩ := bind_eq_ok.1 e
      cases e
      refine ⟨?_, by simp⟩
      have hcv : ∀ l ∈ c, l.Valid := hc c (by rw [← hx, Call.clauses_append, Call.clauses_append]; simp [Call.clauses])
      have hmono : FormulaUnsat (Call.clauses zs.reverse) →
          FormulaUnsat (Call.clauses zs.reverse ++ [c]) := fun hu α hα =>
        hu α (fun d hd => hα d (List.mem_append_left _ hd))
      rcases h1 with h1 | ⟨h1, h1'⟩
      · rcases hs zs.reverse c ys s1 r1 (by simpa using hx.symm) e1 with h2 | h2
        · exact .inl (h1.add hcv h2 e2)
        · exact .inr ⟨addClause_unsat h2 e2, hmono (h1.unsat h2)⟩
      · exact .inr ⟨addClause_unsat h1 e2, hmono h1'⟩
    | solve k =>
      simp only [Call.run] at e
      obtain ⟨⟨s2, r2⟩, e2, e⟩ := bind_eq_ok.1 e
      cases e
      simp only [Call.clauses, List.append_nil]
      rcases h1 with h1 | ⟨h1, h1'⟩
      · refine ⟨.inl (h1.solve e2), ?_⟩
        rintro b rfl
        obtain ⟨q1, q2, -, -⟩ := C40_incremental_partial h1
        cases b with
        | true => obtain ⟨α, hα, _⟩ := q2 e2; exact ⟨fun _ => ⟨α, hα⟩, fun _ => rfl⟩
        | false => exact ⟨by simp, fun ⟨α, hα⟩ => absurd hα (q1 e2 α)⟩
      · obtain ⟨h3, h4⟩ := solve_unsat h1 e2
        refine ⟨.inr ⟨h3, h1'⟩, ?_⟩
        rintro b rfl
        cases b with
        | true => exact absurd rfl h4
        | false => exact ⟨by simp, fun ⟨α, hα⟩ => absurd hα (h1' α)⟩

/-- C40 for histories of calls in which every clause is added in a state where it does no harm or after the
solver found the clauses unsatisfiable: the answer of the last call is correct. (Missing: other histories,
see `C40_false`.) -/
theorem C40_history_partial (env : Env) (cs : List Call) (s : Solver) (b : Bool)
    (hc : ∀ c ∈ Call.clauses cs, ∀ l ∈ c, l.Valid) (hs : Call.Safe env cs)
    (h : Call.run env cs (Solver.default env) none = .ok (s, some b)) :
    b = true ↔ ∃ α, FormulaSat α (Call.clauses cs) :=
  (Call.run_safe env cs hc hs [] cs (List.append_nil _) _ rfl s _ h).2 b rfl

/-- Compute `SafeAdd`. -/
def safeAddB (p : PropState) : List Lit → Bool
  | [] => true
  | [_] => p.trail.decisionLevel == 0
  | c => (p.trail.steps.take p.trail.propagated).all fun st => (c.take 2).all fun w =>
      !(st.lit == w.neg) || p.trail.steps.any fun t => c.contains t.lit && decide (t.level ≤ st.level)

theorem safeAddB_spec {p : PropState} : ∀ {c : List Lit}, safeAddB p c = true → SafeAdd p c
  | [], _ => trivial
  | [_], h => by simpa [safeAddB, SafeAdd] using h
  | a :: b :: c, h => by
    intro i st hi hst w hw e
    simp only [safeAddB, List.all_eq_true] at h
    have hm : st ∈ p.trail.steps.take p.trail.propagated :=
      List.mem_iff_getElem?.2 ⟨i, by rw [List.getElem?_take_of_lt hi]; exact hst⟩
    have := h st hm w hw
    simp only [e, beq_self_eq_true, Bool.not_true, Bool.false_or, List.any_eq_true, Bool.and_eq_true,
      List.contains_iff_mem, decide_eq_true_eq] at this
    exact this

/-- Compute a sufficient condition for `Call.Safe`. -/
def Call.safeB (env : Env) : List Call → Solver → Bool
  | [], _ => true
  | .add c :: cs, s => (safeAddB s.search.prop c || s.search.prop.unsat) &&
      match s.addClause c with
      | .ok s => Call.safeB env cs s
      | .error _ => true
  | .solve k :: cs, s =>
      match s.solve env k with
      | .ok (s, _) => Call.safeB env cs s
      | .error _ => true

theorem Call.safeB_spec : ∀ (cs : List Call) (s0 : Solver) (r0 : Option Bool), Call.safeB env cs s0 = true →
    ∀ xs c ys s r, cs = xs ++ .add c :: ys → Call.run env xs s0 r0 = .ok (s, r) →
    SafeAdd s.search.prop c ∨ s.search.prop.unsat = true := by
  intro cs
  induction cs with
  | nil => intro s0 r0 _ xs c ys s r e; simp at e
  | cons z zs ih =>
    intro s0 r0 h xs c ys s r e hr
    cases xs with
    | nil =>
      cases hr
      cases e
      simp only [Call.safeB, Bool.and_eq_true, Bool.or_eq_true] at h
      exact h.1.imp safeAddB_spec id
    | cons x xs =>
      simp only [List.cons_append, List.cons.injEq] at e
      obtain ⟨rfl, rfl⟩ := e
      cases z with
      | add d =>
        simp only [Call.run] at hr
        obtain ⟨s2, e2, hr⟩ := bind_eq_ok.1 hr
        simp only [Call.safeB, e2, Bool.and_eq_true] at h
        exact ih s2 none h.2 xs c ys s r rfl hr
      | solve k =>
        simp only [Call.run] at hr
        obtain ⟨⟨s2, r2⟩, e2, hr⟩ := bind_eq_ok.1 hr
        simp only [Call.safeB, e2] at h
        exact ih s2 r2 h xs c ys s r rfl hr

/-- A history that adds clauses between three calls of `solve()`: satisfiable, satisfiable with a clause
whose first literal is false and last literal is true, unsatisfiable with clauses of new variables; and one more clause after that. -/
def Example.calls : List Call :=
  [.add [Example.lit 1, Example.lit 2], .solve 10, .add [Example.lit 1, Example.lit 3, Example.lit 2], .solve 10,
   .add [Example.lit 4, Example.lit 5], .add [Example.lit 4, Example.lit (-5)],
   .add [Example.lit (-4), Example.lit 5], .add [Example.lit (-4), Example.lit (-5)], .solve 20,
   .add [Example.lit 3], .solve 10]

/-- A history that meets the hypotheses of `C40_history_partial`, with its answers. -/
theorem C40_history_example : Call.Safe Example.env Example.calls ∧
    (∀ c ∈ Call.clauses Example.calls, ∀ l ∈ c, l.Valid) ∧
    (Call.run Example.env (Example.calls.take 4) (Solver.default Example.env) none).map (·.2) =
      .ok (some true) ∧
    (Call.run Example.env (Example.calls.take 9) (Solver.default Example.env) none).map (·.2) =
      .ok (some false) ∧
    (Call.run Example.env Example.calls (Solver.default Example.env) none).map (·.2) = .ok (some false) := by
  refine ⟨Call.safeB_spec _ _ none (by decide +kernel), ?_, by decide +kernel, by decide +kernel,
    by decide +kernel⟩
  unfold Lit.Valid
  decide +kernel

end

end Starlit
