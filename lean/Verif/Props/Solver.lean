import Verif.Solver.ProofLog
import Verif.Solver.Example

/-!
# C01, C02, C04, C05, C06, C38, C40: answers and proofs of the solver
-/

namespace Starlit

section
variable {env : Env} {F : List (List Lit)} {s s' : Solver}

/-- C01: when `solve()`, called any number of times, answers `false`, no assignment satisfies the
added clauses. -/
theorem C01_unsat_correct (h : Solver.Reachable env F s) {k : Nat}
    (e : s.solve env k = .ok (s', some false)) : FormulaUnsat F := by
  obtain ⟨s2, ctx, search, h2, e2, rfl⟩ := Solver.solve_last h e
  obtain ⟨L, S, h2⟩ := h2.inv
  obtain ⟨L', S', h', q⟩ := (searchStep_spec h2).ok_elim e2
  obtain ⟨log, _, _, hr⟩ := h'.proof
  obtain ⟨log0, L0, _, a, c⟩ := hr q.unsat
  exact a.unsat c

/-- C01 for a fresh solver. -/
theorem C01_fresh (hF : ∀ c ∈ F, ∀ l ∈ c, l.Valid) (h : (Solver.default env).addClauses F = .ok s)
    {k : Nat} (e : s.solve env k = .ok (s', some false)) : FormulaUnsat F := by
  have := Solver.Input.addClauses F (.new (env := env)) hF h
  exact C01_unsat_correct (.input (by simpa using this)) e

/-- The hypotheses of C01 are met by a formula that needs conflict analysis. -/
theorem C01_example : (Example.run Example.unsat3).map (·.2) = .ok (some false) := by decide +kernel

/-- The model found by a search step. -/
theorem searchStep_sat {ctx ctx' : Ctx} {search search' : Search} {L : DB} {S : List LC} {sch : Schedule}
    (h2 : SInv env (formulaVars F) (toDB F) L S ctx search)
    (e2 : searchStep env ctx search = .ok (ctx', search', some true)) :
    ∃ α : Nat → Bool, FormulaSat α F ∧
      (∀ l : Lit, (∃ c ∈ F, ∃ m ∈ c, l.index ≤ m.index) →
        Solver.value ⟨ctx', search', sch⟩ l = .ok (some (α l.index == l.isPositive))) ∧
      (∀ l : Lit, (∀ c ∈ F, ∀ m ∈ c, m.index < l.index) → Solver.value ⟨ctx', search', sch⟩ l = .ok none) := by
  obtain ⟨L', S', h', q⟩ := (searchStep_spec h2).ok_elim e2
  obtain ⟨hu, hall, hmod⟩ := q.sat_model h'
  have hvwf := h'.prop.trail.vwf
  have hnle := h'.prop.sized.n_le
  have hli : ∀ v b, v < formulaVars F → (litOf v b).index = v := fun v b hv =>
    litOf_index (by omega) b
  let α : Nat → Bool := fun v => search'.prop.values.val (litOf v true) == some true
  have hval : ∀ l : Lit, l.index < formulaVars F →
      search'.prop.values.val l = some (α l.index == l.isPositive) := by
    intro l hl
    have hp := hli l.index true hl
    have hpos : (litOf l.index true).isPositive = true := litOf_isPositive (by omega) _
    rcases Lit.eq_or_eq_neg (a := l) (b := litOf l.index true) hp.symm with el | el
    · have : l.isPositive = true := by rw [el]; exact hpos
      rw [this]
      cases hv : search'.prop.values.val l with
      | none => exact absurd hv (hall l hl)
      | some b =>
        simp only [α]
        rw [← el, hv]
        cases b <;> rfl
    · have hn : l.isPositive = false := by rw [el, Lit.isPositive_neg, hpos]; rfl
      rw [hn]
      have hv : search'.prop.values.val (litOf l.index true) =
          (search'.prop.values.val l).map (!·) := by
        have := PartialAssignment.val_neg hvwf (l := l)
        rw [← this]
        congr 1
        conv_rhs => rw [el]
        simp
      cases hx : search'.prop.values.val l with
      | none => exact absurd hx (hall l hl)
      | some b =>
        simp only [α]
        rw [hv, hx]
        cases b <;> rfl
  have hvars : ctx'.formula.vars = formulaVars F := h'.stats.vars
  refine ⟨α, ?_, ?_, ?_⟩
  · rw [← dbSat_toDB]
    intro c hc
    obtain ⟨l, hl, hi, hv⟩ := hmod c hc
    refine ⟨l, hl, ?_⟩
    have := hval l hi
    rw [hv] at this
    unfold LitSat
    simpa using this
  · rintro l ⟨c, hc, m, hm, hlm⟩
    have hl : l.index < formulaVars F := by
      have := lt_formulaVars hc hm; omega
    unfold Solver.value
    simp only
    rw [if_pos (by rw [hvars]; exact hl),
      PartialAssignment.value_eq (by rw [h'.prop.sized.values]; exact hl), hval l hl]
  · intro l hl
    unfold Solver.value
    simp only
    rw [if_neg (by rw [hvars]; exact Nat.not_lt.2 (formulaVars_le hl))]
    rfl

/-- C02: when `solve()` answers `true`, there is an assignment that satisfies all added clauses and
that is what `value()` returns for all literals up to the largest variable of the formula; for other
literals it returns `None`. -/
theorem C02_sat_correct (h : Solver.Reachable env F s) {k : Nat}
    (e : s.solve env k = .ok (s', some true)) :
    ∃ α : Nat → Bool, FormulaSat α F ∧
      (∀ l : Lit, (∃ c ∈ F, ∃ m ∈ c, l.index ≤ m.index) →
        s'.value l = .ok (some (α l.index == l.isPositive))) ∧
      (∀ l : Lit, (∀ c ∈ F, ∀ m ∈ c, m.index < l.index) → s'.value l = .ok none) := by
  obtain ⟨s2, ctx, search, h2, e2, rfl⟩ := Solver.solve_last h e
  obtain ⟨L, S, h2⟩ := h2.inv
  exact searchStep_sat h2 e2

/-- C02 for a fresh solver. -/
theorem C02_fresh (hF : ∀ c ∈ F, ∀ l ∈ c, l.Valid) (h : (Solver.default env).addClauses F = .ok s)
    {k : Nat} (e : s.solve env k = .ok (s', some true)) :
    ∃ α : Nat → Bool, FormulaSat α F ∧ ∀ c ∈ F, ∀ l ∈ c,
      s'.value l = .ok (some (α l.index == l.isPositive)) := by
  have := Solver.Input.addClauses F (.new (env := env)) hF h
  obtain ⟨α, h1, h2, _⟩ := C02_sat_correct (.input (by simpa using this)) e
  exact ⟨α, h1, fun c hc l hl => h2 l ⟨c, hc, l, hl, Nat.le_refl _⟩⟩

/-- The hypotheses of C02 are met by a formula that needs conflict analysis. -/
theorem C02_example : (Example.run Example.sat3).map (fun x => (x.2,
    [1, 2, 3, 4].map fun i => x.1.value (Example.lit i))) =
    .ok (some true, [.ok (some true), .ok (some true), .ok (some true), .ok none]) := by
  decide +kernel

/-- C04: adding clauses and solving, called any number of times, ends in an answer or in the
documented panic for a full arena (or leaves the range of 32-bit offsets), never in another panic or
an out-of-bounds access. -/
theorem C04_no_panic (h : Solver.Reachable env F s) (k : Nat) (err : Err)
    (e : s.solve env k = .error err) : err = .arenaFull ∨ err = .tooBig := by
  have := solve_spec k h.inv
  rw [e] at this
  cases err <;> simp [Wp] at this ⊢

/-- C04 for `add_clause`. -/
theorem C04_add_no_panic (h : Solver.Input env F s) {c : List Lit} (hc : ∀ l ∈ c, l.Valid) (err : Err)
    (e : s.addClause c = .error err) : err = .arenaFull ∨ err = .tooBig := by
  obtain ⟨S, h⟩ := h.inv
  have := addClause_spec h hc
  rw [e] at this
  cases err <;> simp [Wp] at this ⊢

/-- C04 for `value()`. -/
theorem C04_value_no_panic (h : Solver.Reachable env F s) (l : Lit) : ∃ v, s.value l = .ok v := by
  obtain ⟨L, S, h⟩ := h.inv
  unfold Solver.value
  split
  · rename_i hl
    rw [h.stats.vars] at hl
    exact ⟨_, PartialAssignment.value_eq (by rw [h.prop.sized.values]; exact hl)⟩
  · exact ⟨_, rfl⟩

/-- C05: with a proof writer attached before the first `solve()`, every state has a log in which
every addition is RUP with respect to the input clauses and the additions before it that have not been
deleted. -/
theorem C05_additions_rup {s0 : Solver} (h0 : Solver.Input env F s0) (hp : s0.ctx.proof ≠ none)
    {k : Nat} {r : Option Bool} (e : s0.solve env k = .ok (s', r)) :
    ∃ log, s'.ctx.proof = some log ∧ ∀ (pre post : List ProofStep) (c : List Lit),
      log = pre ++ .add c :: post →
      RUP (toDB F + (addedClauses pre - deletedClauses pre)) (c : Multiset Lit) := by
  obtain ⟨S0, h0⟩ := h0.inv
  have hs : SolverInv env (formulaVars F) (toDB F) s0 := ⟨0, S0, h0.sinv⟩
  have hlog := solve_log hs e
  obtain ⟨L, S, h'⟩ := (solve_spec k hs).ok_elim e
  obtain ⟨log, a, hl, _⟩ := h'.proof
  have hsome : s'.ctx.proof = some log := by
    rcases hl with hl | hl
    · exfalso
      cases hx : s0.ctx.proof with
      | none => exact hp hx
      | some l0 =>
        obtain ⟨new, en⟩ := hlog.2 l0 hx
        rw [hl] at en; simp at en
    · exact hl
  refine ⟨log, hsome, ?_⟩
  intro pre post c el
  obtain ⟨L1, a1, hr⟩ := a.split pre post _ el
  have := a1.balance
  rw [this, Multiset.add_sub_cancel_right]
  exact hr

/-- C05: and when the first `solve()` answers `false`, unit propagation refutes the input clauses
together with the additions that have not been deleted. -/
theorem C05_refuted {s0 : Solver} (h0 : Solver.Input env F s0) (hp : s0.ctx.proof ≠ none)
    {k : Nat} (e : s0.solve env k = .ok (s', some false)) :
    ∃ log, s'.ctx.proof = some log ∧
      UpConflict (toDB F + (addedClauses log - deletedClauses log)) (fun _ => False) := by
  obtain ⟨S0, hi, hpend⟩ := h0.pending
  obtain ⟨log, L', a, hl, hc⟩ := solve_refuted hi hpend e
  have hlog := solve_log ⟨0, S0, hi⟩ e
  refine ⟨log, ?_, ?_⟩
  · rcases hl with hl | hl
    · exfalso
      cases hx : s0.ctx.proof with
      | none => exact hp hx
      | some l0 =>
        obtain ⟨new, en⟩ := hlog.2 l0 hx
        rw [hl] at en; simp at en
    · exact hl
  · rw [a.balance, Multiset.add_sub_cancel_right]
    exact hc

/-- The hypotheses of C05 are met: a run with three additions. -/
theorem C05_example : (Example.load Example.unsat3).map (·.ctx.proof) = .ok (some []) ∧
    (Example.run Example.unsat3).map (fun x => (x.2, x.1.ctx.proof)) =
      .ok (some false, some [.add [Example.lit 3, Example.lit 1], .add [Example.lit 1],
        .add [Example.lit (-3)]]) := by
  decide +kernel

/-- C06: in the log of any state of any run, a deletion names a clause with at least three literals
that was added before and not yet deleted that often. -/
theorem C06_deletions (h : Solver.Reachable env F s) {log : List ProofStep}
    (hl : s.ctx.proof = some log) {pre post : List ProofStep} {c : List Lit}
    (e : log = pre ++ .delete c :: post) :
    3 ≤ c.length ∧ (c : Multiset Lit) ∈ addedClauses pre - deletedClauses pre ∧
      ∃ c', .add c' ∈ pre ∧ c'.Perm c := by
  obtain ⟨L, S, h⟩ := h.inv
  obtain ⟨log', a, hl', _⟩ := h.proof
  rw [hl] at hl'
  simp only [reduceCtorEq, Option.some.injEq, false_or] at hl'
  subst hl'
  obtain ⟨L1, a1, h1, h2⟩ := a.split pre post _ e
  have hb := a1.balance
  refine ⟨h2, ?_, ?_⟩
  · rw [hb, Multiset.add_sub_cancel_right]; exact h1
  · have hm : (c : Multiset Lit) ∈ addedClauses pre := by
      rw [hb]; exact Multiset.mem_add.2 (.inl h1)
    clear hb a1 h1 e a
    induction pre with
    | nil => simp [addedClauses] at hm
    | cons x pre ih =>
      cases x with
      | add c' =>
        simp only [addedClauses, Multiset.mem_cons] at hm
        rcases hm with e | hm
        · exact ⟨c', by simp, (Multiset.coe_eq_coe.1 e).symm⟩
        · obtain ⟨d, h3, h4⟩ := ih hm
          exact ⟨d, by simp [h3], h4⟩
      | delete c' =>
        obtain ⟨d, h3, h4⟩ := ih hm
        exact ⟨d, by simp [h3], h4⟩

/-- The hypotheses of C06 are met: this run has learned thirteen clauses, then deleted one. -/
theorem C06_example : (Example.runReduce (Example.php 5 4) 33).map
    (fun x => (x.1.ctx.proof.getD []).map Example.isDelete) =
      .ok (List.replicate 13 false ++ [true, false]) := by
  decide +kernel

/-- The clauses of two formulas are the same sets of literals. -/
def SameClauses (F G : List (List Lit)) : Prop :=
  (∀ c ∈ F, ∃ d ∈ G, ∀ l, l ∈ c ↔ l ∈ d) ∧ (∀ d ∈ G, ∃ c ∈ F, ∀ l, l ∈ d ↔ l ∈ c)

theorem SameClauses.sat {F G : List (List Lit)} (h : SameClauses F G) {α : Nat → Bool}
    (hs : FormulaSat α F) : FormulaSat α G := by
  intro d hd
  obtain ⟨c, hc, e⟩ := h.2 d hd
  obtain ⟨l, hl, hα⟩ := hs c hc
  exact ⟨l, (e l).2 hl, hα⟩

/-- C38: the answer depends only on the set of clauses, as sets of literals. -/
theorem C38_order_independent {env' : Env} {G : List (List Lit)} {t t' : Solver} {k j : Nat} {a b : Bool}
    (hFG : SameClauses F G) (hs : Solver.Reachable env F s) (ht : Solver.Reachable env' G t)
    (es : s.solve env k = .ok (s', some a)) (et : t.solve env' j = .ok (t', some b)) : a = b := by
  have hGF : SameClauses G F := ⟨hFG.2, hFG.1⟩
  cases a with
  | true =>
    cases b with
    | true => rfl
    | false =>
      obtain ⟨α, h1, _⟩ := C02_sat_correct hs es
      exact absurd (hFG.sat h1) (C01_unsat_correct ht et α)
  | false =>
    cases b with
    | false => rfl
    | true =>
      obtain ⟨α, h1, _⟩ := C02_sat_correct ht et
      exact absurd (hGF.sat h1) (C01_unsat_correct hs es α)

/-- Two lists of clauses that C38 is about. -/
theorem C38_example :
    SameClauses (Example.cnf [[1, 2], [-1, 2], [1, -2]]) (Example.cnf [[2, 1], [-2, 1], [2, -1], [1, 2, 1]]) ∧
    (Example.run [[1, 2], [-1, 2], [1, -2]]).map (·.2) = .ok (some true) ∧
    (Example.run [[2, 1], [-2, 1], [2, -1], [1, 2, 1]]).map (·.2) = .ok (some true) := by
  refine ⟨⟨?_, ?_⟩, by decide +kernel, by decide +kernel⟩
  · intro c hc
    simp only [Example.cnf, List.map_cons, List.map_nil, List.mem_cons, List.not_mem_nil, or_false] at hc ⊢
    rcases hc with rfl | rfl | rfl
    · exact ⟨_, .inl rfl, by simp [or_comm]⟩
    · exact ⟨_, .inr (.inr (.inl rfl)), by simp [or_comm]⟩
    · exact ⟨_, .inr (.inl rfl), by simp [or_comm]⟩
  · intro c hc
    simp only [Example.cnf, List.map_cons, List.map_nil, List.mem_cons, List.not_mem_nil, or_false] at hc ⊢
    rcases hc with rfl | rfl | rfl | rfl
    · exact ⟨_, .inl rfl, by simp [or_comm]⟩
    · exact ⟨_, .inr (.inr rfl), by simp [or_comm]⟩
    · exact ⟨_, .inr (.inl rfl), by simp [or_comm]⟩
    · exact ⟨_, .inl rfl, by intro l; simp; tauto⟩

/-! ## C40: incremental use -/

/-- A history of calls of the API. -/
inductive Call where
  | add (c : List Lit)
  | solve (k : Nat)

/-- The clauses added by a history. -/
def Call.clauses : List Call → List (List Lit)
  | [] => []
  | .add c :: cs => c :: Call.clauses cs
  | .solve _ :: cs => Call.clauses cs

/-- Run a history; the answer is that of the last `solve`, if any. -/
def Call.run (env : Env) : List Call → Solver → Option Bool → M (Solver × Option Bool)
  | [], s, r => pure (s, r)
  | .add c :: cs, s, _ => do
    let s ← s.addClause c
    Call.run env cs s none
  | .solve k :: cs, s, _ => do
    let (s, r) ← s.solve env k
    Call.run env cs s r

/-- Incremental solving is correct. -/
def Incremental : Prop := ∀ (env : Env) (cs : List Call) (s : Solver) (b : Bool),
  (∀ c ∈ Call.clauses cs, ∀ l ∈ c, l.Valid) →
  Call.run env cs (Solver.default env) none = .ok (s, some b) →
  (b = true ↔ ∃ α, FormulaSat α (Call.clauses cs))

/-- C40 is false of the code: after a satisfiable call the assignment stays in place, and adding a
unit clause that it falsifies makes the next call answer `false`, although both clauses are
satisfiable. -/
theorem C40_false : ¬ Incremental := by
  intro h
  have h1 := h Example.env
    [.add [Example.lit 1, Example.lit 2], .solve 10, .add [Example.lit 1], .solve 10]
  have h2 : ((Call.run Example.env
      [.add [Example.lit 1, Example.lit 2], .solve 10, .add [Example.lit 1], .solve 10]
      (Solver.default Example.env) none).map (·.2)) = .ok (some false) := by decide +kernel
  obtain ⟨⟨s, r⟩, h3, rfl⟩ : ∃ x, Call.run Example.env
      [.add [Example.lit 1, Example.lit 2], .solve 10, .add [Example.lit 1], .solve 10]
      (Solver.default Example.env) none = .ok x ∧ x.2 = some false := by
    cases hx : Call.run Example.env
      [.add [Example.lit 1, Example.lit 2], .solve 10, .add [Example.lit 1], .solve 10]
      (Solver.default Example.env) none with
    | error e => rw [hx] at h2; cases h2
    | ok x => rw [hx] at h2; exact ⟨x, rfl, Except.ok.inj h2⟩
  have h4 := (h1 s false (by simp only [Call.clauses]; decide +kernel) h3).2
    ⟨fun _ => true, by simp only [FormulaSat, LitSat, Call.clauses]; decide +kernel⟩
  simp at h4

/-- And the other way: after units were propagated, a clause that they falsify is not noticed and the
answer is `true`, although the clauses are unsatisfiable. -/
theorem C40_false_sat : ((Call.run Example.env
    [.add [Example.lit (-1)], .add [Example.lit (-2)], .add [Example.lit (-3)], .solve 10,
      .add [Example.lit 1, Example.lit 2, Example.lit 3], .solve 10]
    (Solver.default Example.env) none).map (·.2)) = .ok (some true) ∧
    FormulaUnsat (Example.cnf [[-1], [-2], [-3], [1, 2, 3]]) := by
  refine ⟨by decide +kernel, ?_⟩
  intro α hα
  have h1 := hα [Example.lit (-1)] (by simp [Example.cnf])
  have h2 := hα [Example.lit (-2)] (by simp [Example.cnf])
  have h3 := hα [Example.lit (-3)] (by simp [Example.cnf])
  have h4 := hα [Example.lit 1, Example.lit 2, Example.lit 3] (by simp [Example.cnf])
  have e1 : (Example.lit (-1)).index = 0 ∧ (Example.lit (-1)).isPositive = false ∧
    (Example.lit (-2)).index = 1 ∧ (Example.lit (-2)).isPositive = false ∧
    (Example.lit (-3)).index = 2 ∧ (Example.lit (-3)).isPositive = false ∧
    (Example.lit 1).index = 0 ∧ (Example.lit 1).isPositive = true ∧
    (Example.lit 2).index = 1 ∧ (Example.lit 2).isPositive = true ∧
    (Example.lit 3).index = 2 ∧ (Example.lit 3).isPositive = true := by decide +kernel
  simp only [List.mem_cons, List.not_mem_nil, or_false, LitSat, exists_eq_left,
    exists_eq_or_imp, e1] at h1 h2 h3 h4
  simp [h1, h2, h3] at h4

/-- C40 for histories in which all clauses are added before the first `solve()`; `solve()` may be
called repeatedly.  (Missing: histories that add clauses after a `solve()`; they are wrong, see
`C40_false`.) -/
theorem C40_add_then_solve_partial (env : Env) (cs : List (List Lit)) (ks : List Nat) (s : Solver)
    (b : Bool) (hc : ∀ c ∈ cs, ∀ l ∈ c, l.Valid)
    (h : Call.run env (cs.map .add ++ ks.map .solve) (Solver.default env) none = .ok (s, some b)) :
    b = true ↔ ∃ α, FormulaSat α cs := by
  have key : ∀ (ks : List Nat) (s0 : Solver) (r : Option Bool), Solver.Reachable env cs s0 →
      (∀ b, r = some b → (b = true ↔ ∃ α, FormulaSat α cs)) →
      Call.run env (ks.map .solve) s0 r = .ok (s, some b) → (b = true ↔ ∃ α, FormulaSat α cs) := by
    intro ks
    induction ks with
    | nil =>
      intro s0 r _ hr e
      simp only [List.map_nil, Call.run, pure_eq, Except.ok.injEq, Prod.mk.injEq] at e
      exact hr b e.2
    | cons k ks ih =>
      intro s0 r h0 _ e
      simp only [List.map_cons, Call.run] at e
      obtain ⟨⟨s1, r1⟩, e1, e2⟩ := bind_eq_ok.1 e
      refine ih s1 r1 (h0.solve e1) ?_ e2
      rintro b rfl
      cases b with
      | true => obtain ⟨α, hα, _⟩ := C02_sat_correct h0 e1; simp only [true_iff]; exact ⟨α, hα⟩
      | false => have := C01_unsat_correct h0 e1; simpa [FormulaUnsat] using this
  have add : ∀ (cs' F : List (List Lit)) (s0 : Solver), F ++ cs' = cs → Solver.Input env F s0 →
      ∀ r, (cs' = [] → r = none) →
      Call.run env (cs'.map .add ++ ks.map .solve) s0 r = .ok (s, some b) →
      (b = true ↔ ∃ α, FormulaSat α cs) := by
    intro cs'
    induction cs' with
    | nil =>
      intro F s0 hF h0 r hr e
      have hF : F = cs := by simpa using hF
      subst hF
      rw [hr rfl] at e
      exact key ks s0 none (.input h0) (by simp) e
    | cons c cs' ih =>
      intro F s0 hF h0 r _ e
      simp only [List.map_cons, List.cons_append, Call.run] at e
      obtain ⟨s1, e1, e2⟩ := bind_eq_ok.1 e
      refine ih (F ++ [c]) s1 (by rw [← hF]; simp) (h0.add ?_ e1) none (fun _ => rfl) e2
      exact hc c (by rw [← hF]; simp)
  exact add cs [] _ (by simp) .new none (fun _ => rfl) h

/-- A history for C40 with two calls of `solve()`. -/
theorem C40_example : (Call.run Example.env ((Example.cnf Example.sat3).map .add ++ [10, 10].map .solve)
    (Solver.default Example.env) none).map (·.2) = .ok (some true) := by decide +kernel

end

end Starlit
