import Verif.Props.Incremental
import Verif.Props.EndToEnd
import Verif.Props.Analysis

/-!
# C61: proofs of incremental runs

One proof file is written for all calls of `solve()` (starlit/src/context.rs:13, starlit/src/proof.rs:9).  A checker is given all
clauses at once, also those that were added after some of the lines were written.
-/

namespace Starlit

section
variable {env : Env} {F : List (List Lit)} {s s' : Solver} {c : List Lit} {log : List ProofStep}

theorem Solver.Input.valid (h : Solver.Input env F s) : ∀ c ∈ F, ∀ l ∈ c, l.Valid := by
  induction h with
  | new => simp
  | proof _ ih => exact ih
  | @add F s s' c _ hc _ ih =>
    intro d hd
    rcases List.mem_append.1 hd with hd | hd
    · exact ih d hd
    · rw [List.mem_singleton] at hd; subst hd; exact hc

theorem Solver.Incr.valid (h : Solver.Incr env F s) : ∀ c ∈ F, ∀ l ∈ c, l.Valid := by
  induction h with
  | input h => exact h.valid
  | @add F s s' c _ hc _ _ ih =>
    intro d hd
    rcases List.mem_append.1 hd with hd | hd
    · exact ih d hd
    · rw [List.mem_singleton] at hd; subst hd; exact hc
  | solve _ _ ih => exact ih

theorem dimacs_nonzero (h : ∀ c ∈ F, ∀ l ∈ c, l.Valid) :
    ∀ c ∈ F.map (List.map Lit.dimacs), ∀ n ∈ c, n ≠ 0 := by
  intro c hc n hn
  obtain ⟨d, hd, rfl⟩ := List.mem_map.1 hc
  obtain ⟨l, hl, rfl⟩ := List.mem_map.1 hn
  exact dimacs_ne_zero (h d hd l hl)

/-- C61: in every state of an incremental run (clauses added as in `C40_incremental_partial`), every addition of
the log is RUP with respect to the clauses added so far and the additions before it that have not been
deleted, and every deletion names such an addition. -/
theorem C61_log (h : Solver.Incr env F s) (hl : s.ctx.proof = some log) :
    (∀ (pre post : List ProofStep) (c : List Lit), log = pre ++ .add c :: post →
      RUP (toDB F + (addedClauses pre - deletedClauses pre)) (c : Multiset Lit)) ∧
    (∀ (pre post : List ProofStep) (c : List Lit), log = pre ++ .delete c :: post →
      3 ≤ c.length ∧ (c : Multiset Lit) ∈ addedClauses pre - deletedClauses pre) := by
  obtain ⟨L, S, hi⟩ := h.inv
  obtain ⟨log', a, hl', _⟩ := hi.proof
  rw [hl] at hl'
  simp only [reduceCtorEq, Option.some.injEq, false_or] at hl'
  subst hl'
  refine ⟨fun pre post c e => ?_, fun pre post c e => ?_⟩
  · obtain ⟨L1, a1, hr⟩ := a.split pre post _ e
    rw [a1.balance, Multiset.add_sub_cancel_right]
    exact hr
  · obtain ⟨L1, a1, h1, h2⟩ := a.split pre post _ e
    rw [a1.balance, Multiset.add_sub_cancel_right]
    exact ⟨h2, h1⟩

/-- C61: the file can be read back, and a checker that is given the clauses accepts all its lines. -/
theorem C61_file (h : Solver.Incr env F s) (hl : s.ctx.proof = some log) (f : Cli.ProofFormat) :
    ∃ lines F', f.parse (f.bytes log) = some lines ∧
      DratCheck.steps (F.map (List.map Lit.dimacs)) lines = some F' := by
  obtain ⟨L, S, hi⟩ := h.inv
  obtain ⟨log', a, hl', _⟩ := hi.proof
  rw [hl] at hl'
  simp only [reduceCtorEq, Option.some.injEq, false_or] at hl'
  subst hl'
  obtain ⟨F', h1, _⟩ := DratCheck.steps_complete a (toDB_valid h.valid) toDB_nums
  exact ⟨_, F', parse_bytes f a.valid.1, h1⟩

/-- C61: adding a clause writes nothing; `solve()` only appends. -/
theorem C61_append (h : Solver.Incr env F s) (hl : s.ctx.proof = some log) :
    ((∀ l ∈ c, l.Valid) → SafeAdd s.search.prop c → s.addClause c = .ok s' → s'.ctx.proof = some log) ∧
    (∀ {k : Nat} {r : Option Bool}, s.solve env k = .ok (s', r) →
      ∃ new, s'.ctx.proof = some (log ++ new)) := by
  refine ⟨fun hc hs e => ?_, fun e => (solve_log h.inv e).2 log hl⟩
  obtain ⟨L, S, hi⟩ := h.inv
  obtain ⟨S', _, _, _, hp⟩ := (hi.addClause hc hs).ok_elim e
  rw [hp, hl]

/-- C61: when a call of `solve()` answers `false`, a first part of the file is a proof that the clauses added
so far are unsatisfiable. -/
theorem C61_refuted (h : Solver.Incr env F s) (hl : s.ctx.proof = some log) {k : Nat}
    (e : s.solve env k = .ok (s', some false)) :
    ∃ pre post, s'.ctx.proof = some (pre ++ post) ∧
      DratCheck.check (F.map (List.map Lit.dimacs)) (pre.map ProofStep.line) = true := by
  obtain ⟨new, hn⟩ := (solve_log h.inv e).2 log hl
  obtain ⟨s2, ctx, search, ⟨L, S, h2⟩, e2, rfl⟩ := solve_last_inv h.inv e
  obtain ⟨L', S', h', q⟩ := (searchStep_spec h2).ok_elim e2
  obtain ⟨log', _, hl', hr⟩ := h'.proof
  obtain ⟨log0, L0, ⟨post, hp⟩, a, c⟩ := hr q.unsat
  refine ⟨log0, post, ?_, DratCheck.check_complete a (toDB_valid h.valid) toDB_nums
    (dimacs_nonzero h.valid) c⟩
  rcases hl' with hl' | hl'
  · simp only at hn hl'
    rw [hl'] at hn; simp at hn
  · rw [hp]; exact hl'

/-- While clauses are added, the solver notices unsatisfiability only for an empty clause and for a unit clause
whose literal is false at the top level. -/
def Shown (F : DB) (s : Solver) : Prop := s.search.prop.unsat = true →
  0 ∈ F ∨ ∃ a : Lit, {a} ∈ F ∧ ∃ x ∈ s.search.prop.trail.steps, x.level = 0 ∧ x.lit = a.neg

theorem Shown.grow {F : DB} {c : Multiset Lit} (h : Shown F s)
    (hu : s'.search.prop.unsat = s.search.prop.unsat)
    (ht : ∀ x ∈ s.search.prop.trail.steps, x ∈ s'.search.prop.trail.steps) : Shown (c ::ₘ F) s' := by
  intro hs
  rcases h (hu ▸ hs) with h | ⟨a, h1, x, h2, h3⟩
  · exact .inl (Multiset.mem_cons_of_mem h)
  · exact .inr ⟨a, Multiset.mem_cons_of_mem h1, x, ht x h2, h3⟩

theorem Shown.conflict {n : Nat} {F L : DB} {S : List LC} (h : SInv env n F L S s.ctx s.search) (hs : Shown F s)
    (hu : s.search.prop.unsat = true) : UpConflict (F + L) (fun _ => False) := by
  rcases hs hu with h0 | ⟨a, h1, x, h2, h3, h4⟩
  · exact ⟨0, Multiset.mem_add.2 (.inl h0), by simp⟩
  · refine ⟨{a}, Multiset.mem_add.2 (.inl h1), ?_⟩
    intro o ho
    rw [Multiset.mem_singleton.1 ho, ← h4]
    exact h.prop.implied0 h.db h2 h3 _

theorem Shown.addClause {n : Nat} {F L : DB} {S : List LC} (h : SInv env n F L S s.ctx s.search)
    (hs : Shown F s) (hc : ∀ l ∈ c, l.Valid) (hsafe : SafeAdd s.search.prop c) (e : s.addClause c = .ok s') :
    Shown ((c : Multiset Lit) ::ₘ F) s' := by
  unfold Solver.addClause at e
  obtain ⟨s1, e1, h1, _, _, _, _, p1, p2, p3, p4⟩ := h.ensureVars (varCount_le hc)
  rw [e1, bind_ok] at e
  have hs1 : Shown F s1 := by
    unfold Shown; rw [p4, p1]; exact hs
  have hsafe := hsafe.congr p1 p2 p3
  obtain ⟨⟨ctx, p, r⟩, e2, e⟩ := bind_eq_ok.1 e
  cases e
  match c, hsafe with
  | [], _ => exact fun _ => .inl (by simp)
  | [a], hsafe =>
    have hlev : s1.search.prop.trail.decisionLevel = 0 := hsafe
    simp only [addClauseVerbatim] at e2
    have ha : a.index < max n (Solver.varCount [a]) := by
      have := varCount_lt (c := [a]) (l := a) (by simp); omega
    rw [h1.prop.isFalse ha, bind_ok] at e2
    by_cases hv : s1.search.prop.values.val a = some false
    · rw [hv] at e2
      cases e2
      intro _
      obtain ⟨x, hx, e⟩ := (h1.prop.trail.val_false_iff a).1 hv
      refine .inr ⟨a, by simp, x, hx, ?_, e⟩
      obtain ⟨i, hi⟩ := List.mem_iff_getElem?.1 hx
      have := h1.prop.trail.level_le i x hi
      omega
    · have hb : (s1.search.prop.values.val a == some false) = false := by simpa using hv
      rw [hb] at e2
      simp only [Bool.false_eq_true, if_false] at e2
      obtain ⟨p1, e3, e2⟩ := bind_eq_ok.1 e2
      cases e2
      rw [assignUnit_eq h1.prop.sized (s := ⟨a, 0, .unit⟩) ha] at e3
      split at e3
      · cases e3
        exact hs1.grow rfl (fun x hx => by simp [Trail.push, hx])
      · cases e3
  | [a, b], _ =>
    simp only [addClauseVerbatim] at e2
    obtain ⟨_, _, e2⟩ := bind_eq_ok.1 e2
    cases e2
    exact hs1.grow rfl (fun _ hx => hx)
  | a :: b :: c :: ls, _ =>
    simp only [addClauseVerbatim] at e2
    obtain ⟨x, _, e2⟩ := bind_eq_ok.1 e2
    match x with
    | none => cases e2
    | some (long, r) =>
      simp only at e2
      obtain ⟨_, _, e2⟩ := bind_eq_ok.1 e2
      cases e2
      exact hs1.grow rfl (fun _ hx => hx)

/-- A call of `solve()` before which unsatisfiability was only noticed while adding clauses: the same holds
after it unless it answers `false`, and then unit propagation refutes the last clause set of the proof.  (The
clauses that the top level depends on are not deleted.) -/
theorem Shown.solve : ∀ {k : Nat} {n : Nat} {F L : DB} {S : List LC} {s s' : Solver} {r : Option Bool},
    SInv env n F L S s.ctx s.search → Shown F s → s.solve env k = .ok (s', r) →
    (r ≠ some false → Shown F s') ∧ (r = some false → ∃ log L', Accepted F log L' ∧
      (s'.ctx.proof = none ∨ s'.ctx.proof = some log) ∧ UpConflict (F + L') (fun _ => False))
  | 0, n, F, L, S, s, s', r, _, hs, e => by
    cases e
    exact ⟨fun _ => hs, by simp⟩
  | k + 1, n, F, L, S, s, s', r, h, hs, e => by
    simp only [Solver.solve] at e
    obtain ⟨⟨s3, r1⟩, e1, e⟩ := bind_eq_ok.1 e
    obtain ⟨s1, s2, ctx, search, q1, q2, q3, rfl⟩ := Solver.scheduleStep_eq e1
    -- restart
    obtain ⟨_, q, h1, hr⟩ := maybeRestart_spec h
    cases q1.symm.trans q
    have hs1 : Shown F s1 := by
      rcases hr with ⟨_, rfl⟩ | ⟨_, hr, _⟩
      · exact hs
      · obtain ⟨ctx', sx, e2, _, _, _, _, hx⟩ := restart_spec h
        rw [hr] at e2
        simp only [Except.ok.injEq, Prod.mk.injEq] at e2
        obtain ⟨_, rfl⟩ := e2
        unfold Shown
        rcases hx with ⟨_, e2⟩ | ⟨target, ht, b⟩
        · rw [e2]; exact hs
        · rw [b.unsat, b.trail]
          intro hu
          refine (hs hu).imp_right ?_
          rintro ⟨a, ha, x, hx, h0, e⟩
          refine ⟨a, ha, x, ?_, h0, e⟩
          simp only [Trail.cut]
          rw [(h.prop.trail.take_eq_filter ht).1]
          simp [hx, h0]
    -- reduction
    obtain ⟨L2, S2, h2, hs2⟩ : ∃ L2 S2, SInv env n F L2 S2 s2.ctx s2.search ∧ Shown F s2 := by
      obtain ⟨_, q, ⟨L2, S2, h2⟩, hr⟩ := maybeReduce_spec h1
      cases q2.symm.trans q
      rcases hr with ⟨_, rfl⟩ | ⟨_, hr, _⟩
      · exact ⟨L, S, h1, hs1⟩
      · obtain ⟨ctx', sx, L', D, S', e2, h', p, _⟩ := reduce_inv h1
        rw [hr] at e2
        simp only [Except.ok.injEq, Prod.mk.injEq] at e2
        obtain ⟨rfl, rfl⟩ := e2
        refine ⟨L', S', h', ?_⟩
        obtain ⟨a, ea⟩ := p.eq
        unfold Shown
        rw [ea]
        exact hs1
    -- step
    obtain ⟨L3, S3, h3, q⟩ := (searchStep_spec h2).ok_elim q3
    cases r1 with
    | none =>
      refine Shown.solve (S := S3) h3 ?_ e
      generalize hr : (none : Option Bool) = r at q
      cases q with
      | already => simp at hr
      | fail => simp at hr
      | learn hu ph _ _ _ a =>
        intro hu'
        simp only [a.unsat, ph.unsat, hu] at hu'
        simp at hu'
      | decide hu ph =>
        intro hu'
        simp only [ph.unsat, hu] at hu'
        simp at hu'
      | sat => simp at hr
    | some b =>
      simp only [pure_eq, Except.ok.injEq, Prod.mk.injEq] at e
      obtain ⟨rfl, rfl⟩ := e
      obtain ⟨log, l1, l2, _⟩ := h3.proof
      cases b with
      | true =>
        refine ⟨fun _ => ?_, by simp⟩
        generalize hr : some true = r at q
        cases q with
        | already => simp at hr
        | fail => simp at hr
        | learn => simp at hr
        | decide => simp at hr
        | sat hu ph =>
          intro hu'
          simp only [ph.unsat, hu] at hu'
          simp at hu'
      | false =>
        refine ⟨by simp, fun _ => ⟨log, L3, l1, l2, ?_⟩⟩
        generalize hr : some false = r at q
        cases q with
        | already hu => exact Shown.conflict h2 hs2 hu
        | fail hu ph h0 =>
          exact ph.inv.upConflict (ph.db F L2 h2.db) (ph.conflict _ rfl) h0
        | learn => simp at hr
        | decide => simp at hr
        | sat => simp at hr

/-- The states of incremental use up to the first answer `false`. -/
inductive Solver.IncrOpen (env : Env) : List (List Lit) → Solver → Prop
  | input {F : List (List Lit)} {s : Solver} : Solver.Input env F s → IncrOpen env F s
  | add {F : List (List Lit)} {s s' : Solver} {c : List Lit} : IncrOpen env F s → (∀ l ∈ c, l.Valid) →
      SafeAdd s.search.prop c → s.addClause c = .ok s' → IncrOpen env (F ++ [c]) s'
  | solve {F : List (List Lit)} {s s' : Solver} {k : Nat} {r : Option Bool} : IncrOpen env F s →
      s.solve env k = .ok (s', r) → r ≠ some false → IncrOpen env F s'

theorem Solver.IncrOpen.incr (h : Solver.IncrOpen env F s) : Solver.Incr env F s := by
  induction h with
  | input h => exact .input h
  | add _ hc hs e ih => exact ih.add hc hs e
  | solve _ e _ ih => exact ih.solve e

theorem toDB_snoc (F : List (List Lit)) (c : List Lit) : toDB (F ++ [c]) = (c : Multiset Lit) ::ₘ toDB F := by
  unfold toDB
  rw [List.map_append, List.map_singleton]
  exact Multiset.coe_eq_coe.2 List.perm_append_comm

theorem Solver.IncrOpen.shown (h : Solver.IncrOpen env F s) : Shown (toDB F) s := by
  induction h with
  | input h =>
    induction h with
    | new => intro hu; cases hu
    | proof _ ih => exact ih
    | @add F s s' c h hc e ih =>
      obtain ⟨S, hi⟩ := h.inv
      rw [toDB_snoc]
      exact ih.addClause hi.sinv hc (C40_safe_input h c) e
  | add h hc hs e ih =>
    obtain ⟨L, S, hi⟩ := h.incr.inv
    rw [toDB_snoc]
    exact ih.addClause hi hc hs e
  | solve h e hr ih =>
    obtain ⟨L, S, hi⟩ := h.incr.inv
    exact (ih.solve hi e).1 hr

/-- C61: and if no call answered `false` before, the whole file is. -/
theorem C61_refuted_first (h : Solver.IncrOpen env F s) (hl : s.ctx.proof = some log)
    {k : Nat} (e : s.solve env k = .ok (s', some false)) (f : Cli.ProofFormat) :
    ∃ log' lines, s'.ctx.proof = some log' ∧ f.parse (f.bytes log') = some lines ∧
      DratCheck.check (F.map (List.map Lit.dimacs)) lines = true := by
  obtain ⟨new, hn⟩ := (solve_log h.incr.inv e).2 log hl
  obtain ⟨L, S, hi⟩ := h.incr.inv
  obtain ⟨log', L', a, hl', hc⟩ := (h.shown.solve hi e).2 rfl
  have hv := h.incr.valid
  refine ⟨log', _, ?_, parse_bytes f a.valid.1, DratCheck.check_complete a (toDB_valid hv) toDB_nums
    (dimacs_nonzero hv) hc⟩
  rcases hl' with hl' | hl'
  · rw [hl'] at hn; simp at hn
  · exact hl'

/-- Compute whether every clause of a history is added in a state where it does no harm, and no call answers
`false`. -/
def Call.harmless (env : Env) : List Call → Solver → Bool
  | [], _ => true
  | .add c :: cs, s => safeAddB s.search.prop c &&
      match s.addClause c with
      | .ok s => Call.harmless env cs s
      | .error _ => true
  | .solve k :: cs, s =>
      match s.solve env k with
      | .ok (s, r) => r != some false && Call.harmless env cs s
      | .error _ => true

theorem Solver.IncrOpen.run : ∀ {cs : List Call} {F : List (List Lit)} {s s' : Solver} {r r' : Option Bool},
    Solver.IncrOpen env F s → (∀ c ∈ Call.clauses cs, ∀ l ∈ c, l.Valid) → Call.harmless env cs s = true →
    Call.run env cs s r = .ok (s', r') → Solver.IncrOpen env (F ++ Call.clauses cs) s'
  | [], F, s, s', r, r', h, _, _, e => by cases e; simpa [Call.clauses] using h
  | .add c :: cs, F, s, s', r, r', h, hc, hs, e => by
    simp only [Call.run] at e
    obtain ⟨s1, e1, e⟩ := bind_eq_ok.1 e
    simp only [Call.harmless, e1, Bool.and_eq_true] at hs
    simp only [Call.clauses, List.mem_cons, forall_eq_or_imp] at hc
    have := Solver.IncrOpen.run (h.add hc.1 (safeAddB_spec hs.1) e1) hc.2 hs.2 e
    simpa [Call.clauses] using this
  | .solve k :: cs, F, s, s', r, r', h, hc, hs, e => by
    simp only [Call.run] at e
    obtain ⟨⟨s1, r1⟩, e1, e⟩ := bind_eq_ok.1 e
    simp only [Call.harmless, e1, Bool.and_eq_true, bne_iff_ne, ne_eq] at hs
    simp only [Call.clauses] at hc ⊢
    exact Solver.IncrOpen.run (cs := cs) (h.solve e1 hs.1) hc hs.2 e

/-- Two calls of `solve()`, the second after adding four clauses with new variables. -/
def Example.proofCalls : List Call :=
  (Example.unsat3.eraseIdx 4).map (fun c => Call.add (c.map Example.lit)) ++
    [.solve 20, .add [Example.lit 4, Example.lit 5], .add [Example.lit 4, Example.lit (-5)],
     .add [Example.lit (-4), Example.lit 5], .add [Example.lit (-4), Example.lit (-5)], .solve 20]

theorem Example.proofCalls_run :
    (∀ c ∈ Call.clauses Example.proofCalls, ∀ l ∈ c, l.Valid) ∧
    (Call.run Example.env (Example.proofCalls.take 8) (Solver.default Example.env).writeProof none).map
      (fun x => x.2) = .ok (some true) ∧
    Call.harmless Example.env (Example.proofCalls.take 12) (Solver.default Example.env).writeProof = true ∧
    (Call.run Example.env (Example.proofCalls.take 12) (Solver.default Example.env).writeProof none).map
      (fun x => x.1.ctx.proof) = .ok (
        some [.add [Example.lit 3, Example.lit 1], .add [Example.lit 1], .add [Example.lit (-3)]]) ∧
    (Call.run Example.env Example.proofCalls (Solver.default Example.env).writeProof none).map
      (fun x => (x.2, x.1.ctx.proof)) = .ok (some false, some [.add [Example.lit 3, Example.lit 1],
        .add [Example.lit 1], .add [Example.lit (-3)], .add [Example.lit 4]]) := by
  refine ⟨?_, by decide +kernel, by decide +kernel, by decide +kernel, by decide +kernel⟩
  unfold Lit.Valid
  decide +kernel

/-- The hypotheses of C61 are met: the log has three lines of a first call of `solve()`, which answers `true`,
and one line of a second call, which answers `false`. -/
theorem C61_example : ∃ s s', Solver.IncrOpen Example.env (Call.clauses Example.proofCalls) s ∧
    s.solve Example.env 20 = .ok (s', some false) ∧
    s.ctx.proof = some [.add [Example.lit 3, Example.lit 1], .add [Example.lit 1],
      .add [Example.lit (-3)]] ∧
    s'.ctx.proof = some [.add [Example.lit 3, Example.lit 1], .add [Example.lit 1],
      .add [Example.lit (-3)], .add [Example.lit 4]] ∧
    DratCheck.check ((Call.clauses Example.proofCalls).map (List.map Lit.dimacs))
      [⟨false, [3, 1]⟩, ⟨false, [1]⟩, ⟨false, [-3]⟩, ⟨false, [4]⟩] = true ∧
    DratCheck.check ((Call.clauses Example.proofCalls).map (List.map Lit.dimacs))
      [⟨false, [3, 1]⟩, ⟨false, [1]⟩, ⟨false, [-3]⟩] = false := by
  obtain ⟨hv, _, hs, h1, h2⟩ := Example.proofCalls_run
  cases e1 : Call.run Example.env (Example.proofCalls.take 12) (Solver.default Example.env).writeProof none with
  | error err => rw [e1] at h1; simp [Except.map] at h1
  | ok x =>
    obtain ⟨s, r⟩ := x
    rw [e1] at h1
    simp only [Except.map, Except.ok.injEq, Prod.mk.injEq] at h1
    have e0 : Example.proofCalls = Example.proofCalls.take 12 ++ [Call.solve 20] := rfl
    have e2 := Call.run_append (env := Example.env) (Example.proofCalls.take 12) [Call.solve 20]
      (Solver.default Example.env).writeProof none
    rw [← e0, e1, bind_ok] at e2
    rw [e2] at h2
    simp only [Call.run] at h2
    cases e3 : s.solve Example.env 20 with
    | error err => rw [e3] at h2; simp [Except.map, Bind.bind, Except.bind] at h2
    | ok y =>
      obtain ⟨s', r'⟩ := y
      rw [e3] at h2
      simp only [bind_ok, Except.map, pure_eq, Except.ok.injEq, Prod.mk.injEq] at h2
      have hr := (Solver.IncrOpen.input (env := Example.env) (.proof .new)).run (cs := Example.proofCalls.take 12)
        hv hs e1
      exact ⟨s, s', hr, h2.1 ▸ e3, h1, h2.2, by decide +kernel, by decide +kernel⟩

end

end Starlit
