import Verif.Solver.Solve

/-!
# The proof log of whole runs
-/

namespace Starlit

/-- The proof log only grows, and only when a writer is attached. -/
def LogExt (p p' : Option (List ProofStep)) : Prop :=
  (p = none → p' = none) ∧ ∀ log, p = some log → ∃ new, p' = some (log ++ new)

theorem LogExt.refl (p : Option (List ProofStep)) : LogExt p p :=
  ⟨fun h => h, fun log h => ⟨[], by simpa using h⟩⟩

theorem LogExt.of_eq {p p' : Option (List ProofStep)} (h : p' = p) : LogExt p p' := h ▸ .refl p

theorem LogExt.trans {p q r : Option (List ProofStep)} (h : LogExt p q) (h' : LogExt q r) :
    LogExt p r := by
  refine ⟨fun e => h'.1 (h.1 e), fun log e => ?_⟩
  obtain ⟨n1, e1⟩ := h.2 log e
  obtain ⟨n2, e2⟩ := h'.2 _ e1
  exact ⟨n1 ++ n2, by rw [e2, List.append_assoc]⟩

theorem LogExt.logProof (ctx : Ctx) (x : ProofStep) : LogExt ctx.proof (ctx.logProof x).proof := by
  unfold Ctx.logProof
  refine ⟨fun h => by rw [h]; rfl, fun log h => ⟨[x], by rw [h]; rfl⟩⟩

theorem logDelete_log {ctx ctx' : Ctx} {a : Arena} {c : Nat} (h : logDelete ctx a c = .ok ctx') :
    LogExt ctx.proof ctx'.proof := by
  unfold logDelete at h
  split at h
  · obtain ⟨ls, _, h⟩ := bind_eq_ok.1 h
    cases h
    exact LogExt.logProof _ _
  · cases h
    exact .refl _

theorem deleteLoop_log : ∀ (ds : List (Nat × Nat)) {ctx ctx' : Ctx} {a a' : Arena},
    deleteLoop ds ctx a = .ok (ctx', a') → LogExt ctx.proof ctx'.proof
  | [], ctx, ctx', a, a', h => by
    simp only [deleteLoop, pure_eq, Except.ok.injEq, Prod.mk.injEq] at h
    exact h.1 ▸ .refl _
  | (x, c) :: ds, ctx, ctx', a, a', h => by
    simp only [deleteLoop] at h
    split at h
    · simp [throw_eq] at h
    · obtain ⟨ctx1, h1, h⟩ := bind_eq_ok.1 h
      obtain ⟨a1, _, h⟩ := bind_eq_ok.1 h
      exact (logDelete_log h1).trans (deleteLoop_log ds h)

theorem reduce_log {env : Env} {ctx ctx' : Ctx} {s s' : Search}
    (h : reduce env ctx s = .ok (ctx', s')) : LogExt ctx.proof ctx'.proof := by
  unfold reduce at h
  simp only at h
  obtain ⟨a1, _, h⟩ := bind_eq_ok.1 h
  obtain ⟨⟨a2, cands⟩, _, h⟩ := bind_eq_ok.1 h
  obtain ⟨⟨ctx2, a3⟩, h3, h⟩ := bind_eq_ok.1 h
  obtain ⟨a4, _, h⟩ := bind_eq_ok.1 h
  simp only [pure_eq, Except.ok.injEq, Prod.mk.injEq] at h
  have := deleteLoop_log _ h3
  rw [← h.1]
  exact this

section
variable {env : Env} {n : Nat} {F : DB} {s s' : Solver}

theorem StepPost.log {L L' : DB} {S S' : List LC} {ctx ctx' : Ctx} {s s' : Search} {r : Option Bool}
    (q : StepPost env n F L S ctx s L' S' ctx' s' r) : LogExt ctx.proof ctx'.proof := by
  cases q with
  | already => exact .refl _
  | fail _ _ _ _ h => exact .of_eq h
  | learn _ _ _ _ h a =>
    rw [a.proof, ← h]
    exact LogExt.logProof _ _
  | decide _ _ _ _ _ _ _ h => exact .of_eq h
  | sat _ _ _ _ _ h => exact .of_eq h

/-- The log of a reachable state extends that of an earlier one. -/
theorem maybeRestart_log (e : s.maybeRestart = .ok s') (h : SolverInv env n F s) :
    LogExt s.ctx.proof s'.ctx.proof := by
  obtain ⟨L, S, h⟩ := h
  obtain ⟨s1, e1, _, hr⟩ := maybeRestart_spec h
  cases e.symm.trans e1
  rcases hr with ⟨_, rfl⟩ | ⟨_, hr, _⟩
  · exact .refl _
  · obtain ⟨ctx', s', e2, _, hc, _⟩ := restart_spec h
    rw [hr] at e2
    simp only [Except.ok.injEq, Prod.mk.injEq] at e2
    rw [e2.1, hc]
    exact .refl _

theorem maybeReduce_log (e : s.maybeReduce env = .ok s') (h : SolverInv env n F s) :
    LogExt s.ctx.proof s'.ctx.proof := by
  obtain ⟨L, S, h⟩ := h
  obtain ⟨s1, e1, _, hr⟩ := maybeReduce_spec h
  cases e.symm.trans e1
  rcases hr with ⟨_, rfl⟩ | ⟨_, hr, _⟩
  · exact .refl _
  · exact reduce_log hr

theorem scheduleStep_log {r : Option Bool} (h : SolverInv env n F s)
    (e : s.scheduleStep env = .ok (s', r)) : LogExt s.ctx.proof s'.ctx.proof := by
  obtain ⟨s1, s2, ctx, search, e1, e2, e3, rfl⟩ := Solver.scheduleStep_eq e
  have hs := h
  obtain ⟨L, S, h⟩ := h
  obtain ⟨_, q1, h1, _⟩ := maybeRestart_spec h
  cases e1.symm.trans q1
  obtain ⟨_, q2, ⟨L2, S2, h2⟩, _⟩ := maybeReduce_spec h1
  cases e2.symm.trans q2
  obtain ⟨_, _, _, q⟩ := (searchStep_spec h2).ok_elim e3
  exact ((maybeRestart_log e1 hs).trans (maybeReduce_log e2 ⟨L, S, h1⟩)).trans q.log

theorem solve_log : ∀ {k : Nat} {s s' : Solver} {r : Option Bool}, SolverInv env n F s →
    s.solve env k = .ok (s', r) → LogExt s.ctx.proof s'.ctx.proof
  | 0, s, s', r, h, e => by
    simp only [Solver.solve, pure_eq, Except.ok.injEq, Prod.mk.injEq] at e
    exact e.1 ▸ .refl _
  | k + 1, s, s', r, h, e => by
    simp only [Solver.solve] at e
    obtain ⟨⟨s1, r1⟩, e1, e⟩ := bind_eq_ok.1 e
    have l1 := scheduleStep_log h e1
    have h1 := (scheduleStep_spec h).ok_elim e1
    cases r1 with
    | some b =>
      simp only [pure_eq, Except.ok.injEq, Prod.mk.injEq] at e
      exact e.1 ▸ l1
    | none => exact l1.trans (solve_log h1 e)

/-- Before the answer "unsatisfiable" is given, the formula was found unsatisfiable only if that
happened while adding clauses. -/
def Pending (F L : DB) (s : Solver) : Prop :=
  s.search.prop.unsat = true → L = 0 ∧ UpConflict (F + 0) (fun _ => False)

/-- Up to the first answer, unit propagation refutes the final clause set of the proof. -/
theorem solve_refuted : ∀ {k : Nat} {s s' : Solver} {L : DB} {S : List LC},
    SInv env n F L S s.ctx s.search → Pending F L s → s.solve env k = .ok (s', some false) →
    ∃ log L', Accepted F log L' ∧ (s'.ctx.proof = none ∨ s'.ctx.proof = some log) ∧
      UpConflict (F + L') (fun _ => False)
  | 0, s, s', L, S, _, _, e => by
    simp only [Solver.solve, pure_eq, Except.ok.injEq, Prod.mk.injEq] at e
    simp at e
  | k + 1, s, s', L, S, h, hp, e => by
    simp only [Solver.solve] at e
    obtain ⟨⟨s3, r1⟩, e1, e⟩ := bind_eq_ok.1 e
    obtain ⟨s1, s2, ctx, search, q1, q2, q3, rfl⟩ := Solver.scheduleStep_eq e1
    -- restart
    obtain ⟨_, q, h1, hr⟩ := maybeRestart_spec h
    cases q1.symm.trans q
    have hp1 : Pending F L s1 := by
      rcases hr with ⟨_, rfl⟩ | ⟨_, hr, _⟩
      · exact hp
      · obtain ⟨ctx', sx, e2, _, _, _, _, hx⟩ := restart_spec h
        rw [hr] at e2
        simp only [Except.ok.injEq, Prod.mk.injEq] at e2
        obtain ⟨_, rfl⟩ := e2
        intro hu
        apply hp
        rcases hx with ⟨_, e2⟩ | ⟨_, _, b⟩
        · rw [← e2]; exact hu
        · rw [← b.unsat]; exact hu
    -- reduction
    obtain ⟨L2, S2, h2, hp2⟩ : ∃ L2 S2, SInv env n F L2 S2 s2.ctx s2.search ∧ Pending F L2 s2 := by
      obtain ⟨_, q, ⟨L2, S2, h2⟩, hr⟩ := maybeReduce_spec h1
      cases q2.symm.trans q
      rcases hr with ⟨_, rfl⟩ | ⟨_, hr, _⟩
      · exact ⟨L, S, h1, hp1⟩
      · obtain ⟨ctx', sx, L', D, S', e2, h', p, _⟩ := reduce_inv h1
        rw [hr] at e2
        simp only [Except.ok.injEq, Prod.mk.injEq] at e2
        obtain ⟨rfl, rfl⟩ := e2
        refine ⟨L', S', h', ?_⟩
        intro hu
        obtain ⟨a, ea⟩ := p.eq
        rw [ea] at hu
        obtain ⟨hL, hup⟩ := hp1 hu
        obtain ⟨K, hK, _⟩ := p.del.split
        rw [hL] at hK
        refine ⟨?_, hup⟩
        have := congrArg Multiset.card hK
        rw [Multiset.card_add, Multiset.card_zero] at this
        exact Multiset.card_eq_zero.1 (by omega)
    -- step
    obtain ⟨L3, S3, h3, q⟩ := (searchStep_spec h2).ok_elim q3
    cases r1 with
    | none =>
      refine solve_refuted (S := S3) h3 ?_ e
      generalize hr : (none : Option Bool) = r at q
      cases q with
      | already => simp at hr
      | fail => simp at hr
      | learn hu ph _ _ _ a =>
        intro hu'
        simp only [a.unsat, ph.unsat, hu] at hu'
        simp at hu'
      | decide hu ph =>
        intro hu'
        simp only [ph.unsat, hu] at hu'
        simp at hu'
      | sat => simp at hr
    | some b =>
      simp only [pure_eq, Except.ok.injEq, Prod.mk.injEq, Option.some.injEq] at e
      obtain ⟨rfl, rfl⟩ := e
      obtain ⟨log, l1, l2, _⟩ := h3.proof
      refine ⟨log, L3, l1, l2, ?_⟩
      generalize hr : some false = r at q
      cases q with
      | already hu =>
        obtain ⟨hL, hup⟩ := hp2 hu
        rw [hL]; exact hup
      | fail hu ph h0 =>
        exact ph.inv.upConflict (ph.db F L2 h2.db) (ph.conflict _ rfl) h0
      | learn => simp at hr
      | decide => simp at hr
      | sat => simp at hr

theorem Solver.Input.pending {cs : List (List Lit)} (h : Solver.Input env cs s) :
    ∃ S, SInv env (formulaVars cs) (toDB cs) 0 S s.ctx s.search ∧ Pending (toDB cs) 0 s := by
  obtain ⟨S, h⟩ := h.inv
  exact ⟨S, h.sinv, fun hu => ⟨rfl, h.refuted hu⟩⟩

end

/-! ## Reading accepted logs -/

/-- The clauses added by a log. -/
def addedClauses : List ProofStep → DB
  | [] => 0
  | .add c :: log => (c : Multiset Lit) ::ₘ addedClauses log
  | .delete _ :: log => addedClauses log

/-- The clauses deleted by a log. -/
def deletedClauses : List ProofStep → DB
  | [] => 0
  | .add _ :: log => deletedClauses log
  | .delete c :: log => (c : Multiset Lit) ::ₘ deletedClauses log

theorem addedClauses_append (a b : List ProofStep) :
    addedClauses (a ++ b) = addedClauses a + addedClauses b := by
  induction a with
  | nil => simp [addedClauses]
  | cons x a ih => cases x <;> simp [addedClauses, ih]

theorem deletedClauses_append (a b : List ProofStep) :
    deletedClauses (a ++ b) = deletedClauses a + deletedClauses b := by
  induction a with
  | nil => simp [deletedClauses]
  | cons x a ih => cases x <;> simp [deletedClauses, ih]

theorem Accepted.balance {F : DB} {log : List ProofStep} {L : DB} (h : Accepted F log L) :
    addedClauses log = L + deletedClauses log := by
  induction h with
  | nil => rfl
  | add _ _ _ ih =>
    rw [addedClauses_append, deletedClauses_append, ih]
    simp only [addedClauses, deletedClauses]
    rw [Multiset.add_cons, Multiset.add_zero, Multiset.cons_add, Multiset.add_zero]
  | delete _ _ ih =>
    rw [addedClauses_append, deletedClauses_append, ih]
    simp only [addedClauses, deletedClauses]
    rw [Multiset.add_cons, Multiset.add_cons, Multiset.add_zero, Multiset.add_zero,
      Multiset.cons_add]

/-- Accepted logs split into accepted logs. -/
theorem Accepted.split {F : DB} {log : List ProofStep} {L : DB} (h : Accepted F log L) :
    ∀ (pre post : List ProofStep) (x : ProofStep), log = pre ++ x :: post →
      ∃ L1, Accepted F pre L1 ∧ match x with
        | .add c => RUP (F + L1) (c : Multiset Lit)
        | .delete c => (c : Multiset Lit) ∈ L1 ∧ 3 ≤ c.length := by
  induction h with
  | nil => intro pre post x e; simp at e
  | @add log L c ha hr _ ih =>
    intro pre post x e
    rcases List.eq_nil_or_concat post with rfl | ⟨post', y, rfl⟩
    · obtain ⟨rfl, e2⟩ := List.append_inj' e rfl
      cases e2
      exact ⟨L, ha, hr⟩
    · rw [List.concat_eq_append, ← List.cons_append, ← List.append_assoc] at e
      exact ih pre post' x (List.append_inj' e rfl).1
  | @delete log L c ha hl ih =>
    intro pre post x e
    rcases List.eq_nil_or_concat post with rfl | ⟨post', y, rfl⟩
    · obtain ⟨rfl, e2⟩ := List.append_inj' e rfl
      cases e2
      exact ⟨_, ha, Multiset.mem_cons_self _ _, hl⟩
    · rw [List.concat_eq_append, ← List.cons_append, ← List.append_assoc] at e
      exact ih pre post' x (List.append_inj' e rfl).1

end Starlit
