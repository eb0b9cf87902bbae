import Verif.Props.Sync

/-!
# C75: propagation computes the closure under unit propagation

C07 says that the literals assigned by `propagate()` follow by unit propagation, C08 that no unit clause is missed.
Together with C59 and C63 this gives a description of the result that does not mention the solver's data
structures: the clauses are those of the proof checker, `toDB F + (addedClauses log - deletedClauses log)`, the
assumptions are the decisions, and `propagate()` reports a conflict if and only if unit propagation falsifies a
clause; if it does not, the literals assigned are exactly those derived by unit propagation.  The order of clauses,
watches, literals, and the trail has no influence.
-/

namespace Starlit

/-- The clauses of a checker that has read the formula and the proof. -/
def checkerDB (F : List (List Lit)) (log : List ProofStep) : DB :=
  toDB F + (addedClauses log - deletedClauses log)

/-- The literals assigned as decisions. -/
def Solver.Decided (s : Solver) (l : Lit) : Prop :=
  ∃ st ∈ s.search.prop.trail.steps, st.reason = .decision ∧ st.lit = l

theorem mem_addedClauses {log : List ProofStep} {c : Multiset Lit} (h : c ∈ addedClauses log) :
    ∃ pre post, ∃ d : List Lit, log = pre ++ .add d :: post ∧ c = (d : Multiset Lit) := by
  induction log with
  | nil => simp [addedClauses] at h
  | cons x log ih =>
    cases x with
    | add d =>
      rcases Multiset.mem_cons.1 h with rfl | h
      · exact ⟨[], log, d, rfl, rfl⟩
      · obtain ⟨pre, post, d', rfl, rfl⟩ := ih h
        exact ⟨.add d :: pre, post, d', rfl, rfl⟩
    | delete d =>
      obtain ⟨pre, post, d', rfl, rfl⟩ := ih h
      exact ⟨.delete d :: pre, post, d', rfl, rfl⟩

section
variable {env : Env} {F : List (List Lit)} {s : Solver} {p1 p : PropState} {ctx : Ctx} {r : Option ConflictClause}

/-- What the checker's clauses are for the solver in the middle of `search_step`. -/
theorem Solver.Propagating.checker (h : Solver.Propagating env F s p1 ctx p r) {log : List ProofStep}
    (hl : s.ctx.proof = some log) {c : Multiset Lit} (hc : c ∈ checkerDB F log) :
    Stored p c ∨ ∃ a, c = {a} ∧ ∃ st ∈ p.trail.steps, st.lit = a := by
  obtain ⟨L, S, S2, hi, q⟩ := h.phase
  have hu := C63_unit h.reach hl
  rcases Nat.lt_or_ge c.card 2 with h2 | h2
  · rcases Nat.lt_or_ge c.card 1 with h1 | h1
    · obtain rfl := Multiset.card_eq_zero.1 (show c.card = 0 by omega)
      exfalso
      rcases Multiset.mem_add.1 hc with hc | hc
      · have := hi.db.fempty hc
        rw [h.unsat] at this; cases this
      · obtain ⟨pre, post, d, e, e'⟩ := mem_addedClauses (Multiset.mem_of_le (Multiset.sub_le_self _ _) hc)
        have := (C59_new h.reach hl pre post d e).1
        rw [eq_comm, Multiset.coe_eq_zero] at e'
        exact this e'
    · obtain ⟨a, rfl⟩ := Multiset.card_eq_one.1 (show c.card = 1 by omega)
      obtain ⟨st, k1, k2, _⟩ := hu.1 h.unsat a hc
      obtain ⟨ρ, new, e, _⟩ := q.steps
      exact .inr ⟨a, rfl, st.ren ρ, by rw [e]; exact List.mem_append_left _ (List.mem_map_of_mem k1), k2⟩
  · left
    have hs := (C63_same h.reach hl h2).2 hc
    obtain ⟨L', S', hi'⟩ := h.reach.freshInv
    have hL := (learned_of_log hi'.inv hl).symm.trans (learned_of_log hi hl)
    obtain rfl := hL
    have d := q.db _ _ hi.db
    have hm : c ∈ toDB F + L' := by
      have := hc
      rw [checkerDB, learned_of_log hi hl] at this
      exact this
    rcases Nat.lt_or_ge c.card 3 with hlt | hge
    · obtain ⟨a, b, rfl⟩ := Multiset.card_eq_two.1 (show c.card = 2 by omega)
      rcases Multiset.mem_add.1 hm with hm | hm
      · obtain ⟨bs, k1, k2⟩ := d.fbin a b hm
        exact .binary k1 k2
      · obtain ⟨bs, k1, k2⟩ := hi'.small.bin a b hm
        exact .binary (by rw [q.binary]; exact k1) k2
    · have hlong : ∀ e ∈ S2, e.live = true → Stored p e.cl := fun e he hl =>
        .long (q.inv.rep.storedAt_iff.2 ⟨e, he, hl, rfl, rfl, rfl⟩)
      rcases Multiset.mem_add.1 hm with hm | hm
      · obtain ⟨e, he, hl, rfl⟩ := d.stored hm hge
        exact hlong e he hl
      · have : c ∈ liveRed S2 := by rw [d.red]; exact Multiset.mem_filter.2 ⟨hm, hge⟩
        obtain ⟨_, e, he, hl, rfl⟩ := card_of_live q.inv.long (.inr this)
        exact hlong e he hl

/-- Everything assigned follows from the decisions. -/
theorem Solver.Propagating.derived (h : Solver.Propagating env F s p1 ctx p r) {log : List ProofStep}
    (hl : s.ctx.proof = some log) : ∀ st ∈ p.trail.steps, Implied (checkerDB F log) s.Decided st.lit := by
  obtain ⟨L, S, S2, hi, q⟩ := h.phase
  intro st hst
  obtain ⟨i, hs⟩ := List.mem_iff_getElem?.1 hst
  have d := q.db _ _ hi.db
  rw [checkerDB, learned_of_log hi hl]
  refine (q.inv.implied d i hs).mono (fun _ h => h) ?_
  rintro l ⟨t, ht, hr, _, rfl⟩
  obtain ⟨ρ, new, e, hn⟩ := q.steps
  rw [e] at ht
  rcases List.mem_append.1 ht with ht | ht
  · obtain ⟨u, hu, rfl⟩ := List.mem_map.1 ht
    refine .asm ⟨u, hu, ?_, rfl⟩
    unfold Step.ren at hr
    cases hx : u.reason <;> simp [hx, Reason.ren] at hr ⊢
  · exact absurd hr (hn t ht).2.2

/-- C75, everything assigned: a literal assigned after `propagate()`, with or without a conflict, is derived by
unit propagation from the decisions and the clauses of the proof checker. -/
theorem C75_sound (h : Solver.Propagating env F s p1 ctx p r) {log : List ProofStep} (hl : s.ctx.proof = some log)
    {l : Lit} (hv : p.values.value l = .ok (some true)) : Implied (checkerDB F log) s.Decided l := by
  obtain ⟨L, S, S2, hi, q⟩ := h.phase
  have hx : p.values.val l = some true := by
    by_cases hlt : l.index < p.values.assigned.length
    · rw [PartialAssignment.value_eq hlt] at hv; exact Except.ok.inj hv
    · unfold PartialAssignment.value at hv
      obtain ⟨x, h1, _⟩ := bind_eq_ok.1 hv
      rw [idx_eq_ok] at h1
      exact absurd (List.getElem?_eq_some_iff.1 h1).1 hlt
  obtain ⟨st, h1, rfl⟩ := (q.inv.trail.val_iff l).1 hx
  exact h.derived hl st h1

/-- C75, nothing missed: without a conflict, every literal that is derived by unit propagation is assigned. -/
theorem C75_complete (h : Solver.Propagating env F s p1 ctx p none) {log : List ProofStep}
    (hl : s.ctx.proof = some log) {l : Lit}
    (hi : Implied (checkerDB F log) s.Decided l) : p.values.value l = .ok (some true) := by
  obtain ⟨L, S, S2, hi', q⟩ := h.phase
  have ontrail : ∀ st ∈ p.trail.steps, p.values.value st.lit = .ok (some true) := by
    intro st hst
    rw [q.inv.value (q.inv.trail.idx_lt st hst), (q.inv.trail.val_iff st.lit).2 ⟨st, hst, rfl⟩]
  induction hi with
  | @asm l ha =>
    obtain ⟨u, hu, _, rfl⟩ := ha
    obtain ⟨ρ, new, e, hn⟩ := q.steps
    exact ontrail (u.ren ρ) (by rw [e]; exact List.mem_append_left _ (List.mem_map_of_mem hu))
  | @unit l R hm _ ih =>
    rcases h.checker hl hm with hc | ⟨a, e, st, h1, h2⟩
    · have hfalse : ∀ o ∈ R, p.values.value o = .ok (some false) := by
        intro o ho
        have hidx := q.inv.stored_idx hc o (Multiset.mem_cons_of_mem ho)
        have := ih o ho
        rw [q.inv.value (by rw [Lit.index_neg]; exact hidx), PartialAssignment.val_neg q.inv.trail.vwf] at this
        rw [q.inv.value hidx]
        cases hx : p.values.val o with
        | none => rw [hx] at this; cases this
        | some b => rw [hx] at this; cases b <;> simp_all
      rcases C08_pair h hc with ⟨x, hx, hv⟩ | ⟨a, b, R', hab, va, vb⟩
      · rcases Multiset.mem_cons.1 hx with rfl | hx
        · exact hv
        · rw [hfalse x hx] at hv; cases hv
      · exfalso
        rcases Multiset.cons_eq_cons.1 hab with ⟨rfl, rfl⟩ | ⟨_, cs, rfl, _⟩
        · rw [hfalse b (Multiset.mem_cons_self _ _)] at vb; cases vb
        · rw [hfalse a (Multiset.mem_cons_self _ _)] at va; cases va
    · have hla : l = a := by
        have : l ∈ ({a} : Multiset Lit) := by rw [← e]; simp
        exact Multiset.mem_singleton.1 this
      rw [hla, ← h2]
      exact ontrail st h1

/-- C75, conflicts: `propagate()` reports a conflict if and only if unit propagation from the decisions falsifies a
clause of the proof checker. -/
theorem C75_conflict (h : Solver.Propagating env F s p1 ctx p r) {log : List ProofStep} (hl : s.ctx.proof = some log) :
    r ≠ none ↔ UpConflict (checkerDB F log) s.Decided := by
  obtain ⟨L, S, S2, hi, q⟩ := h.phase
  constructor
  · intro hr
    obtain ⟨c, rfl⟩ := Option.ne_none_iff_exists'.1 hr
    obtain ⟨ls, _, h2, h3, h4⟩ := q.inv.conflict (q.db _ _ hi.db) (q.conflict c rfl)
    refine ⟨ls, by rw [checkerDB, learned_of_log hi hl]; exact h4, ?_⟩
    intro o ho
    obtain ⟨st, k1, k2⟩ := h2 o (by simpa using ho)
    rw [← k2]
    exact h.derived hl st k1
  · rintro ⟨K, hK, hall⟩ rfl
    have hall : ∀ o ∈ K, p.values.value o.neg = .ok (some true) := fun o ho => C75_complete h hl (hall o ho)
    have hneg : ∀ o ∈ K, o.index < formulaVars F → p.values.value o = .ok (some false) := by
      intro o ho hidx
      have := hall o ho
      rw [q.inv.value (by rw [Lit.index_neg]; exact hidx), PartialAssignment.val_neg q.inv.trail.vwf] at this
      rw [q.inv.value hidx]
      cases hx : p.values.val o with
      | none => rw [hx] at this; cases this
      | some b => rw [hx] at this; cases b <;> simp_all
    rcases h.checker hl hK with hc | ⟨a, rfl, st, h1, h2⟩
    · obtain ⟨x, hx, hv⟩ := (C08_complete h hc).1
      exact hv (hneg x hx (q.inv.stored_idx hc x hx))
    · have hidx := q.inv.trail.idx_lt st h1
      have hv := hneg a (Multiset.mem_singleton_self a) (by rw [← h2]; exact hidx)
      rw [← h2, q.inv.value hidx, (q.inv.trail.val_iff st.lit).2 ⟨st, h1, rfl⟩] at hv
      cases hv

/-- C75: the result of `propagate()` is determined by the clauses and the decisions.  Let two runs, with any
environments and formulas, reach states with the same clauses (as sets) and the same
decisions (in any order).  Then both calls report a conflict or none does, and if none does, the same literals are
true. -/
theorem C75_determined {env' : Env} {F' : List (List Lit)} {s' : Solver} {p1' p' : PropState} {ctx' : Ctx}
    {r' : Option ConflictClause} (h : Solver.Propagating env F s p1 ctx p r)
    (h' : Solver.Propagating env' F' s' p1' ctx' p' r') {log log' : List ProofStep} (hl : s.ctx.proof = some log)
    (hl' : s'.ctx.proof = some log')
    (hc : ∀ c, c ∈ checkerDB F log ↔ c ∈ checkerDB F' log') (hd : ∀ l, s.Decided l ↔ s'.Decided l) :
    (r = none ↔ r' = none) ∧
      (r = none → ∀ l, p.values.value l = .ok (some true) ↔ p'.values.value l = .ok (some true)) := by
  have e1 : ∀ l, Implied (checkerDB F log) s.Decided l → Implied (checkerDB F' log') s'.Decided l :=
    fun l => Implied.mono (fun c => (hc c).1) (fun l hl => .asm ((hd l).1 hl))
  have e2 : ∀ l, Implied (checkerDB F' log') s'.Decided l → Implied (checkerDB F log) s.Decided l :=
    fun l => Implied.mono (fun c => (hc c).2) (fun l hl => .asm ((hd l).2 hl))
  have hr : r = none ↔ r' = none := by
    have k1 := C75_conflict h hl
    have k2 := C75_conflict h' hl'
    rw [← not_iff_not, ← ne_eq, ← ne_eq, k1, k2]
    exact ⟨UpConflict.mono (fun c => (hc c).1) (fun l hl => .asm ((hd l).1 hl)),
      UpConflict.mono (fun c => (hc c).2) (fun l hl => .asm ((hd l).2 hl))⟩
  refine ⟨hr, ?_⟩
  intro h0 l
  have h0' := hr.1 h0
  subst h0; subst h0'
  exact ⟨fun hv => C75_complete h' hl' (e1 l (C75_sound h hl hv)),
    fun hv => C75_complete h hl (e2 l (C75_sound h' hl' hv))⟩

end

/-! ## Concrete cases -/

/-- What the examples look at: the proof, the decisions, the trail, and whether there is a conflict. -/
def closureView (F : List (List Int)) (k : Nat) : M (Option (List ProofStep) × List (Nat × Bool) × List Lit × Bool) :=
  (Example.mid F k).map fun x => (x.1.ctx.proof,
    x.1.search.prop.trail.steps.map (fun t => (t.lit.code, t.reason == .decision)),
    x.2.2.2.1.trail.steps.map Step.lit, x.2.2.2.2.isSome)

theorem decided_of_view {s : Solver} {v : List (Nat × Bool)}
    (h : s.search.prop.trail.steps.map (fun t => (t.lit.code, t.reason == .decision)) = v) (l : Lit) :
    s.Decided l ↔ (l.code, true) ∈ v := by
  rw [← h, List.mem_map]
  constructor
  · rintro ⟨st, h1, h2, rfl⟩
    exact ⟨st, h1, by rw [h2]; rfl⟩
  · rintro ⟨st, h1, h2⟩
    rw [Prod.mk.injEq] at h2
    exact ⟨st, h1, by simpa using h2.2, Lit.code_inj.1 h2.1⟩

theorem checkerDB_reverse (F : List (List Int)) (c : Multiset Lit) :
    c ∈ checkerDB (Example.cnf F) [] ↔ c ∈ checkerDB (Example.cnf F.reverse) [] := by
  simp [checkerDB, toDB, Example.cnf, addedClauses]

/-- The hypotheses of C75 are met, without and with a conflict: for the pigeonhole formula and the same formula
with the clauses in reverse order, `propagate()` is reached with the same clauses and decisions.  The assignments
are made in different orders. -/
theorem C75_example :
    (∃ s p1 ctx p s' p1' ctx' p', Solver.Propagating Example.env (Example.cnf (Example.php 4 3)) s p1 ctx p none ∧
      Solver.Propagating Example.env (Example.cnf (Example.php 4 3).reverse) s' p1' ctx' p' none ∧
      s.ctx.proof = some [] ∧ s'.ctx.proof = some [] ∧
      (∀ c, c ∈ checkerDB (Example.cnf (Example.php 4 3)) [] ↔
        c ∈ checkerDB (Example.cnf (Example.php 4 3).reverse) []) ∧
      (∀ l, s.Decided l ↔ s'.Decided l) ∧
      p.trail.steps.map Step.lit = [-1, -12, -11, 10, -4, -7].map Example.lit ∧
      p'.trail.steps.map Step.lit = [-1, -12, -11, 10, -7, -4].map Example.lit) ∧
    ∃ s p1 ctx p c s' p1' ctx' p' c',
      Solver.Propagating Example.env (Example.cnf (Example.php 4 3)) s p1 ctx p (some c) ∧
      Solver.Propagating Example.env (Example.cnf (Example.php 4 3).reverse) s' p1' ctx' p' (some c') ∧
      s.ctx.proof = some [] ∧ s'.ctx.proof = some [] ∧ (∀ l, s.Decided l ↔ s'.Decided l) := by
  have h1 : closureView (Example.php 4 3) 3 = .ok (some [], [(0, true), (22, true), (20, true)],
      [-1, -12, -11, 10, -4, -7].map Example.lit, false) := by decide +kernel
  have h2 : closureView (Example.php 4 3).reverse 3 = .ok (some [], [(0, true), (22, true), (20, true)],
      [-1, -12, -11, 10, -7, -4].map Example.lit, false) := by decide +kernel
  have h3 : closureView (Example.php 4 3) 4 = .ok (some [], [(0, true), (22, true), (20, true), (19, false),
      (6, false), (12, false), (16, true)],
      [-1, -12, -11, 10, -4, -7, -9, 8, -2, -5, 3, 6].map Example.lit, true) := by decide +kernel
  have h4 : closureView (Example.php 4 3).reverse 4 = .ok (some [], [(0, true), (22, true), (20, true), (19, false),
      (12, false), (6, false), (16, true)],
      [-1, -12, -11, 10, -7, -4, -9, 8, -5, -2, 6, 3].map Example.lit, true) := by decide +kernel
  obtain ⟨⟨s1, p11, ctx1, p1, r1⟩, k1, e1⟩ := Example.of_map h1
  obtain ⟨⟨s2, p12, ctx2, p2, r2⟩, k2, e2⟩ := Example.of_map h2
  obtain ⟨⟨s3, p13, ctx3, p3, r3⟩, k3, e3⟩ := Example.of_map h3
  obtain ⟨⟨s4, p14, ctx4, p4, r4⟩, k4, e4⟩ := Example.of_map h4
  simp only [Prod.mk.injEq] at e1 e2 e3 e4
  obtain ⟨a1, b1, c1, d1⟩ := e1
  obtain ⟨a2, b2, c2, d2⟩ := e2
  obtain ⟨a3, b3, c3, d3⟩ := e3
  obtain ⟨a4, b4, c4, d4⟩ := e4
  cases r1 <;> cases d1
  cases r2 <;> cases d2
  cases r3 <;> cases d3
  cases r4 <;> cases d4
  refine ⟨⟨s1, p11, ctx1, p1, s2, p12, ctx2, p2, Example.mid_propagating (by decide +kernel) k1,
    Example.mid_propagating (by decide +kernel) k2, a1, a2, checkerDB_reverse _, ?_, c1, c2⟩,
    s3, p13, ctx3, p3, _, s4, p14, ctx4, p4, _, Example.mid_propagating (by decide +kernel) k3,
    Example.mid_propagating (by decide +kernel) k4, a3, a4, ?_⟩
  · intro l; rw [decided_of_view b1, decided_of_view b2]
  · intro l; rw [decided_of_view b3, decided_of_view b4]; simp

/-- Clauses are not simplified when they are added, and C75 takes clauses with repeated literals as they are.  For
the formula with the clause `1 ∨ 2 ∨ 2` and the decision `¬1`, `propagate()` does not assign `2`, although all
other literals of the clause are false. -/
theorem C75_repeated : ∃ s p1 ctx p, Solver.Propagating Example.env (Example.cnf [[1, 2, 2]]) s p1 ctx p none ∧
    s.Decided (Example.lit (-1)) ∧ p.values.value (Example.lit 2) = .ok none := by
  have h1 : (Example.mid [[1, 2, 2]] 1).map (fun x => (
      x.1.search.prop.trail.steps.map (fun t => (t.lit.code, t.reason == .decision)),
      x.2.2.2.1.values.value (Example.lit 2), x.2.2.2.2)) = .ok ([(0, true)], .ok none, none) := by decide +kernel
  obtain ⟨⟨s, p1, ctx, p, r⟩, k, e⟩ := Example.of_map h1
  simp only [Prod.mk.injEq] at e
  obtain ⟨a, b, rfl⟩ := e
  exact ⟨s, p1, ctx, p, Example.mid_propagating (by decide +kernel) k,
    (decided_of_view a _).2 (by decide), b⟩

end Starlit
