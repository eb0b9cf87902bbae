import Verif.Props.Fresh
import Verif.Props.Effort

/-!
# C82: formulas with clauses of at most two literals are solved in quadratic time

Satisfiability of such formulas is easy, but search with clause learning need not know this.  Here every conflict yields a
unit clause, because binary clauses propagate only within one decision level.  So there is at most one conflict per
variable and a last one, and the number of iterations of the main loop is quadratic at most.
-/

namespace Starlit

/-- Every clause has at most two literals. -/
def TwoCnf (F : List (List Lit)) : Prop := ∀ c ∈ F, c.length ≤ 2

instance (F : List (List Lit)) : Decidable (TwoCnf F) := inferInstanceAs (Decidable (∀ c ∈ F, c.length ≤ 2))

section
variable {env : Env} {n : Nat} {F L : DB} {S : List LC} {p : PropState}

/-- Both literals of a conflict with a binary clause are false since the current level. -/
theorem binary_conflict (h : PInv n S p) {a b : Lit} {bs : List Lit} (hb : p.binary[a.code]? = some bs) (hm : b ∈ bs)
    {i : Nat} {st : Step} (hs : p.trail.steps[i]? = some st) (e : st.lit = a.neg)
    (hf : ∃ t ∈ p.trail.steps, t.lit = b.neg) : st.level = p.trail.decisionLevel := by
  rcases Nat.lt_or_ge i p.trail.propagated with hi | hi
  · obtain ⟨t, ht, et, _⟩ := h.bsat a bs hb b hm i st hi hs e
    obtain ⟨t', ht', et'⟩ := hf
    exact absurd (by rw [et', et]) (h.trail.not_both ht' ht)
  · exact h.trail.prop_level i st hi hs

/-- Clauses learned from clauses with at most two literals are unit clauses. -/
theorem two_unit {ctx ctx' : Ctx} {p' : PropState} {an an' : Analysis} {cb cb' : Callbacks}
    {c : ConflictClause} (h : PInv n S p) (d : DBInv F L S p.binary p.trail.steps p.unsat)
    (ha : AnIdle an) (hm : MinIdle an.minimize) (hcb : CbInv env n cb) (hc : ConflictOK S p c)
    (hl : p.trail.decisionLevel ≠ 0) (h2 : ∀ E ∈ F + L, E.card ≤ 2)
    (e : Analysis.analyzeConflict env ctx an p c cb = .ok (ctx', an', p', cb')) :
    an'.derivedClause.length = 1 := by
  obtain ⟨S', C, lvl, target, A⟩ := (analyzeConflict_spec (env := env) (ctx := ctx) h d ha hm hcb hc hl).ok_elim e
  obtain ⟨conf, xs, h1, _, _, _, hxs, u, st, hu, hhd, h3, _⟩ := analyzeConflict_act h d ha hm hcb hc hl e
  have hcl := A.clause
  subst hcl
  obtain ⟨k, w, rest, e1, e2, e3, e4⟩ := A.asserting.head
  -- the step of the first literal is of the current level
  have hst : st.level = p.trail.decisionLevel := by
    rw [e1] at hhd
    simp only [List.head?_cons, Option.some.injEq, Lit.neg_inj] at hhd
    rw [← e3]
    exact (h.trail.level_unique (List.mem_of_getElem? e2) (List.mem_of_getElem? hu) hhd).symm
  -- hence also all later ones
  have hlate : ∀ (i : Nat) (x : Step), u ≤ i → p.trail.steps[i]? = some x → x.level = p.trail.decisionLevel := by
    intro i x hi hx
    have hlt : p.trail.decisionLevel < p.trail.decisions.length := by
      unfold Trail.decisionLevel at hl ⊢; omega
    have hd := List.getElem?_eq_getElem hlt
    have h5 := (h.trail.level u st hu _ _ (by omega) hd).1 (by omega)
    have h6 := (h.trail.level i x hx _ _ (by omega) hd).2 (by omega)
    have := h.trail.level_le i x hx
    omega
  have same : ∀ (t : Step) (o : Lit), t ∈ p.trail.steps → t.lit.index = o.index →
      (∃ t' ∈ p.trail.steps, t'.lit = o.neg) → t.lit = o.neg := by
    intro t o ht et ⟨t', ht', et'⟩
    rcases Lit.eq_or_eq_neg et with e' | e'
    · refine absurd ?_ (h.trail.not_both ht' ht)
      rw [et', e']
    · exact e'
  -- and so are those of all involved variables
  have key : ∀ x ∈ xs, ∀ t ∈ p.trail.steps, t.lit.index = x → t.level = p.trail.decisionLevel := by
    intro x hx t ht et
    obtain ⟨j, hj⟩ := List.mem_iff_getElem?.1 ht
    rcases h3.src x hx with ⟨l, hlc, el⟩ | ⟨i, s1, hi, hs1, _, s2, rs, hs2, hrs, o, ho, eo⟩
    · cases c with
      | long r =>
        obtain ⟨e', he', _, hlive, _⟩ := hc
        have h5 := h2 _ (d.mem he' hlive)
        have h6 := (h.long.len e' he' hlive).1
        simp only [LC.cl, Multiset.coe_card] at h5
        omega
      | binary a b =>
        cases h1
        obtain ⟨⟨bs, hb, hbm⟩, ⟨sa, hsa, esa, la⟩, ⟨sb, hsb, esb⟩⟩ := hc
        simp only [List.mem_cons, List.not_mem_nil, or_false] at hlc
        rcases hlc with rfl | rfl
        · have := same t _ ht (et.trans el.symm) ⟨sa, hsa, esa⟩
          exact binary_conflict h hb hbm hj this ⟨sb, hsb, esb⟩
        · have := same t _ ht (et.trans el.symm) ⟨sb, hsb, esb⟩
          have hlt : l.code < p.binary.length := by
            rw [h.sized.bin]; exact Lit.code_lt_of_index_lt (h.bs.idx _ _ hb _ hbm)
          have hys := List.getElem?_eq_getElem hlt
          have hcnt := h.bs.symm a l _ bs hb hys
          have hpos : 0 < bs.count l := List.count_pos_iff.2 hbm
          rw [hcnt] at hpos
          exact binary_conflict h hys (List.count_pos_iff.1 hpos) hj this ⟨sa, hsa, esa⟩
    · have hss : s1 = s2 := Option.some.inj (hs1.symm.trans hs2)
      subst hss
      have hdec : s1.reason ≠ Reason.decision := by
        intro e'
        rw [e'] at hrs
        cases hrs
        simp at ho
      have hcard := h2 _ (h.reason_db d hs1 hdec hrs)
      simp only [Multiset.card_cons, Multiset.coe_card] at hcard
      have hlev := hlate i s1 (by omega) hs1
      obtain ⟨o', ho', j', y, _, hy, ey, ly⟩ := h.reason_level hs1 (by omega) hdec hrs
      have hrs1 : rs = [o] := by
        match rs, ho, hcard with
        | [a], ho, _ => rw [List.mem_singleton.1 ho]
      rw [hrs1, List.mem_singleton] at ho'
      subst ho'
      have := same t _ ht (et.trans eo.symm) ⟨y, List.mem_of_getElem? hy, ey⟩
      rw [h.trail.level_unique ht (List.mem_of_getElem? hy) (this.trans ey.symm), ly, hlev]
  have hrest : rest = [] := by
    rw [List.eq_nil_iff_forall_not_mem]
    intro l hl'
    obtain ⟨i, s1, ⟨_, s2, k1, k2, k3⟩, hs1, hlev⟩ := e4 l hl'
    have hss : s1 = s2 := Option.some.inj (hs1.symm.trans k1)
    subst hss
    have := key l.index (hxs l (by rw [e1]; simp [hl'])) s1 (List.mem_of_getElem? k1) (by rw [k2, Lit.index_neg])
    have := A.asserting.lt
    omega
  rw [e1, hrest]; rfl

end

/-- The variables that are assigned at the top level. -/
def Trail.topVars (t : Trail) : Finset Nat :=
  ((t.steps.filter fun st => st.level == 0).map fun st => st.lit.index).toFinset

theorem Trail.mem_topVars {t : Trail} {x : Nat} : x ∈ t.topVars ↔ ∃ st ∈ t.steps, st.level = 0 ∧ st.lit.index = x := by
  simp [Trail.topVars, and_assoc]

theorem topVars_mono {t t' : Trail}
    (hs : ∀ s ∈ t.steps, s.level = 0 → ∃ s' ∈ t'.steps, s'.lit = s.lit ∧ s'.level = 0) : t.topVars.card ≤ t'.topVars.card := by
  refine Finset.card_le_card fun x hx => ?_
  obtain ⟨st, h1, h2, h3⟩ := Trail.mem_topVars.1 hx
  obtain ⟨st', k1, k2, k3⟩ := hs st h1 h2
  exact Trail.mem_topVars.2 ⟨st', k1, k3, by rw [k2, h3]⟩

theorem PInv.topVars_le {n : Nat} {S : List LC} {p : PropState} (h : PInv n S p) : p.trail.topVars.card ≤ n := by
  have : p.trail.topVars ⊆ Finset.range n := by
    intro x hx
    obtain ⟨st, h1, _, rfl⟩ := Trail.mem_topVars.1 hx
    exact Finset.mem_range.2 (h.trail.idx_lt st h1)
  simpa using Finset.card_le_card this

section
variable {env : Env} {F : List (List Lit)} {s s' : Solver}

theorem Phase.top {n : Nat} {S : List LC} {p : PropState} {S2 : List LC} {p2 : PropState} {r : Option ConflictClause}
    (q : Phase n S p S2 p2 r) {st : Step} (hs : st ∈ p.trail.steps) (h0 : st.level = 0) :
    ∃ s' ∈ p2.trail.steps, s'.lit = st.lit ∧ s'.level = 0 := by
  obtain ⟨ρ, new, e, _⟩ := q.steps
  refine ⟨st.ren ρ, ?_, rfl, h0⟩
  rw [e, List.mem_append]
  exact .inl (List.mem_map_of_mem hs)

/-- The invariant behind C82: what was learned are unit clauses, and conflicts are paid for by assignments at the top
level. -/
structure TwoInv (env : Env) (F : List (List Lit)) (L : DB) (S : List LC) (s : Solver) : Prop where
  inv : SInv env (formulaVars F) (toDB F) L S s.ctx s.search
  unit : ∀ c ∈ L, c.card = 1
  count : s.ctx.search.conflicts ≤ s.search.prop.trail.topVars.card + s.search.prop.unsat.toNat
  log : ∀ log, s.ctx.proof = some log → ∀ c, ProofStep.add c ∈ log → c.length = 1

theorem TwoInv.small {L : DB} {S : List LC} (h : TwoInv env F L S s) (hF : TwoCnf F) : ∀ E ∈ toDB F + L, E.card ≤ 2 := by
  intro E hE
  rcases Multiset.mem_add.1 hE with hE | hE
  · unfold toDB at hE
    obtain ⟨d, hd, rfl⟩ := List.mem_map.1 (Multiset.mem_coe.1 hE)
    simpa using hF d hd
  · rw [h.unit E hE]; omega

theorem TwoInv.restart {L : DB} {S : List LC} (h : TwoInv env F L S s)
    (e : s.maybeRestart = .ok s') : TwoInv env F L S s' := by
  obtain ⟨s1, e1, hi, hcase⟩ := maybeRestart_spec h.inv
  cases e.symm.trans e1
  rcases hcase with ⟨_, rfl⟩ | ⟨_, h2, _⟩
  · exact h
  obtain ⟨ctx', t, e2, _, hc, hl, _, hb⟩ := restart_spec h.inv
  rw [h2] at e2
  simp only [Except.ok.injEq, Prod.mk.injEq] at e2
  have hconf : ctx'.search.conflicts = s.ctx.search.conflicts := by rw [hc]
  refine ⟨hi, h.unit, ?_, ?_⟩
  · rw [e2.1, e2.2, hconf]
    rcases hb with ⟨_, rfl⟩ | ⟨target, ht, hb⟩
    · exact h.count
    · rw [hb.unsat]
      refine h.count.trans (Nat.add_le_add_right (topVars_mono fun st hs h0 => ⟨st, ?_, rfl, h0⟩) _)
      rw [hb.trail]
      simp only [Trail.cut]
      rw [(h.inv.prop.trail.take_eq_filter ht).1]
      exact List.mem_filter.2 ⟨hs, by simp [h0]⟩
  · rw [e2.1, hc]; exact h.log

theorem TwoInv.reduce {L : DB} {S : List LC} (h : TwoInv env F L S s)
    (e : s.maybeReduce env = .ok s') : ∃ L' S', TwoInv env F L' S' s' := by
  obtain ⟨s1, e1, _, hcase⟩ := maybeReduce_spec h.inv
  cases e.symm.trans e1
  rcases hcase with ⟨_, rfl⟩ | ⟨_, h2, _⟩
  · exact ⟨L, S, h⟩
  have hd := reduce_deletes h2
  obtain ⟨ctx', t, L', D, S', e2, hi, q, _⟩ := reduce_inv h.inv
  rw [h2] at e2
  simp only [Except.ok.injEq, Prod.mk.injEq] at e2
  obtain ⟨K, hK, _⟩ := q.del.split
  have hsub : ∀ c ∈ L', c ∈ L := fun c hc => by rw [hK]; exact Multiset.mem_add.2 (.inl hc)
  obtain ⟨a, ha⟩ := q.eq
  have hconf : ctx'.search.conflicts = s.ctx.search.conflicts := by rw [q.del.search]
  refine ⟨L', S', by rw [e2.1, e2.2]; exact hi, fun c hc => h.unit c (hsub c hc), ?_, ?_⟩
  · rw [e2.1, e2.2, hconf, ha]
    exact h.count
  · intro log hl c hc
    cases hp : s.ctx.proof with
    | none => rw [hd.1 hp] at hl; cases hl
    | some old =>
      obtain ⟨new, e1, e2⟩ := hd.2 old hp
      rw [e1] at hl
      cases hl
      rcases List.mem_append.1 hc with hc | hc
      · exact h.log old hp c hc
      · exfalso
        obtain ⟨x, y, rfl⟩ := List.append_of_mem hc
        rw [additions_append] at e2
        simp [additions] at e2

theorem TwoInv.step {L : DB} {S : List LC} (hF : TwoCnf F) (h : TwoInv env F L S s) (hr : Solver.Reachable env F s)
    {ctx : Ctx} {search : Search} {r : Option Bool}
    (e : searchStep env s.ctx s.search = .ok (ctx, search, r)) :
    ∃ L' S', TwoInv env F L' S' ⟨ctx, search, s.schedule⟩ := by
  obtain ⟨L', S', hi', post⟩ := (searchStep_spec h.inv).ok_elim e
  have hcount := h.count
  suffices hx : (∀ c ∈ L', c.card = 1) ∧
      ctx.search.conflicts ≤ search.prop.trail.topVars.card + search.prop.unsat.toNat ∧
      ∀ log, ctx.proof = some log → ∀ c, ProofStep.add c ∈ log → c.length = 1 from ⟨L', S', hi', hx.1, hx.2.1, hx.2.2⟩
  cases post with
  | already => exact ⟨h.unit, h.count, h.log⟩
  | @fail _ p2 _ _ hu q h0 h1 h2 =>
    refine ⟨h.unit, ?_, by rw [h2]; exact h.log⟩
    rw [hu] at hcount
    have := topVars_mono (t := s.search.prop.trail) (t' := p2.trail) fun st hs h0 => q.top hs h0
    rw [h1]
    simp only [Bool.toNat_true, Bool.toNat_false] at hcount ⊢
    omega
  | @decide _ p2 _ _ x b hu q hx hun hph pp h1 h2 =>
    refine ⟨h.unit, ?_, by rw [h2]; exact h.log⟩
    have := topVars_mono (t := s.search.prop.trail) (t' := p2.trail.decide (litOf x b)) fun st hs h0 => by
      obtain ⟨s', k1, k2⟩ := q.top hs h0
      exact ⟨s', by simp [Trail.decide, Trail.push, k1], k2⟩
    rw [h1]
    simp only [q.unsat]
    omega
  | @sat _ p2 _ _ hu q hall pp h1 h2 =>
    refine ⟨h.unit, ?_, by rw [h2]; exact h.log⟩
    have := topVars_mono (t := s.search.prop.trail) (t' := p2.trail) fun st hs h0 => q.top hs h0
    rw [h1]
    simp only [q.unsat]
    omega
  | @learn _ _ _ ctx1 _ _ _ C lvl target hu _ _ h1 h2 A =>
    have hcl := A.clause
    have hproof := A.proof
    have hsearch := A.search
    clear A
    cases searchStep_cases hr e with
    | @decide p1 p p' ctx1 x v l hp e1 e2 e3 =>
      exfalso
      rw [h1] at hsearch
      simp only [Ctx.decision, hp.search] at hsearch
      have := congrArg SearchStats.conflicts hsearch
      simp at this
    | @learn p1 p p' ctx2 ctx' c an cb hp h0 ea =>
    simp only at hcl
    subst hcl
    obtain ⟨⟨S2, q⟩, _⟩ := (phase_spec h.inv.prop s.ctx).ok_elim (a := (ctx2, p, some c))
      (bind_eq_ok.2 ⟨p1, hp.gc, hp.prop⟩)
    have d := q.db _ _ h.inv.db
    have hone := two_unit q.inv d h.inv.an h.inv.min h.inv.cb (q.conflict c rfl) h0 (h.small hF) ea
    obtain ⟨S3, C, lvl, target, A⟩ := (analyzeConflict_spec (env := env) q.inv d h.inv.an
      h.inv.min h.inv.cb (q.conflict c rfl) h0).ok_elim ea
    have hcl := A.clause
    subst hcl
    have hlvl := A.asserting.single hone
    obtain ⟨a', rest, rr, hC, hrr, ht, hrl⟩ := A.trail
    simp only at h2 hproof hsearch ⊢
    refine ⟨?_, ?_, ?_⟩
    · intro E hE
      rcases Multiset.mem_cons.1 hE with rfl | hE
      · simpa using hone
      · exact h.unit E hE
    · rw [hsearch, h1, A.unsat, q.unsat]
      -- the variable of the unit clause was not assigned at the top level
      obtain ⟨k, w, rest', e1, e2, e3, _⟩ := A.asserting.head
      have ha : a' = w.lit.neg := by
        rw [hC] at e1; exact (List.cons.inj e1).1
      have hnew : a'.index ∉ s.search.prop.trail.topVars := by
        intro hx
        obtain ⟨st, k1, k2, k3⟩ := Trail.mem_topVars.1 hx
        obtain ⟨st', j1, j2, j3⟩ := q.top k1 k2
        have hw := List.mem_of_getElem? e2
        rw [← j2, ha, Lit.index_neg] at k3
        rcases Lit.eq_or_eq_neg k3 with e' | e'
        · have := q.inv.trail.level_unique j1 hw e'
          omega
        · exact q.inv.trail.not_both j1 hw e'
      have hsub : insert a'.index s.search.prop.trail.topVars ⊆ p'.trail.topVars := by
        intro x hx
        rw [Trail.mem_topVars, ht]
        rcases Finset.mem_insert.1 hx with rfl | hx
        · exact ⟨⟨a', lvl, rr⟩, by simp [Trail.push], hlvl, rfl⟩
        · obtain ⟨st, k1, k2, k3⟩ := Trail.mem_topVars.1 hx
          obtain ⟨st', j1, j2, j3⟩ := q.top k1 k2
          refine ⟨st', ?_, j3, by rw [j2, k3]⟩
          simp only [Trail.push, Trail.cut, List.mem_append]
          left
          rw [(q.inv.trail.take_eq_filter A.cutpos).1]
          exact List.mem_filter.2 ⟨j1, by simp [j3]⟩
      have := Finset.card_le_card hsub
      rw [Finset.card_insert_of_notMem hnew] at this
      simp only
      omega
    · intro log hl c hc
      rw [hproof] at hl
      unfold Ctx.logProof at hl
      simp only at hl
      rw [h2] at hl
      obtain ⟨old, e1, rfl⟩ := Option.map_eq_some_iff.1 hl
      rcases List.mem_append.1 hc with hc | hc
      · exact h.log old e1 c hc
      · simp only [List.mem_singleton, ProofStep.add.injEq] at hc
        rw [hc]; exact hone

/-- The invariant holds in every state of every run. -/
theorem Solver.Reachable.twoInv (hF : TwoCnf F) (h : Solver.Reachable env F s) : ∃ L S, TwoInv env F L S s := by
  induction h with
  | @input s h =>
    obtain ⟨S, hi⟩ := h.inv
    refine ⟨0, S, hi.sinv, by simp, ?_, ?_⟩
    · rw [h.start.search]; simp
    intro log e
    rcases hi.proof with e' | e'
    · rw [e'] at e; cases e
    · rw [e'] at e; cases e
      simp
  | restart hr e ih =>
    obtain ⟨L, S, ih⟩ := ih
    exact ⟨L, S, ih.restart e⟩
  | reduce hr e ih =>
    obtain ⟨L, S, ih⟩ := ih
    exact ih.reduce e
  | step hr e ih =>
    obtain ⟨L, S, ih⟩ := ih
    exact ih.step hF hr e

/-- C82: every conflict of a formula with clauses of at most two literals yields a unit clause, -/
theorem C82_unit (hF : TwoCnf F) {p1 p p' : PropState} {ctx ctx' : Ctx} {c : ConflictClause} {an : Analysis} {cb : Callbacks}
    (h : Solver.Propagating env F s p1 ctx p (some c)) (h0 : p.trail.decisionLevel ≠ 0)
    (e : s.search.analysis.analyzeConflict env ctx p c s.search.cb = .ok (ctx', an, p', cb)) :
    an.derivedClause.length = 1 := by
  obtain ⟨L, S, hi⟩ := h.reach.twoInv hF
  obtain ⟨⟨S2, q⟩, _⟩ := (phase_spec hi.inv.prop s.ctx).ok_elim (a := (ctx, p, some c))
    (bind_eq_ok.2 ⟨p1, h.gc, h.prop⟩)
  exact two_unit q.inv (q.db _ _ hi.inv.db) hi.inv.an hi.inv.min hi.inv.cb (q.conflict c rfl) h0 (hi.small hF) e

/-- so proofs add unit clauses only, there is at most one conflict per variable, and one more, -/
theorem C82_conflicts (hF : TwoCnf F) (h : Solver.Reachable env F s) :
    s.ctx.search.conflicts ≤ formulaVars F + 1 ∧
    (s.search.prop.unsat = false → s.ctx.search.conflicts ≤ formulaVars F) ∧
    ∀ log, s.ctx.proof = some log → ∀ c, ProofStep.add c ∈ log → c.length = 1 := by
  obtain ⟨L, S, hi⟩ := h.twoInv hF
  have h1 := hi.count
  have h2 := hi.inv.prop.topVars_le
  have h3 := Bool.toNat_le s.search.prop.unsat
  refine ⟨by omega, fun hu => ?_, hi.log⟩
  rw [hu] at h1
  simp only [Bool.toNat_false] at h1
  omega

/-- and `solve()` answers after a number of iterations that is quadratic in the number of variables. -/
theorem C82_quadratic (hF : TwoCnf F) (h : Solver.Input env F s) {k : Nat} (e : s.solve env k = .ok (s', none)) :
    k ≤ (formulaVars F + 1) + formulaVars F * ((formulaVars F + 1) + (formulaVars F + 1) / 512 + 2) := by
  have h1 := C60_bound h e
  have h2 := (C82_conflicts hF ((Solver.Reachable.input h).solve e)).1
  have h3 := Nat.div_le_div_right (c := 512) h2
  exact h1.trans (Nat.add_le_add h2 (Nat.mul_le_mul_left _ (by omega)))

end

/-- The hypotheses of `C82_conflicts` are met by a run with three conflicts. -/
theorem C82_example : ∃ s, TwoCnf (Example.cnf [[1, 2], [1, -2], [3, 4], [3, -4], [5, 6], [5, -6]]) ∧
    Solver.Reachable Example.env (Example.cnf [[1, 2], [1, -2], [3, 4], [3, -4], [5, 6], [5, -6]]) s ∧
    s.ctx.search.conflicts = 3 ∧ s.search.prop.unsat = false ∧
    s.ctx.proof = some [.add [Example.lit 1], .add [Example.lit 5], .add [Example.lit 3]] := by
  have h : (Example.after [[1, 2], [1, -2], [3, 4], [3, -4], [5, 6], [5, -6]] 100).map (fun s =>
      (s.ctx.search.conflicts, s.search.prop.unsat, s.ctx.proof)) =
      .ok (3, false, some [.add [Example.lit 1], .add [Example.lit 5], .add [Example.lit 3]]) := by
    decide +kernel
  obtain ⟨s, h1, h2⟩ := Example.of_map h
  simp only [Prod.mk.injEq] at h2
  exact ⟨s, by decide +kernel, Example.after_reachable (by decide +kernel) h1, h2⟩

end Starlit
