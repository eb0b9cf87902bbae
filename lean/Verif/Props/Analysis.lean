import Verif.Props.Propagation
import Verif.Solver.Prepare

/-!
# C10, C11, C12, C13, C31, C45, C49: conflict analysis, minimisation, backtracking, decisions, glue
-/

namespace Starlit

/-- Propagation states and decision heuristics at which `backtrack_to_level` and `pop_decision_var` are
called: between the parts of `solve()`, after a propagation, and after deriving a 1-UIP clause. -/
inductive Solver.Visited (env : Env) (F : List (List Lit)) : PropState → Callbacks → Prop
  | between {s : Solver} : Solver.Reachable env F s → Visited env F s.search.prop s.search.cb
  | propagated {s : Solver} {p1 p : PropState} {ctx : Ctx} {r : Option ConflictClause} :
      Solver.Propagating env F s p1 ctx p r → Visited env F p s.search.cb
  | analyzed {s : Solver} {p1 p p' : PropState} {ctx : Ctx} {c : ConflictClause} {an' : Analysis}
      {cb' : Callbacks} : Solver.Propagating env F s p1 ctx p (some c) → p.trail.decisionLevel ≠ 0 →
      Analysis.derive1uip env s.search.analysis p c s.search.cb = .ok (an', p', cb') →
      Visited env F p' cb'

section
variable {env : Env} {F : List (List Lit)} {s : Solver} {p1 p p' : PropState} {ctx : Ctx}
  {r : Option ConflictClause} {c : ConflictClause} {cb cb' : Callbacks}

/-! ## Lemmas -/

theorem Solver.Propagating.phase (h : Solver.Propagating env F s p1 ctx p r) :
    ∃ L S S2, SInv env (formulaVars F) (toDB F) L S s.ctx s.search ∧
      Phase (formulaVars F) S s.search.prop S2 p r := by
  obtain ⟨L, S, hi⟩ := h.reach.inv
  have := phase_spec hi.prop s.ctx
  have e : (do let p ← collectGarbage s.search.prop; propagate s.ctx p) = .ok (ctx, p, r) := by
    rw [h.gc, bind_ok]; exact h.prop
  obtain ⟨⟨S2, q⟩, _⟩ := this.ok_elim e
  exact ⟨L, S, S2, hi, q⟩

theorem Solver.Visited.inv (h : Solver.Visited env F p cb) :
    ∃ S, PInv (formulaVars F) S p ∧ CbInv env (formulaVars F) cb ∧
      Covers (formulaVars F) p.values cb := by
  cases h with
  | between h =>
    obtain ⟨L, S, hi⟩ := h.inv
    exact ⟨S, hi.prop, hi.cb, hi.covers⟩
  | propagated h =>
    obtain ⟨L, S, S2, hi, q⟩ := h.phase
    exact ⟨S2, q.inv, hi.cb, q.covers hi.prop hi.covers⟩
  | analyzed h h0 e =>
    obtain ⟨L, S, S2, hi, q⟩ := h.phase
    obtain ⟨an2, p2, cb2, S3, e2, oh, ck, _⟩ := derive1uip_spec (env := env) q.inv q.inv.storedInv hi.an
      hi.cb (q.conflict _ rfl) h0
    cases e.symm.trans e2
    have hc := q.covers hi.prop hi.covers
    refine ⟨S3, oh.inv, ck.inv, ?_⟩
    obtain ⟨a, rfl⟩ := oh.eq
    exact ck.covers hc

/-- Cutting the trail keeps the steps up to the level. -/
theorem TrailInv.take_eq_filter {n : Nat} {values : PartialAssignment} {t : Trail}
    (h : TrailInv n values t) {level target : Nat} (hd : t.decisions[level + 1]? = some target) :
    t.steps.take target = t.steps.filter (fun st => decide (st.level ≤ level)) ∧
    t.steps.drop target = t.steps.filter (fun st => decide (level < st.level)) := by
  have key : ∀ (i : Nat) (st : Step), t.steps[i]? = some st → (target ≤ i ↔ level < st.level) := by
    intro i st hs
    have := h.level i st hs (level + 1) target (by omega) hd
    omega
  have h1 : ∀ st ∈ t.steps.take target, st.level ≤ level := by
    intro st hs
    obtain ⟨i, hi, hs⟩ := mem_take_iff.1 hs
    have := key i st hs
    omega
  have h2 : ∀ st ∈ t.steps.drop target, level < st.level := by
    intro st hs
    obtain ⟨i, hs⟩ := List.mem_iff_getElem?.1 hs
    rw [List.getElem?_drop] at hs
    exact (key _ st hs).1 (by omega)
  constructor
  · conv_rhs => rw [← List.take_append_drop target t.steps]
    rw [List.filter_append, List.filter_eq_self.2 (fun st hs => by simpa using h1 st hs),
      List.filter_eq_nil_iff.2 (fun st hs => by simpa using h2 st hs), List.append_nil]
  · conv_rhs => rw [← List.take_append_drop target t.steps]
    rw [List.filter_append, List.filter_eq_nil_iff.2 (fun st hs => by simpa using h1 st hs),
      List.filter_eq_self.2 (fun st hs => by simpa using h2 st hs), List.nil_append]

/-! ## C10 -/

/-- The facts of C10, for any analysis with the proved effect. -/
theorem AnalyzePost.facts {n : Nat} {S2 S' : List LC} {C : List Lit} {lvl target : Nat} {ctx1 ctx2 : Ctx}
    {an : Analysis} (hi : PInv n S2 p)
    (A : AnalyzePost env n (storedBase S2 p) (liveRed S2) S2 ctx1 p cb S' C lvl target ctx2 an p' cb') :
    ∃ a rest lvl reason, an.derivedClause = a :: rest ∧ (a :: rest).Nodup ∧
      StoredRUP p ((a :: rest : List Lit) : Multiset Lit) ∧
      (∃ st ∈ p.trail.steps, st.lit = a.neg ∧ st.level = p.trail.decisionLevel) ∧
      (∀ l ∈ rest, ∃ st ∈ p.trail.steps, st.lit = l.neg ∧ st.level ≤ lvl) ∧
      lvl < p.trail.decisionLevel ∧ (rest = [] → lvl = 0) ∧
      (rest ≠ [] → ∃ l ∈ rest, ∃ st ∈ p.trail.steps, st.lit = l.neg ∧ st.level = lvl) ∧
      p'.trail.decisionLevel = lvl ∧
      p'.trail.steps = p.trail.steps.filter (fun st => decide (st.level ≤ lvl)) ++ [⟨a, lvl, reason⟩] ∧
      p'.reasonLits reason = .ok rest ∧ Stored p' ((a :: rest : List Lit) : Multiset Lit) ∧
      p'.values.value a = .ok (some true) ∧ ∀ l ∈ rest, p'.values.value l = .ok (some false) := by
  obtain ⟨a, rest, reason, hC, hr, ht, hrl⟩ := A.trail
  obtain ⟨k, u, rest', hC', hu, hul, hrest⟩ := A.asserting.head
  rw [hC, List.cons.injEq] at hC'
  obtain ⟨rfl, rfl⟩ := hC'
  obtain ⟨hcut, _⟩ := hi.trail.take_eq_filter A.cutpos
  have hsteps : p'.trail.steps = p.trail.steps.filter (fun st => decide (st.level ≤ lvl)) ++
      [⟨u.lit.neg, lvl, reason⟩] := by
    rw [ht]; simp only [Trail.push, Trail.cut, hcut]
  have hlast : p'.trail.steps[(p.trail.steps.filter (fun st => decide (st.level ≤ lvl))).length]? =
      some ⟨u.lit.neg, lvl, reason⟩ := by rw [hsteps]; simp
  have hst : Stored p' ((u.lit.neg :: rest : List Lit) : Multiset Lit) := by
    have := A.inv.stored_of_mem (A.inv.reason_db A.inv.storedInv hlast hr hrl)
    exact this
  refine ⟨u.lit.neg, rest, lvl, reason, A.clause.trans hC, hC ▸ A.asserting.nodup,
    hi.storedRUP (hC ▸ A.asserting.rup), ?_, ?_, A.asserting.lt, ?_, ?_, ?_, hsteps, hrl, hst, ?_, ?_⟩
  · exact ⟨u, List.mem_iff_getElem?.2 ⟨k, hu⟩, by simp, hul⟩
  · intro l hl
    obtain ⟨i, st, ⟨_, st', h1, h2, _⟩, h3, h4⟩ := hrest l hl
    rw [h3] at h1
    injection h1 with h1
    subst h1
    exact ⟨st, List.mem_iff_getElem?.2 ⟨i, h3⟩, h2, h4⟩
  · intro hr
    apply A.asserting.single
    rw [hC, hr]; rfl
  · intro hr
    obtain ⟨l, rest', rfl⟩ := List.exists_cons_of_ne_nil hr
    obtain ⟨i, st, ⟨_, st', h1, h2, _⟩, h3, h4⟩ := A.asserting.second l (by rw [hC]; rfl)
    rw [h3] at h1
    injection h1 with h1
    subst h1
    exact ⟨l, by simp, st, List.mem_iff_getElem?.2 ⟨i, h3⟩, h2, h4⟩
  · rw [ht]
    unfold Trail.decisionLevel
    simp only [Trail.push, Trail.cut, List.length_take]
    have := A.asserting.lt
    unfold Trail.decisionLevel at this
    omega
  · have hm : (⟨u.lit.neg, lvl, reason⟩ : Step) ∈ p'.trail.steps := List.mem_iff_getElem?.2 ⟨_, hlast⟩
    rw [A.inv.value (A.inv.stored_idx hst _ (by simp)), (A.inv.trail.val_iff _).2 ⟨_, hm, rfl⟩]
  · intro l hl
    obtain ⟨i, st, ⟨_, st', h1, h2, _⟩, h3, h4⟩ := hrest l hl
    rw [h3] at h1
    injection h1 with h1
    subst h1
    rw [A.inv.value (A.inv.stored_idx hst _ (by simp [hl])), (A.inv.trail.val_false_iff _).2 ⟨st, ?_, h2⟩]
    rw [hsteps, List.mem_append]
    left
    rw [List.mem_filter]
    exact ⟨List.mem_iff_getElem?.2 ⟨i, h3⟩, by simpa using h4⟩

/-- C10: `analyze_conflict` learns a clause with the literal `a` first.  It follows from the stored
clauses, `a` is its only literal that was falsified at the conflict level, and the solver has backtracked
to the highest level of the other literals (the top level if there are none): exactly the steps of higher
levels are undone and the last step of the trail assigns `a`, with the learned clause as the reason. -/
theorem C10_asserting (h : Solver.Propagating env F s p1 ctx p (some c))
    (h0 : p.trail.decisionLevel ≠ 0) {ctx1 ctx2 : Ctx} {an : Analysis}
    (e : Analysis.analyzeConflict env ctx1 s.search.analysis p c s.search.cb = .ok (ctx2, an, p', cb')) :
    ∃ a rest lvl reason, an.derivedClause = a :: rest ∧ (a :: rest).Nodup ∧
      StoredRUP p ((a :: rest : List Lit) : Multiset Lit) ∧
      (∃ st ∈ p.trail.steps, st.lit = a.neg ∧ st.level = p.trail.decisionLevel) ∧
      (∀ l ∈ rest, ∃ st ∈ p.trail.steps, st.lit = l.neg ∧ st.level ≤ lvl) ∧
      lvl < p.trail.decisionLevel ∧ (rest = [] → lvl = 0) ∧
      (rest ≠ [] → ∃ l ∈ rest, ∃ st ∈ p.trail.steps, st.lit = l.neg ∧ st.level = lvl) ∧
      p'.trail.decisionLevel = lvl ∧
      p'.trail.steps = p.trail.steps.filter (fun st => decide (st.level ≤ lvl)) ++ [⟨a, lvl, reason⟩] ∧
      p'.reasonLits reason = .ok rest ∧ Stored p' ((a :: rest : List Lit) : Multiset Lit) ∧
      p'.values.value a = .ok (some true) ∧ ∀ l ∈ rest, p'.values.value l = .ok (some false) := by
  obtain ⟨L, S, S2, hi, q⟩ := h.phase
  obtain ⟨S', C, lvl, target, A⟩ := (analyzeConflict_spec (env := env) (ctx := ctx1) q.inv
    q.inv.storedInv hi.an hi.min hi.cb (q.conflict c rfl) h0).ok_elim e
  exact A.facts q.inv

/-- The hypotheses of C10 are met by a conflict at level 4 with a backjump to level 3. -/
theorem C10_example : ∃ s p1 ctx p c, Solver.Propagating Example.env (Example.cnf (Example.php 4 3))
    s p1 ctx p (some c) ∧ p.trail.decisionLevel = 4 ∧ ∃ ctx2 an p' cb',
    Analysis.analyzeConflict Example.env ctx s.search.analysis p c s.search.cb = .ok (ctx2, an, p', cb') ∧
    an.derivedClause = [-8, 4, 1].map Example.lit ∧ p'.trail.decisionLevel = 3 := by
  have h : (do
      let x ← Example.mid (Example.php 4 3) 4
      match x.2.2.2.2 with
      | none => throw .panic
      | some c => do
        let y ← Analysis.analyzeConflict Example.env x.2.2.1 x.1.search.analysis x.2.2.2.1 c
          x.1.search.cb
        pure (x.2.2.2.1.trail.decisionLevel, y.2.1.derivedClause, y.2.2.1.trail.decisionLevel) :
        M (Nat × List Lit × Nat)) = .ok (4, [-8, 4, 1].map Example.lit, 3) := by
    decide +kernel
  obtain ⟨⟨s, p1, ctx, p, r⟩, h1, h2⟩ := bind_eq_ok.1 h
  cases r with
  | none => cases h2
  | some c =>
    simp only at h2
    obtain ⟨⟨ctx2, an, p', cb'⟩, h3, h4⟩ := bind_eq_ok.1 h2
    have h4 := Except.ok.inj h4
    simp only [Prod.mk.injEq] at h4
    exact ⟨s, p1, ctx, p, c, Example.mid_propagating (by decide +kernel) h1, h4.1, ctx2, an, p', cb', h3,
      h4.2.1, h4.2.2⟩

/-! ## C45 -/

/-- C45, selection: `prepare_for_backtracking`, the unused alternative to minimisation, cannot panic and
permutes the 1-UIP clause `R ++ [u]`: `u` comes first, then the literal of `R` that was assigned last, whose
level is returned.  For a unit clause the top level is returned. -/
theorem C45_prepare (h : Solver.Propagating env F s p1 ctx p (some c))
    (h0 : p.trail.decisionLevel ≠ 0) {an1 : Analysis}
    (e1 : Analysis.derive1uip env s.search.analysis p c s.search.cb = .ok (an1, p', cb')) :
    ∃ R u c' lvl, an1.derivedClause = R ++ [u] ∧
      an1.prepareForBacktracking p' = .ok ({ an1 with derivedClause := u :: c' }, lvl) ∧ c'.Perm R ∧
      (R = [] → lvl = 0) ∧
      ∀ b rest, c' = b :: rest → ∃ (i : Nat) (st : Step),
        p'.trail.steps[i]? = some st ∧ st.lit = b.neg ∧ st.level = lvl ∧
        ∀ l ∈ rest, ∃ (j : Nat) (sj : Step), p'.trail.steps[j]? = some sj ∧ sj.lit = l.neg ∧ j < i := by
  obtain ⟨L, S, S2, hi, q⟩ := h.phase
  obtain ⟨an', p2, cb2, S3, e3, oh, _, _, hmin, uip⟩ := derive1uip_spec (env := env) q.inv
    q.inv.storedInv hi.an hi.cb (q.conflict c rfl) h0
  cases e1.symm.trans e3
  have hp : p'.trail = p.trail := by obtain ⟨a, rfl⟩ := oh.eq; rfl
  rw [← hp] at uip h0
  obtain ⟨C, lvl, e2, has, hpr⟩ := prepareForBacktracking_spec oh.inv uip h0
  obtain ⟨R, k, u, ec, hk, hu, hnd, hR⟩ := uip.split
  have hhead := hpr.head
  rw [ec, List.getLast?_concat] at hhead
  obtain ⟨c', rfl⟩ : ∃ c', C = u.lit.neg :: c' := by
    cases C with
    | nil => simp at hhead
    | cons x c' => simp at hhead; exact ⟨c', by rw [hhead]⟩
  have hperm : c'.Perm R := by
    have := hpr.perm
    rw [ec] at this
    exact (List.perm_cons _).1 (this.trans (List.perm_append_singleton _ _))
  refine ⟨R, u.lit.neg, c', lvl, ec, e2, hperm, ?_, ?_⟩
  · rintro rfl
    exact hpr.unit (by rw [ec]; rfl)
  · rintro b rest rfl
    obtain ⟨m, hm, ⟨st, hst, hlv⟩, hmax⟩ := hpr.max _ _ _ rfl
    have pos : ∀ l ∈ b :: rest, ∃ (j : Nat) (sj : Step), p'.trail.trailIndex[l.index]? = some j ∧
        p'.trail.steps[j]? = some sj ∧ sj.lit = l.neg := by
      intro l hl
      obtain ⟨j, sj, a1, a2, a3, a4⟩ := hR l (hperm.mem_iff.1 hl)
      have := oh.inv.trail.tix_pos a1 (by omega)
      rw [a2, Lit.index_neg] at this
      exact ⟨j, sj, this, a1, a2⟩
    obtain ⟨i, si, b1, b2, b3⟩ := pos b (by simp)
    rw [hm] at b1
    obtain rfl := Option.some.inj b1
    rw [hst] at b2
    obtain rfl := Option.some.inj b2
    refine ⟨m, st, hst, b3, hlv, ?_⟩
    intro l hl
    obtain ⟨j, sj, c1, c2, c3⟩ := pos l (by simp [hl])
    refine ⟨j, sj, c2, c3, lt_of_le_of_ne (hmax l hl j c1) ?_⟩
    rintro rfl
    rw [hst] at c2
    obtain rfl := Option.some.inj c2
    have hlb : l = b := by
      have := c3.symm.trans b3
      have := congrArg Lit.neg this
      simpa using this
    have hnd' := (hperm.nodup_iff).2 hnd
    exact (List.nodup_cons.1 hnd').1 (hlb ▸ hl)

/-- C45, learning: conflict analysis with `prepare_for_backtracking` instead of minimisation would satisfy
C10 as well. -/
theorem C45_plain (h : Solver.Propagating env F s p1 ctx p (some c))
    (h0 : p.trail.decisionLevel ≠ 0) {ctx1 ctx2 : Ctx} {an : Analysis}
    (e : Analysis.analyzeConflictPlain env ctx1 s.search.analysis p c s.search.cb =
      .ok (ctx2, an, p', cb')) :
    ∃ a rest lvl reason, an.derivedClause = a :: rest ∧ (a :: rest).Nodup ∧
      StoredRUP p ((a :: rest : List Lit) : Multiset Lit) ∧
      (∃ st ∈ p.trail.steps, st.lit = a.neg ∧ st.level = p.trail.decisionLevel) ∧
      (∀ l ∈ rest, ∃ st ∈ p.trail.steps, st.lit = l.neg ∧ st.level ≤ lvl) ∧
      lvl < p.trail.decisionLevel ∧ (rest = [] → lvl = 0) ∧
      (rest ≠ [] → ∃ l ∈ rest, ∃ st ∈ p.trail.steps, st.lit = l.neg ∧ st.level = lvl) ∧
      p'.trail.decisionLevel = lvl ∧
      p'.trail.steps = p.trail.steps.filter (fun st => decide (st.level ≤ lvl)) ++ [⟨a, lvl, reason⟩] ∧
      p'.reasonLits reason = .ok rest ∧ Stored p' ((a :: rest : List Lit) : Multiset Lit) ∧
      p'.values.value a = .ok (some true) ∧ ∀ l ∈ rest, p'.values.value l = .ok (some false) := by
  obtain ⟨L, S, S2, hi, q⟩ := h.phase
  obtain ⟨S', C, lvl, target, A⟩ := (analyzeConflictPlain_spec (env := env) (ctx := ctx1) q.inv
    q.inv.storedInv hi.an hi.min hi.cb (q.conflict c rfl) h0).ok_elim e
  exact A.facts q.inv

/-- For C45: a conflict at level 4; both variants backtrack to level 3. -/
theorem C45_example : ∃ s p1 ctx p c an1 p' cb' an2 ctx2 an p2 cb2,
    Solver.Propagating Example.env (Example.cnf (Example.php 4 3)) s p1 ctx p (some c) ∧
    p.trail.decisionLevel = 4 ∧
    Analysis.derive1uip Example.env s.search.analysis p c s.search.cb = .ok (an1, p', cb') ∧
    an1.derivedClause = [4, 1, -8].map Example.lit ∧
    an1.prepareForBacktracking p' = .ok (an2, 3) ∧ an2.derivedClause = [-8, 4, 1].map Example.lit ∧
    Analysis.analyzeConflictPlain Example.env ctx s.search.analysis p c s.search.cb =
      .ok (ctx2, an, p2, cb2) := by
  have h : (do
      let x ← Example.mid (Example.php 4 3) 4
      match x.2.2.2.2 with
      | none => throw .panic
      | some c => do
        let y ← Analysis.derive1uip Example.env x.1.search.analysis x.2.2.2.1 c x.1.search.cb
        let z ← y.1.prepareForBacktracking y.2.1
        let _ ← Analysis.analyzeConflictPlain Example.env x.2.2.1 x.1.search.analysis x.2.2.2.1 c
          x.1.search.cb
        pure (x.2.2.2.1.trail.decisionLevel, y.1.derivedClause, z.1.derivedClause, z.2) :
        M (Nat × List Lit × List Lit × Nat)) =
      .ok (4, [4, 1, -8].map Example.lit, [-8, 4, 1].map Example.lit, 3) := by
    decide +kernel
  obtain ⟨⟨s, p1, ctx, p, r⟩, h1, h2⟩ := bind_eq_ok.1 h
  cases r with
  | none => cases h2
  | some c =>
    simp only at h2
    obtain ⟨⟨an1, p', cb'⟩, h3, h2⟩ := bind_eq_ok.1 h2
    obtain ⟨⟨an2, lvl⟩, h4, h2⟩ := bind_eq_ok.1 h2
    obtain ⟨⟨ctx2, an, p2, cb2⟩, h5, h2⟩ := bind_eq_ok.1 h2
    have h2 := Except.ok.inj h2
    simp only [Prod.mk.injEq] at h2
    obtain ⟨h6, h7, h8, rfl⟩ := h2
    exact ⟨s, p1, ctx, p, c, an1, p', cb', an2, ctx2, an, p2, cb2,
      Example.mid_propagating (by decide +kernel) h1, h6, h3, h7, h4, h8, h5⟩

/-! ## C11 -/

/-- C11: minimisation of a 1-UIP clause `R ++ [u]` gives a clause with `u` first, whose literals are
literals of the 1-UIP clause, and which follows from the stored clauses; its buffers are clean again. -/
theorem C11_minimize (h : Solver.Propagating env F s p1 ctx p (some c))
    (h0 : p.trail.decisionLevel ≠ 0) {an1 an2 : Analysis} {lvl : Nat}
    (e1 : Analysis.derive1uip env s.search.analysis p c s.search.cb = .ok (an1, p', cb'))
    (e2 : an1.minimizeDerived p' = .ok (an2, lvl)) :
    ∃ R u rest, an1.derivedClause = R ++ [u] ∧ an2.derivedClause = u :: rest ∧ (∀ l ∈ rest, l ∈ R) ∧
      (u :: rest).Nodup ∧ StoredRUP p' ((R ++ [u] : List Lit) : Multiset Lit) ∧
      StoredRUP p' ((u :: rest : List Lit) : Multiset Lit) ∧
      an2.minimize.toClean = [] ∧ (∀ x ∈ an2.minimize.cache, x = none) ∧
      ∀ x ∈ an2.minimize.firstOnLevel.tail, x = UNASSIGNED := by
  obtain ⟨L, S, S2, hi, q⟩ := h.phase
  obtain ⟨an', p2, cb2, S3, e3, oh, _, _, hmin, uip⟩ := derive1uip_spec (env := env) q.inv
    q.inv.storedInv hi.an hi.cb (q.conflict c rfl) h0
  cases e1.symm.trans e3
  have hi3 := oh.inv
  have db3 : storedBase S2 p + liveRed S2 = storedBase S3 p' + liveRed S3 := by
    obtain ⟨a, rfl⟩ := oh.eq
    unfold storedBase
    rw [oh.sim.liveIrr, oh.sim.liveRed]
  have htr : p'.trail = p.trail := by obtain ⟨a, rfl⟩ := oh.eq; rfl
  rw [← htr, db3] at uip
  obtain ⟨m', c', lvl', e4, hm', ass, sub, _⟩ := minimizeDerived_spec hi3 hi3.storedInv
    (by rw [hmin]; exact hi.min) uip (by rw [htr]; exact h0)
  cases e2.symm.trans e4
  obtain ⟨R, k, u, hR, hu, hul, hnd, hRl⟩ := uip.split
  obtain ⟨k', u', rest, hC, hu', hul', hrest⟩ := ass.head
  have hlev : ∀ l ∈ R, ∀ st ∈ p'.trail.steps, st.lit = l.neg → st.level < p'.trail.decisionLevel := by
    intro l hl st hst hsl
    obtain ⟨i, st', h1, h2, _, h3⟩ := hRl l hl
    have := hi3.trail.level_unique hst (List.mem_iff_getElem?.2 ⟨i, h1⟩) (hsl.trans h2.symm)
    omega
  have huu : u'.lit.neg = u.lit.neg := by
    have := sub u'.lit.neg (by rw [hC]; simp)
    rw [hR, List.mem_append, List.mem_singleton] at this
    rcases this with hx | hx
    · have := hlev _ hx u' (List.mem_iff_getElem?.2 ⟨k', hu'⟩) (by simp)
      omega
    · exact hx
  refine ⟨R, u.lit.neg, rest, hR, by simp only [hC, huu], ?_, ?_, ?_, ?_, hm'.clean, ?_, ?_⟩
  · intro l hl
    have := sub l (by rw [hC]; simp [hl])
    rw [hR, List.mem_append, List.mem_singleton] at this
    rcases this with hx | rfl
    · exact hx
    · have := ass.nodup
      rw [hC, huu] at this
      exact absurd hl (List.nodup_cons.1 this).1
  · rw [← huu, ← hC]; exact ass.nodup
  · exact hi3.storedRUP (hR ▸ uip.rup)
  · rw [← huu, ← hC]; exact hi3.storedRUP ass.rup
  · intro x hx
    obtain ⟨i, hi'⟩ := List.mem_iff_getElem?.1 hx
    cases x with
    | none => rfl
    | some b => exact absurd hi' (hm'.cache i b)
  · intro x hx
    obtain ⟨i, hi'⟩ := List.mem_iff_getElem?.1 hx
    rw [List.getElem?_tail] at hi'
    exact hm'.first (i + 1) x (by omega) hi'

/-- The hypotheses of C11 are met by a conflict whose 1-UIP clause `2 1 5` is shortened to `5 1`. -/
theorem C11_example : ∃ s p1 ctx p c an1 p' cb' an2, Solver.Propagating Example.env
    (Example.cnf [[1, -2], [5, 1, 2, 3], [5, 1, 2, -3]]) s p1 ctx p (some c) ∧
    p.trail.decisionLevel = 2 ∧
    Analysis.derive1uip Example.env s.search.analysis p c s.search.cb = .ok (an1, p', cb') ∧
    an1.minimizeDerived p' = .ok (an2, 1) ∧
    an1.derivedClause = [2, 1, 5].map Example.lit ∧ an2.derivedClause = [5, 1].map Example.lit := by
  have h : (do
      let x ← Example.mid [[1, -2], [5, 1, 2, 3], [5, 1, 2, -3]] 2
      match x.2.2.2.2 with
      | none => throw .panic
      | some c => do
        let y ← Analysis.derive1uip Example.env x.1.search.analysis x.2.2.2.1 c x.1.search.cb
        let z ← y.1.minimizeDerived y.2.1
        pure (x.2.2.2.1.trail.decisionLevel, y.1.derivedClause, z.1.derivedClause, z.2) :
        M (Nat × List Lit × List Lit × Nat)) =
      .ok (2, [2, 1, 5].map Example.lit, [5, 1].map Example.lit, 1) := by
    decide +kernel
  obtain ⟨⟨s, p1, ctx, p, r⟩, h1, h2⟩ := bind_eq_ok.1 h
  cases r with
  | none => cases h2
  | some c =>
    simp only at h2
    obtain ⟨⟨an1, p', cb'⟩, h3, h4⟩ := bind_eq_ok.1 h2
    obtain ⟨⟨an2, lvl⟩, h5, h6⟩ := bind_eq_ok.1 h4
    have h6 := Except.ok.inj h6
    simp only [Prod.mk.injEq] at h6
    obtain ⟨h7, h8, h9, rfl⟩ := h6
    exact ⟨s, p1, ctx, p, c, an1, p', cb', an2, Example.mid_propagating (by decide +kernel) h1, h7, h3,
      h5, h8, h9⟩

/-! ## C49 -/

/-- C49: minimisation removes exactly the redundant literals: the negation of a removed literal follows
from the negations of the remaining ones with the implications recorded on the trail, the negation of a
remaining literal does not follow from the other ones. -/
theorem C49_minimal (h : Solver.Propagating env F s p1 ctx p (some c))
    (h0 : p.trail.decisionLevel ≠ 0) {an1 an2 : Analysis} {lvl : Nat}
    (e1 : Analysis.derive1uip env s.search.analysis p c s.search.cb = .ok (an1, p', cb'))
    (e2 : an1.minimizeDerived p' = .ok (an2, lvl)) :
    (∀ l ∈ an2.derivedClause, l ∈ an1.derivedClause) ∧
    (∀ l ∈ an1.derivedClause, l ∉ an2.derivedClause →
      Recorded p' (fun x => ∃ y ∈ an2.derivedClause, x = y.neg) l.neg) ∧
    ∀ l ∈ an2.derivedClause,
      ¬ Recorded p' (fun x => ∃ y ∈ an2.derivedClause, y ≠ l ∧ x = y.neg) l.neg := by
  obtain ⟨L, S, S2, hi, q⟩ := h.phase
  obtain ⟨an', p2, cb2, S3, e3, oh, _, _, hmin, uip⟩ := derive1uip_spec (env := env) q.inv
    q.inv.storedInv hi.an hi.cb (q.conflict c rfl) h0
  cases e1.symm.trans e3
  have hi3 := oh.inv
  have db3 : storedBase S2 p + liveRed S2 = storedBase S3 p' + liveRed S3 := by
    obtain ⟨a, rfl⟩ := oh.eq
    unfold storedBase
    rw [oh.sim.liveIrr, oh.sim.liveRed]
  have htr : p'.trail = p.trail := by obtain ⟨a, rfl⟩ := oh.eq; rfl
  rw [← htr, db3] at uip
  obtain ⟨m', c', lvl', e4, hm', ass, sub, res⟩ := minimizeDerived_spec hi3 hi3.storedInv
    (by rw [hmin]; exact hi.min) uip (by rw [htr]; exact h0)
  cases e2.symm.trans e4
  exact ⟨sub, fun l hl _ => res.removed l hl, res.kept⟩

/-- The hypotheses of C49 are met by a conflict in which `2` is removed from the clause `2 1 5`: its
negation is implied by that of `1`, which is not implied by that of `5`. -/
theorem C49_example : ∃ s p1 ctx p c an1 p' cb' an2, Solver.Propagating Example.env
    (Example.cnf [[1, -2], [5, 1, 2, 3], [5, 1, 2, -3]]) s p1 ctx p (some c) ∧
    p.trail.decisionLevel ≠ 0 ∧
    Analysis.derive1uip Example.env s.search.analysis p c s.search.cb = .ok (an1, p', cb') ∧
    an1.minimizeDerived p' = .ok (an2, 1) ∧
    Recorded p' (fun x => ∃ y ∈ [5, 1].map Example.lit, x = y.neg) (Example.lit (-2)) ∧
    ¬ Recorded p' (fun x => x = Example.lit (-5)) (Example.lit (-1)) := by
  obtain ⟨s, p1, ctx, p, c, an1, p', cb', an2, h1, h2, h3, h4, h5, h6⟩ := C11_example
  obtain ⟨_, q2, q3⟩ := C49_minimal h1 (by omega) h3 h4
  rw [h5, h6] at q2
  rw [h6] at q3
  refine ⟨s, p1, ctx, p, c, an1, p', cb', an2, h1, by omega, h3, h4,
    q2 (Example.lit 2) (by decide) (by decide), ?_⟩
  intro hr
  refine q3 (Example.lit 1) (by decide) (hr.mono ?_)
  rintro x rfl
  exact ⟨Example.lit 5, by decide, by decide, by decide⟩

/-! ## C12 -/

theorem undoLoop_callbacks (ss : List Step) : ∀ {values values' : PartialAssignment}
    {cb cb' : Callbacks}, undoLoop ss values cb = .ok (values', cb') →
    ss.foldlM (fun cb st => cb.unassign st.lit) cb = .ok cb' := by
  induction ss with
  | nil => intro values values' cb cb' h; cases h; rfl
  | cons st ss ih =>
    intro values values' cb cb' h
    simp only [undoLoop] at h
    obtain ⟨cb1, e1, h⟩ := bind_eq_ok.1 h
    obtain ⟨v1, e2, h⟩ := bind_eq_ok.1 h
    rw [List.foldlM_cons, e1, bind_ok]
    exact ih h

/-- C12: `backtrack_to_level` succeeds for every lower level; it drops exactly the steps of higher
levels and unassigns their variables, calls the callback once for each of them, and keeps everything
else. -/
theorem C12_backtrack (h : Solver.Visited env F p cb) {level : Nat}
    (hl : level < p.trail.decisionLevel) :
    ∃ p' cb', backtrackToLevel p level cb = .ok (p', cb') ∧
      p'.trail.decisionLevel = level ∧
      p'.trail.steps = p.trail.steps.filter (fun st => decide (st.level ≤ level)) ∧
      (∀ l : Lit, l.index < formulaVars F →
        ((∃ st ∈ p.trail.steps, level < st.level ∧ st.lit.index = l.index) →
          p'.values.value l = .ok none) ∧
        ((∀ st ∈ p.trail.steps, level < st.level → st.lit.index ≠ l.index) →
          p'.values.value l = p.values.value l)) ∧
      (p.trail.steps.filter (fun st => decide (level < st.level))).foldlM
        (fun cb st => cb.unassign st.lit) cb = .ok cb' ∧
      p'.long = p.long ∧ p'.binary = p.binary ∧ p'.watches = p.watches ∧ p'.unsat = p.unsat := by
  obtain ⟨S, hi, hcb, _⟩ := h.inv
  obtain ⟨target, p', cb', ht, e, B⟩ := backtrack_spec hi hcb hl
  obtain ⟨hkeep, hdrop⟩ := hi.trail.take_eq_filter ht
  have hsteps : p'.trail.steps = p.trail.steps.filter (fun st => decide (st.level ≤ level)) := by
    rw [B.trail]; simp only [Trail.cut, hkeep]
  refine ⟨p', cb', e, B.level, hsteps, ?_, ?_, B.long, B.binary, B.watches, B.unsat⟩
  · intro l hli
    rw [B.inv.value hli, hi.value hli]
    constructor
    · rintro ⟨st, hst, hlev, hidx⟩
      have no : ∀ t ∈ p'.trail.steps, t.lit.index ≠ l.index := by
        intro t ht' hti
        rw [hsteps, List.mem_filter] at ht'
        have htl : t.level ≤ level := by simpa using ht'.2
        rcases Lit.eq_or_eq_neg (hti.trans hidx.symm) with e1 | e1
        · have := hi.trail.level_unique ht'.1 hst e1; omega
        · exact hi.trail.not_both ht'.1 hst e1
      cases hv : p'.values.val l with
      | none => rfl
      | some b =>
        exfalso
        cases b with
        | true =>
          obtain ⟨t, ht', e1⟩ := (B.inv.trail.val_iff l).1 hv
          exact no t ht' (by rw [e1])
        | false =>
          obtain ⟨t, ht', e1⟩ := (B.inv.trail.val_false_iff l).1 hv
          exact no t ht' (by rw [e1]; simp)
    · intro hno
      have tr : ∀ l : Lit, (∀ st ∈ p.trail.steps, level < st.level → st.lit.index ≠ l.index) →
          (p'.values.val l = some true ↔ p.values.val l = some true) := by
        intro l hno
        rw [B.inv.trail.val_iff, hi.trail.val_iff, hsteps]
        constructor
        · rintro ⟨t, ht', e1⟩
          exact ⟨t, (List.mem_filter.1 ht').1, e1⟩
        · rintro ⟨t, ht', e1⟩
          refine ⟨t, List.mem_filter.2 ⟨ht', ?_⟩, e1⟩
          have := hno t ht'
          rw [e1] at this
          simp at this
          simpa using this
      have t1 := tr l hno
      have t2 := tr l.neg (by simpa using hno)
      rw [PartialAssignment.val_neg B.inv.trail.vwf, PartialAssignment.val_neg hi.trail.vwf] at t2
      congr 1
      cases h1 : p'.values.val l with
      | none =>
        cases h2 : p.values.val l with
        | none => rfl
        | some b => cases b <;> simp [h1, h2] at t1 t2
      | some b =>
        cases h2 : p.values.val l with
        | none => cases b <;> simp [h1, h2] at t1 t2
        | some b' => cases b <;> cases b' <;> simp [h1, h2] at t1 t2 ⊢
  · unfold backtrackToLevel at e
    obtain ⟨_, _, e⟩ := bind_eq_ok.1 e
    obtain ⟨tgt, e1, e⟩ := bind_eq_ok.1 e
    rw [idx_ok ht] at e1
    cases e1
    obtain ⟨_, _, e⟩ := bind_eq_ok.1 e
    obtain ⟨⟨v, cb1⟩, e2, e⟩ := bind_eq_ok.1 e
    cases e
    rw [← hdrop]
    exact undoLoop_callbacks _ e2

/-! ## C13 -/

/-- C13: `pop_decision_var` succeeds.  It returns an unassigned variable of the formula, or `None` if
every variable is assigned.  Before the call the heap contains every unassigned variable. -/
theorem C13_decision (h : Solver.Visited env F p cb) :
    (∀ l : Lit, l.index < formulaVars F → p.values.value l = .ok none →
      l.index ∈ cb.vsids.activity.heap) ∧
    ∃ r v, cb.vsids.popDecisionVar p.values = .ok (r, v) ∧
      (r = none → ∀ l : Lit, l.index < formulaVars F → p.values.value l ≠ .ok none) ∧
      (∀ x, r = some x → x < formulaVars F ∧
        ∀ l : Lit, l.index = x → p.values.value l = .ok none) := by
  obtain ⟨S, hi, hcb, hcov⟩ := h.inv
  refine ⟨?_, ?_⟩
  · intro l hl hv
    rw [hi.value hl] at hv
    exact hcov l hl (Except.ok.inj hv)
  · obtain ⟨r, v, e, _, _, h1, h2⟩ := popDecisionVar_spec hcb hi.trail.vwf hi.sized.values
      hi.sized.n_le hcov
    refine ⟨r, v, e, ?_, ?_⟩
    · intro hr l hl hv
      rw [hi.value hl] at hv
      exact h1 hr l hl (Except.ok.inj hv)
    · intro x hx
      obtain ⟨h3, h4, _⟩ := h2 x hx
      refine ⟨h3, ?_⟩
      rintro l rfl
      rw [hi.value h3]
      have hm : l.index ≤ MAX_INDEX := by have := hi.sized.n_le; omega
      congr 1
      have : ∃ b, l = litOf l.index b := by
        rcases Lit.eq_or_eq_neg (a := l) (b := litOf l.index true) (litOf_index hm true).symm with e | e
        · exact ⟨true, e⟩
        · refine ⟨false, ?_⟩
          rcases Lit.eq_or_eq_neg (a := l) (b := litOf l.index false) (litOf_index hm false).symm
            with e' | e'
          · exact e'
          · exfalso
            have h5 : (litOf l.index true).isPositive = (litOf l.index false).isPositive := by
              rw [show litOf l.index true = litOf l.index false from by
                have := e.symm.trans e'
                have := congrArg Lit.neg this
                simpa using this]
            rw [litOf_isPositive hm, litOf_isPositive hm] at h5
            simp at h5
      obtain ⟨b, hb⟩ := this
      rw [hb]
      exact h4 b

/-- C13, which variable: the returned one has the largest activity of all unassigned variables, if
bumping does not decrease activities and rescaling keeps their order (C41). -/
theorem C13_max (h : Solver.Visited env F p cb) (hm : env.Mono) {x : Nat} {v : Vsids}
    (e : cb.vsids.popDecisionVar p.values = .ok (some x, v)) {a b : Nat}
    (ha : cb.vsids.activity.values[x]? = some a) {l : Lit} (hl : l.index < formulaVars F)
    (hv : p.values.value l = .ok none) (hb : cb.vsids.activity.values[l.index]? = some b) : b ≤ a := by
  obtain ⟨S, hi, hcb, hcov⟩ := h.inv
  obtain ⟨r, v', e', _, pp, h1, h2⟩ := popDecisionVar_spec hcb hi.trail.vwf hi.sized.values
    hi.sized.n_le hcov
  rw [e] at e'
  simp only [Except.ok.injEq, Prod.mk.injEq] at e'
  obtain ⟨rfl, rfl⟩ := e'
  rw [hi.value hl] at hv
  have hv := Except.ok.inj hv
  refine pp.max (hcb.ord hm) x rfl a ha l.index (hcov l hl hv) ?_ b hb
  have hmx : l.index ≤ MAX_INDEX := by have := hi.sized.n_le; omega
  rcases Lit.eq_or_eq_neg (a := litOf l.index true) (b := l) (litOf_index hmx true) with e | e
  · rw [e]; exact hv
  · rw [e, PartialAssignment.val_neg hi.trail.vwf, hv]; rfl

/-- States for C11, C12 and C13: the conflict at level 4 of C10, and a decision with unassigned
variables left. -/
theorem C13_example : ∃ p cb, Solver.Visited Example.env (Example.cnf (Example.php 4 3)) p cb ∧
    p.trail.decisionLevel = 4 ∧ ∃ p' cb' x v, backtrackToLevel p 2 cb = .ok (p', cb') ∧
    Solver.Visited Example.env (Example.cnf (Example.php 4 3)) p cb ∧
    cb'.vsids.popDecisionVar p'.values = .ok (some x, v) ∧ x = 7 := by
  have h : (do
      let x ← Example.mid (Example.php 4 3) 4
      let (p', cb') ← backtrackToLevel x.2.2.2.1 2 x.1.search.cb
      let (r, _) ← cb'.vsids.popDecisionVar p'.values
      pure (x.2.2.2.1.trail.decisionLevel, r) : M (Nat × Option Nat)) = .ok (4, some 7) := by
    decide +kernel
  obtain ⟨⟨s, p1, ctx, p, r⟩, h1, h2⟩ := bind_eq_ok.1 h
  obtain ⟨⟨p', cb'⟩, h3, h2⟩ := bind_eq_ok.1 h2
  obtain ⟨⟨x, v⟩, h4, h2⟩ := bind_eq_ok.1 h2
  have h2 := Except.ok.inj h2
  simp only [Prod.mk.injEq] at h2
  obtain ⟨h5, rfl⟩ := h2
  have hv := Solver.Visited.propagated (Example.mid_propagating (by decide +kernel) h1)
  exact ⟨p, _, hv, h5, p', cb', 7, v, h3, hv, h4, rfl⟩

/-! ## C31 -/

/-- C31: for literals with known levels and cleared flags, `compute_glue` returns the number of distinct
levels and clears the flags. -/
theorem C31_compute_glue (t : Trail) (ls : List Lit) (k : Nat) (lv : Lit → Nat)
    (hl : ∀ l ∈ ls, ∃ st, t.stepForVar l.index = .ok st ∧ st.level = lv l ∧ lv l < k) :
    computeGlue t ls (List.replicate k false) =
      .ok ((ls.map lv).toFinset.card, List.replicate k false) := by
  obtain ⟨tmp', e, h1, h2⟩ := computeGlue_spec (t := t) (lv := lv) (ls := ls)
    (tmp := List.replicate k false) (by
      intro i hi
      rw [List.getElem?_replicate] at hi
      split at hi <;> simp at hi) (by
      intro l hx
      obtain ⟨st, h1, h2, h3⟩ := hl l hx
      exact ⟨⟨st, h1, h2⟩, by simpa using h3⟩)
  rw [e]
  congr 2
  simp only [List.length_replicate] at h1
  rw [List.eq_replicate_iff]
  refine ⟨h1, ?_⟩
  intro b hb
  obtain ⟨i, hi⟩ := List.mem_iff_getElem?.1 hb
  cases b with
  | false => rfl
  | true => exact absurd hi (h2 i)

/-- C31 in the states of the solver: it is applicable to all clauses of assigned variables. -/
theorem C31_reachable (h : Solver.Visited env F p cb) {ls : List Lit}
    (hl : ∀ l ∈ ls, ∃ st ∈ p.trail.steps, st.lit.index = l.index) {k : Nat}
    (hk : p.trail.decisionLevel < k) (lv : Lit → Nat)
    (hlv : ∀ l ∈ ls, ∀ st ∈ p.trail.steps, st.lit.index = l.index → lv l = st.level) :
    computeGlue p.trail ls (List.replicate k false) =
      .ok ((ls.map lv).toFinset.card, List.replicate k false) := by
  obtain ⟨S, hi, _, _⟩ := h.inv
  refine C31_compute_glue p.trail ls k lv ?_
  intro l hx
  obtain ⟨st, hs, e⟩ := hl l hx
  obtain ⟨st', h1, h2⟩ := hi.trail.levelOf hs e
  refine ⟨st', h1, ?_, ?_⟩
  · rw [h2, hlv l hx st hs e]
  · rw [hlv l hx st hs e]
    obtain ⟨i, hi'⟩ := List.mem_iff_getElem?.1 hs
    have := hi.trail.level_le i st hi'
    omega

/-- Three levels among four literals. -/
theorem C31_example : (Example.mid (Example.php 4 3) 4).map (fun x =>
    computeGlue x.2.2.2.1.trail ([1, 12, 11, -10].map Example.lit) (List.replicate 5 false)) =
    .ok (.ok (3, List.replicate 5 false)) := by decide +kernel

end

end Starlit
