import Verif.Solver.Reduce

/-!
# One step of the search, restarts and the schedule
-/

namespace Starlit

/-- Invariant of the search between two steps: `F` are the input clauses, `L` the learned clauses
that are not deleted, `S` the stored long clauses. -/
structure SInv (env : Env) (n : Nat) (F L : DB) (S : List LC) (ctx : Ctx) (s : Search) : Prop where
  prop : PInv n S s.prop
  noprot : NoProt S
  db : DBInv F L S s.prop.binary s.prop.trail.steps s.prop.unsat
  stats : StatsInv F L n s.prop.binary ctx.formula
  proof : ProofInv F L ctx.proof s.prop.unsat
  an : AnIdle s.analysis
  min : MinIdle s.analysis.minimize
  cb : CbInv env n s.cb
  covers : Covers n s.prop.values s.cb

section
variable {env : Env} {n : Nat} {F L : DB} {S : List LC} {p : PropState} {ctx : Ctx} {s : Search}

/-- Collecting garbage and propagating: `p2` is `p` with renamed references and more literals
assigned at the current level. -/
structure Phase (n : Nat) (S : List LC) (p : PropState) (S2 : List LC) (p2 : PropState)
    (r : Option ConflictClause) : Prop where
  inv : PInv n S2 p2
  steps : ∃ ρ new, p2.trail.steps = p.trail.steps.map (Step.ren ρ) ++ new ∧
    ∀ s ∈ new, s.level = p.trail.decisionLevel ∧ s.reason ≠ .unit ∧ s.reason ≠ .decision
  decisions : p2.trail.decisions = p.trail.decisions
  propagated : p.trail.propagated ≤ p2.trail.propagated
  binary : p2.binary = p.binary
  unsat : p2.unsat = p.unsat
  noprot : NoProt S → NoProt S2
  db : ∀ F L : DB, DBInv F L S p.binary p.trail.steps p.unsat →
    DBInv F L S2 p2.binary p2.trail.steps p2.unsat
  done : r = none → p2.trail.propagated = p2.trail.steps.length
  conflict : ∀ c, r = some c → ConflictOK S2 p2 c

theorem Phase.level {S2 : List LC} {p2 : PropState} {r : Option ConflictClause}
    (h : Phase n S p S2 p2 r) : p2.trail.decisionLevel = p.trail.decisionLevel := by
  unfold Trail.decisionLevel; rw [h.decisions]

theorem Step.ren_none (steps : List Step) : steps.map (Step.ren (fun _ => none)) = steps := by
  rw [List.map_congr_left (g := id), List.map_id]
  intro s _
  obtain ⟨l, v, r⟩ := s
  cases r <;> rfl

theorem Phase.val {S2 : List LC} {p2 : PropState} {r : Option ConflictClause} (hp : PInv n S p)
    (h : Phase n S p S2 p2 r) {l : Lit} {b : Bool} (hv : p.values.val l = some b) :
    p2.values.val l = some b := by
  obtain ⟨ρ, new, h1, _⟩ := h.steps
  have key : ∀ l, p.values.val l = some true → p2.values.val l = some true := by
    intro l hl
    obtain ⟨s, hs, e⟩ := (hp.trail.val_iff l).1 hl
    refine (h.inv.trail.val_iff l).2 ⟨s.ren ρ, ?_, e⟩
    rw [h1, List.mem_append]
    exact .inl (List.mem_map.2 ⟨s, hs, rfl⟩)
  cases b with
  | true => exact key l hv
  | false =>
    have h2 : p.values.val l.neg = some true := by
      rw [PartialAssignment.val_neg hp.trail.vwf, hv]; rfl
    have h3 := key _ h2
    rw [PartialAssignment.val_neg h.inv.trail.vwf] at h3
    cases hx : p2.values.val l with
    | none => rw [hx] at h3; simp at h3
    | some c => rw [hx] at h3; cases c <;> simp_all

theorem Phase.covers {S2 : List LC} {p2 : PropState} {r : Option ConflictClause} {cb : Callbacks}
    (hp : PInv n S p) (h : Phase n S p S2 p2 r) (hc : Covers n p.values cb) :
    Covers n p2.values cb := by
  intro l hl hv
  refine hc l hl ?_
  cases hx : p.values.val l with
  | none => rfl
  | some b => rw [h.val hp hx] at hv; simp at hv

theorem PExt.phase {S' : List LC} {p' : PropState} {r : Option ConflictClause}
    (h : PropagatePost n S p p' r) : ∃ S2, Phase n S p S2 p' r := by
  obtain ⟨hx, S2, hs, hi, h1, h2⟩ := h
  obtain ⟨new, e1, e2⟩ := hx.steps
  refine ⟨S2, hi, ⟨fun _ => none, new, by rw [Step.ren_none]; exact e1, e2⟩, hx.decisions, hx.prop,
    hx.binary, hx.unsat, hs.noProt, ?_, h1, h2⟩
  intro F L d
  have d1 := d.sim hs
  rw [hx.binary, hx.unsat, e1]
  refine ⟨d1.red, d1.irr, d1.bin, d1.fbin, ?_, ?_, d1.fempty⟩
  · intro s hs hr
    rcases List.mem_append.1 hs with hs | hs
    · exact d1.unit s hs hr
    · exact absurd hr (e2 s hs).2.1
  · intro a ha
    rcases d1.funit a ha with e | ⟨s, h3, h4⟩
    · exact .inl e
    · exact .inr ⟨s, by simp [h3], h4⟩

/-- Garbage collection and propagation. -/
theorem phase_spec (h : PInv n S p) (ctx : Ctx) :
    Wp (do let p ← collectGarbage p; propagate ctx p) (fun (ctx', p', r) =>
      (∃ S2, Phase n S p S2 p' r) ∧ ctx'.proof = ctx.proof ∧ ctx'.search = ctx.search ∧
        ctx'.formula = ctx.formula) := by
  rw [wp_bind]
  refine (collectGarbage_spec h).mono ?_
  rintro p1 (rfl | ⟨ρ, hg⟩)
  · refine (propagate_spec ctx h).mono ?_
    rintro ⟨ctx', p', r⟩ ⟨h1, h2⟩
    exact ⟨PExt.phase (S' := S) h1, h2⟩
  · refine (propagate_spec ctx hg.inv).mono ?_
    rintro ⟨ctx', p', r⟩ ⟨h1, h2⟩
    obtain ⟨S2, q⟩ := PExt.phase (S' := S) h1
    refine ⟨⟨S2, ?_⟩, h2⟩
    obtain ⟨a, ha⟩ := hg.eq
    obtain ⟨ρ2, new, e1, e2⟩ := q.steps
    have hx := h1.1.steps
    obtain ⟨new', x1, x2⟩ := hx
    subst ha
    refine ⟨q.inv, ⟨ρ, new', x1, x2⟩, q.decisions, q.propagated, q.binary, q.unsat, ?_, ?_, q.done,
      q.conflict⟩
    · intro hn
      refine q.noprot ?_
      intro e he
      obtain ⟨x, hx, r', hr, rfl⟩ := mem_renS.1 he
      exact hn x hx
    · intro F L d
      exact q.db F L (hg.db d)

/-- The trail after a decision. -/
def Trail.decide (t : Trail) (l : Lit) : Trail :=
  { t with decisions := t.decisions ++ [t.steps.length] }.push ⟨l, t.decisions.length, .decision⟩

theorem PInv.decide (h : PInv n S p) {l : Lit} (hl : l.index < n) (hun : p.values.val l = none)
    (hp : p.trail.propagated = p.trail.steps.length) :
    Wp (p.assignDecision l) (fun p' => PInv n S p' ∧
      p' = { p with values := p.values.push l, trail := p.trail.decide l }) := by
  unfold PropState.assignDecision
  have hsz : Sized n { p with
    trail := { p.trail with decisions := p.trail.decisions ++ [p.trail.steps.length] } } :=
    ⟨h.sized.values, h.sized.tix, h.sized.bin, h.sized.wat, h.sized.n_le⟩
  have hdl : ({ p.trail with decisions := p.trail.decisions ++ [p.trail.steps.length] } :
      Trail).decisionLevel = p.trail.decisions.length := by
    simp [Trail.decisionLevel]
  simp only [hdl]
  rw [assign_eq hsz (s := ⟨l, p.trail.decisions.length, .decision⟩) hl h.trail.vwf hun]
  split
  · rename_i hlen
    have hk := h.trail.prop_le
    rw [wp_ok]
    refine ⟨⟨hsz.push _, h.trail.pushDecision h.sized.values h.sized.tix hl hp hun, ?_, h.rep, h.long,
      h.ws, h.blk, h.wsat.snoc hk _, h.bs, h.bsat.snoc hk _, h.enabled, ?_⟩, rfl⟩
    · apply ReasonInv.push
      · intro i x hx
        have := h.reasons i x hx
        unfold ReasonOK at this ⊢
        cases hr : x.reason with
        | decision =>
          rw [hr] at this
          refine ⟨this.1, ?_⟩
          simp only
          rw [List.getElem?_append_left (List.getElem?_eq_some_iff.1 this.2).1]
          exact this.2
        | unit => rw [hr] at this; exact this
        | binary o => rw [hr] at this; exact this
        | long c => rw [hr] at this; exact this
      · refine ⟨h.trail.decisions_pos, ?_⟩
        simp [Trail.push]
    · simp only [Trail.push, List.length_append, List.length_singleton] at hlen ⊢
      omega
  · simp

/-- What a search step does. -/
inductive StepPost (env : Env) (n : Nat) (F L : DB) (S : List LC) (ctx : Ctx) (s : Search) :
    DB → List LC → Ctx → Search → Option Bool → Prop
  | already : s.prop.unsat = true → StepPost env n F L S ctx s L S ctx s (some false)
  | fail {S2 : List LC} {p2 : PropState} {ctx' : Ctx} {c : ConflictClause} :
      s.prop.unsat = false → Phase n S s.prop S2 p2 (some c) → p2.trail.decisionLevel = 0 →
      ctx'.search = { ctx.search with conflicts := ctx.search.conflicts + 1 } →
      ctx'.proof = ctx.proof →
      StepPost env n F L S ctx s L S2 ctx' { s with prop := { p2 with unsat := true } } (some false)
  | learn {S2 S' : List LC} {p2 : PropState} {ctx1 ctx' : Ctx} {s' : Search} {c : ConflictClause}
      {C : List Lit} {lvl target : Nat} :
      s.prop.unsat = false → Phase n S s.prop S2 p2 (some c) → p2.trail.decisionLevel ≠ 0 →
      ctx1.search = { ctx.search with conflicts := ctx.search.conflicts + 1 } →
      ctx1.proof = ctx.proof →
      AnalyzePost env n F L S2 ctx1 p2 s.cb S' C lvl target ctx' s'.analysis s'.prop s'.cb →
      StepPost env n F L S ctx s ((C : Multiset Lit) ::ₘ L) S' ctx' s' none
  | decide {S2 : List LC} {p2 : PropState} {ctx' : Ctx} {v : Vsids} {x : Nat} {b : Bool} :
      s.prop.unsat = false → Phase n S s.prop S2 p2 none →
      x < n → p2.values.val (litOf x b) = none → s.cb.phases[x]? = some b →
      PopPost p2.values s.cb.vsids.activity (some x) v.activity →
      ctx'.search = { ctx.search with decisions := ctx.search.decisions + 1 } →
      ctx'.proof = ctx.proof →
      StepPost env n F L S ctx s L S2 ctx'
        { s with
          prop := { p2 with values := p2.values.push (litOf x b), trail := p2.trail.decide (litOf x b) }
          cb := { s.cb with vsids := v } } none
  | sat {S2 : List LC} {p2 : PropState} {ctx' : Ctx} {v : Vsids} :
      s.prop.unsat = false → Phase n S s.prop S2 p2 none →
      (∀ l : Lit, l.index < n → p2.values.val l ≠ none) →
      PopPost p2.values s.cb.vsids.activity none v.activity →
      ctx'.search = ctx.search → ctx'.proof = ctx.proof →
      StepPost env n F L S ctx s L S2 ctx'
        { s with prop := p2, cb := { s.cb with vsids := v } } (some true)

/-- A conflict at the top level refutes the database by unit propagation. -/
theorem PInv.upConflict (h : PInv n S p) (d : DBInv F L S p.binary p.trail.steps p.unsat)
    {c : ConflictClause} (hc : ConflictOK S p c) (h0 : p.trail.decisionLevel = 0) :
    UpConflict (F + L) (fun _ => False) := by
  obtain ⟨ls, _, h1, _, h2⟩ := h.conflict d hc
  refine ⟨_, h2, ?_⟩
  intro o ho
  obtain ⟨s, hs, e⟩ := h1 o (by simpa using ho)
  rw [← e]
  refine h.implied0 d hs ?_ _
  obtain ⟨i, hi⟩ := List.mem_iff_getElem?.1 hs
  have := h.trail.level_le i s hi
  omega

theorem searchStep_spec (h : SInv env n F L S ctx s) :
    Wp (searchStep env ctx s) (fun (ctx', s', r) => ∃ L' S', SInv env n F L' S' ctx' s' ∧
      StepPost env n F L S ctx s L' S' ctx' s' r) := by
  unfold searchStep
  cases hu : s.prop.unsat with
  | true =>
    simp only [if_true, wp_pure]
    exact ⟨L, S, h, .already hu⟩
  | false =>
  simp only [Bool.false_eq_true, if_false]
  have hph := phase_spec h.prop ctx
  rw [wp_bind] at hph
  rw [wp_bind]
  refine hph.mono ?_
  intro p1 hp1
  rw [wp_bind]
  refine hp1.mono ?_
  rintro ⟨ctx2, p2, r⟩ ⟨⟨S2, q⟩, c1, c2, c3⟩
  simp only
  have d2 := q.db F L h.db
  have st2 : StatsInv F L n p2.binary ctx2.formula := by rw [c3, q.binary]; exact h.stats
  have cov2 := q.covers h.prop h.covers
  have pr2 : ProofInv F L ctx2.proof p2.unsat := by rw [c1, q.unsat]; exact h.proof
  cases r with
  | some c =>
    simp only
    by_cases h0 : p2.trail.decisionLevel = 0
    · rw [if_pos h0, wp_pure]
      refine ⟨L, S2, ⟨⟨⟨q.inv.sized.values, q.inv.sized.tix, q.inv.sized.bin, q.inv.sized.wat,
        q.inv.sized.n_le⟩, q.inv.trail, q.inv.reasons, q.inv.rep, q.inv.long, q.inv.ws, q.inv.blk,
        q.inv.wsat, q.inv.bs, q.inv.bsat, q.inv.enabled, q.inv.small⟩, q.noprot h.noprot,
        ⟨d2.red, d2.irr, d2.bin, d2.fbin, d2.unit, fun _ _ => .inl rfl, fun _ => rfl⟩, st2, ?_, h.an,
        h.min, h.cb, cov2⟩, .fail hu q h0 (by simp only [c2]) c1⟩
      obtain ⟨log, l1, l2, _⟩ := pr2
      refine ⟨log, l1, l2, fun _ => ⟨log, L, List.prefix_refl _, l1, ?_⟩⟩
      exact q.inv.upConflict d2 (q.conflict c rfl) h0
    · rw [if_neg h0, wp_bind]
      refine (analyzeConflict_spec (env := env) (ctx := { ctx2 with
        search := { ctx2.search with conflicts := ctx2.search.conflicts + 1 } }) q.inv d2 h.an h.min
        h.cb (q.conflict c rfl) h0).mono ?_
      rintro ⟨ctx', an', p', cb'⟩ ⟨S', C, lvl, target, a⟩
      simp only [wp_pure]
      refine ⟨(C : Multiset Lit) ::ₘ L, S', ⟨a.inv, a.noprot (q.noprot h.noprot), a.db,
        a.stats st2, ?_, a.an, a.min, a.cbinv, a.covers cov2⟩,
        .learn (ctx1 := { ctx2 with
          search := { ctx2.search with conflicts := ctx2.search.conflicts + 1 } }) hu q h0
          (by simp only [c2]) c1 a⟩
      rw [a.proof, a.unsat]
      exact ProofInv.add (ctx := { ctx2 with
        search := { ctx2.search with conflicts := ctx2.search.conflicts + 1 } }) pr2 a.asserting.rup
        (a.asserting.valid q.inv)
  | none =>
    simp only
    obtain ⟨x, v', e1, cb1, pp, all, some⟩ := popDecisionVar_spec h.cb q.inv.trail.vwf
      q.inv.sized.values q.inv.sized.n_le (q.covers h.prop h.covers)
    rw [e1, bind_ok]
    simp only
    cases x with
    | none =>
      simp only [wp_pure]
      refine ⟨L, S2, ⟨q.inv, q.noprot h.noprot, d2, st2, pr2, h.an, h.min, cb1, ?_⟩,
        .sat hu q (all rfl) pp c2 c1⟩
      intro l hl hv
      exact absurd hv (all rfl l hl)
    | some x =>
      simp only
      obtain ⟨hx, hun, hcov⟩ := some x rfl
      have hxl : x < s.cb.phases.length := by rw [h.cb.phases]; exact hx
      have hph := List.getElem?_eq_getElem hxl
      generalize s.cb.phases[x] = b at hph
      have hxm : x ≤ MAX_INDEX := by have := q.inv.sized.n_le; omega
      have hli : (litOf x b).index = x := litOf_index hxm b
      have e2 : decidePhase s.cb.phases x = .ok (litOf x b) := by
        unfold decidePhase
        rw [idx_ok hph, bind_ok]; rfl
      rw [e2, bind_ok, wp_bind]
      refine (q.inv.decide (l := litOf x b) (by rw [hli]; exact hx) (hun b) (q.done rfl)).mono ?_
      rintro p' ⟨hp', rfl⟩
      rw [wp_pure]
      refine ⟨L, S2, ⟨hp', q.noprot h.noprot, ?_, st2, pr2, h.an, h.min, cb1, ?_⟩,
        .decide hu q hx (hun b) hph pp (by simp only [c2]) c1⟩
      · refine ⟨d2.red, d2.irr, d2.bin, d2.fbin, ?_, ?_, d2.fempty⟩
        · intro y hy hr
          simp only [Trail.decide, Trail.push, List.mem_append, List.mem_singleton] at hy
          rcases hy with hy | rfl
          · exact d2.unit y hy hr
          · simp at hr
        · intro a ha
          rcases d2.funit a ha with e | ⟨y, h3, h4⟩
          · exact .inl e
          · exact .inr ⟨y, by simp [Trail.decide, Trail.push, h3], h4⟩
      · intro l hl hv
        simp only [PartialAssignment.push] at hv
        rw [PartialAssignment.val_assign (by rw [q.inv.sized.values, hli]; exact hx)] at hv
        split at hv
        · simp at hv
        · rename_i n1
          split at hv
          · simp at hv
          · rename_i n2
            refine hcov l hl hv ?_
            intro e
            rcases Lit.eq_or_eq_neg (e.trans hli.symm) with e | e
            · exact n1 e
            · exact n2 e

/-- A restart keeps everything assigned at the top level. -/
theorem restart_spec (h : SInv env n F L S ctx s) :
    ∃ ctx' s', restart ctx s = .ok (ctx', s') ∧ SInv env n F L S ctx' s' ∧
      ctx' = { ctx with search := { ctx.search with restarts := ctx.search.restarts + 1 } } ∧
      s'.prop.trail.decisionLevel = 0 ∧ s'.analysis = s.analysis ∧
      ((s.prop.trail.decisionLevel = 0 ∧ s' = s) ∨ ∃ target,
        s.prop.trail.decisions[1]? = some target ∧
        BackPost env n S s.prop s.cb 0 target s'.prop s'.cb) := by
  unfold restart
  by_cases h0 : s.prop.trail.decisionLevel > 0
  · simp only [if_pos h0]
    obtain ⟨target, p', cb', ht, e, b⟩ := backtrack_spec h.prop h.cb h0
    rw [e, bind_ok]
    refine ⟨_, _, rfl, ⟨b.inv, h.noprot, ?_, ?_, ?_, h.an, h.min, b.cbinv, b.covers h.covers⟩, rfl,
      b.level, rfl, .inr ⟨target, ht, b⟩⟩
    · simp only
      rw [b.binary, b.unsat, b.trail]
      refine ⟨h.db.red, h.db.irr, h.db.bin, h.db.fbin, ?_, ?_, h.db.fempty⟩
      · intro x hx; exact h.db.unit x (List.mem_of_mem_take hx)
      · intro a ha
        rcases h.db.funit a ha with e | ⟨x, h1, h2, h3⟩
        · exact .inl e
        · obtain ⟨j, hj⟩ := List.mem_iff_getElem?.1 h1
          refine .inr ⟨x, mem_take_iff.2 ⟨j, ?_, hj⟩, h2, h3⟩
          exact (h.prop.trail.kept_iff ht hj).2 (by omega)
    · simp only; rw [b.binary]; exact h.stats
    · simp only; rw [b.unsat]; exact h.proof
  · simp only [if_neg h0]
    exact ⟨_, _, rfl, ⟨h.prop, h.noprot, h.db, h.stats, h.proof, h.an, h.min, h.cb, h.covers⟩, rfl,
      by simpa using h0, rfl, .inl ⟨by omega, rfl⟩⟩

/-- A reduction keeps the invariant. -/
theorem reduce_inv (h : SInv env n F L S ctx s) :
    ∃ ctx' s' L' D S', reduce env ctx s = .ok (ctx', s') ∧ SInv env n F L' S' ctx' s' ∧
      ReducePost env n F L L' ctx S s.prop D S' ctx' s'.prop ∧ s'.cb = s.cb ∧
      s'.analysis = s.analysis := by
  obtain ⟨ctx', p', L', D, S', e, q⟩ := reduce_spec (env := env) h.prop h.noprot h.db h.stats h.proof
  obtain ⟨a, rfl⟩ := q.eq
  refine ⟨ctx', _, L', D, S', e, ⟨q.inv, ?_, q.db, q.stats, q.del.proof, h.an, h.min, h.cb, h.covers⟩,
    q, rfl, rfl⟩
  rw [q.clauses]
  intro x hx
  obtain ⟨y, hy, rfl⟩ := List.mem_map.1 hx
  rw [(reduceE_spec _ _ y).2.2.2.2]; exact h.noprot y hy

end

end Starlit
