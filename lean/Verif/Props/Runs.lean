import Verif.Props.Database
import Verif.Props.Luby

/-!
# C34, C36, C42, C43: restarts, the restart schedule, top-level assignments and phases
-/

namespace Starlit

/-- The polarities recorded when the steps above a level are undone. -/
def undone (t : Trail) (level : Nat) (u : Nat → Option Bool) : Nat → Option Bool := fun x =>
  match t.steps.find? (fun st => decide (level < st.level) && decide (st.lit.index = x)) with
  | some st => some st.lit.isPositive
  | none => u x

/-- A run with its history: the polarity each variable had when it was last unassigned, and the numbers
of conflicts at which restarts happened, the last one first. -/
inductive Solver.History (env : Env) (F : List (List Lit)) :
    Solver → (Nat → Option Bool) → List Nat → Prop
  | input {s : Solver} : Solver.Input env F s → History env F s (fun _ => none) []
  | noRestart {s s' : Solver} {u : Nat → Option Bool} {cs : List Nat} : History env F s u cs →
      s.maybeRestart = .ok s' → s'.ctx.search.restarts = s.ctx.search.restarts →
      History env F s' u cs
  | restart {s s' : Solver} {u : Nat → Option Bool} {cs : List Nat} : History env F s u cs →
      s.maybeRestart = .ok s' → s'.ctx.search.restarts ≠ s.ctx.search.restarts →
      History env F s' (undone s.search.prop.trail 0 u) (s.ctx.search.conflicts :: cs)
  | reduce {s s' : Solver} {u : Nat → Option Bool} {cs : List Nat} : History env F s u cs →
      s.maybeReduce env = .ok s' → History env F s' u cs
  | learn {s : Solver} {u : Nat → Option Bool} {cs : List Nat} {p1 p : PropState} {ctx1 ctx : Ctx}
      {c : ConflictClause} {search : Search} {r : Option Bool} : History env F s u cs →
      Solver.Propagating env F s p1 ctx1 p (some c) → p.trail.decisionLevel ≠ 0 →
      searchStep env s.ctx s.search = .ok (ctx, search, r) →
      History env F { s with ctx := ctx, search := search }
        (undone p.trail search.prop.trail.decisionLevel u) cs
  | step {s : Solver} {u : Nat → Option Bool} {cs : List Nat} {ctx : Ctx} {search : Search}
      {r : Option Bool} : History env F s u cs →
      (∀ p1 ctx1 p c, Solver.Propagating env F s p1 ctx1 p (some c) → p.trail.decisionLevel = 0) →
      searchStep env s.ctx s.search = .ok (ctx, search, r) →
      History env F { s with ctx := ctx, search := search } u cs

/-- The states after a state in the same call of `solve()`, or later ones. -/
inductive Solver.Later (env : Env) : Solver → Solver → Prop
  | refl {s : Solver} : Later env s s
  | restart {s s1 s' : Solver} : Later env s s1 → s1.maybeRestart = .ok s' → Later env s s'
  | reduce {s s1 s' : Solver} : Later env s s1 → s1.maybeReduce env = .ok s' → Later env s s'
  | step {s s1 : Solver} {ctx : Ctx} {search : Search} {r : Option Bool} : Later env s s1 →
      searchStep env s1.ctx s1.search = .ok (ctx, search, r) →
      Later env s { s1 with ctx := ctx, search := search }

section
variable {env : Env} {F : List (List Lit)} {s s' : Solver} {u : Nat → Option Bool} {cs : List Nat}

/-! ## Lemmas -/

theorem Solver.History.reachable (h : Solver.History env F s u cs) : Solver.Reachable env F s := by
  induction h with
  | input h => exact .input h
  | noRestart _ e _ ih => exact ih.restart e
  | restart _ e _ ih => exact ih.restart e
  | reduce _ e ih => exact ih.reduce e
  | learn _ _ _ e ih => exact ih.step e
  | step _ _ e ih => exact ih.step e

/-- Each reachable state has a history. -/
theorem Solver.Reachable.history (h : Solver.Reachable env F s) :
    ∃ u cs, Solver.History env F s u cs := by
  induction h with
  | input h => exact ⟨_, _, .input h⟩
  | @restart s s' _ e ih =>
    obtain ⟨u, cs, ih⟩ := ih
    by_cases hr : s'.ctx.search.restarts = s.ctx.search.restarts
    · exact ⟨_, _, ih.noRestart e hr⟩
    · exact ⟨_, _, ih.restart e hr⟩
  | reduce _ e ih =>
    obtain ⟨u, cs, ih⟩ := ih
    exact ⟨_, _, ih.reduce e⟩
  | @step s ctx search r _ e ih =>
    obtain ⟨u, cs, ih⟩ := ih
    by_cases hc : ∃ p1 ctx1 p c, Solver.Propagating env F s p1 ctx1 p (some c) ∧
        p.trail.decisionLevel ≠ 0
    · obtain ⟨p1, ctx1, p, c, h1, h2⟩ := hc
      exact ⟨_, _, ih.learn h1 h2 e⟩
    · refine ⟨_, _, ih.step ?_ e⟩
      intro p1 ctx1 p c hp
      by_contra h0
      exact hc ⟨p1, ctx1, p, c, hp, h0⟩

theorem Solver.Later.reachable (h : Solver.Later env s s') (hr : Solver.Reachable env F s) :
    Solver.Reachable env F s' := by
  induction h with
  | refl => exact hr
  | restart _ e ih => exact ih.restart e
  | reduce _ e ih => exact ih.reduce e
  | step _ e ih => exact ih.step e

/-- The statistics after a conflict. -/
def Ctx.conflict (ctx : Ctx) : Ctx :=
  { ctx with search := { ctx.search with conflicts := ctx.search.conflicts + 1 } }

/-- The statistics after a decision. -/
def Ctx.decision (ctx : Ctx) : Ctx :=
  { ctx with search := { ctx.search with decisions := ctx.search.decisions + 1 } }

/-- The parts of a search step. -/
inductive StepCase (env : Env) (F : List (List Lit)) (s : Solver) : Ctx → Search → Option Bool → Prop
  | already : s.search.prop.unsat = true → StepCase env F s s.ctx s.search (some false)
  | fail {p1 p : PropState} {ctx1 : Ctx} {c : ConflictClause} :
      Solver.Propagating env F s p1 ctx1 p (some c) → p.trail.decisionLevel = 0 →
      StepCase env F s ctx1.conflict { s.search with prop := { p with unsat := true } } (some false)
  | learn {p1 p p' : PropState} {ctx1 ctx' : Ctx} {c : ConflictClause} {an : Analysis} {cb : Callbacks} :
      Solver.Propagating env F s p1 ctx1 p (some c) → p.trail.decisionLevel ≠ 0 →
      Analysis.analyzeConflict env ctx1.conflict s.search.analysis p c s.search.cb =
        .ok (ctx', an, p', cb) →
      StepCase env F s ctx' ⟨p', an, cb⟩ none
  | decide {p1 p p' : PropState} {ctx1 : Ctx} {x : Nat} {v : Vsids} {l : Lit} :
      Solver.Propagating env F s p1 ctx1 p none →
      s.search.cb.vsids.popDecisionVar p.values = .ok (some x, v) →
      decidePhase s.search.cb.phases x = .ok l → p.assignDecision l = .ok p' →
      StepCase env F s ctx1.decision
        { s.search with prop := p', cb := { s.search.cb with vsids := v } } none
  | sat {p1 p : PropState} {ctx1 : Ctx} {v : Vsids} :
      Solver.Propagating env F s p1 ctx1 p none →
      s.search.cb.vsids.popDecisionVar p.values = .ok (none, v) →
      StepCase env F s ctx1 { s.search with prop := p, cb := { s.search.cb with vsids := v } }
        (some true)

theorem searchStep_cases (h : Solver.Reachable env F s) {ctx : Ctx} {search : Search} {r : Option Bool}
    (e : searchStep env s.ctx s.search = .ok (ctx, search, r)) : StepCase env F s ctx search r := by
  unfold searchStep at e
  by_cases hu : s.search.prop.unsat = true
  · rw [if_pos hu] at e
    cases e
    exact .already hu
  · rw [if_neg hu] at e
    have hu : s.search.prop.unsat = false := by simpa using hu
    obtain ⟨p1, e1, e⟩ := bind_eq_ok.1 e
    obtain ⟨⟨ctx1, p, rc⟩, e2, e⟩ := bind_eq_ok.1 e
    have hp : Solver.Propagating env F s p1 ctx1 p rc := ⟨h, hu, e1, e2⟩
    cases rc with
    | some c =>
      simp only at e
      by_cases h0 : p.trail.decisionLevel = 0
      · rw [if_pos h0] at e
        cases e
        exact .fail hp h0
      · rw [if_neg h0] at e
        obtain ⟨⟨ctx', an, p', cb⟩, e3, e⟩ := bind_eq_ok.1 e
        cases e
        exact .learn hp h0 e3
    | none =>
      simp only at e
      obtain ⟨⟨x, v⟩, e3, e⟩ := bind_eq_ok.1 e
      cases x with
      | none => cases e; exact .sat hp e3
      | some x =>
        simp only at e
        obtain ⟨l, e4, e⟩ := bind_eq_ok.1 e
        obtain ⟨p', e5, e⟩ := bind_eq_ok.1 e
        cases e
        exact .decide hp e3 e4 e5

/-- What conflict analysis does, for the states of a run. -/
theorem Solver.Propagating.analyze {p1 p p' : PropState} {ctx1 ctx2 ctx' : Ctx} {c : ConflictClause}
    {an : Analysis} {cb : Callbacks} (h : Solver.Propagating env F s p1 ctx1 p (some c))
    (h0 : p.trail.decisionLevel ≠ 0)
    (e : Analysis.analyzeConflict env ctx2 s.search.analysis p c s.search.cb = .ok (ctx', an, p', cb)) :
    ∃ S2 S' C lvl target, PInv (formulaVars F) S2 p ∧
      AnalyzePost env (formulaVars F) (storedBase S2 p) (liveRed S2) S2 ctx2 p s.search.cb S' C lvl target
        ctx' an p' cb := by
  obtain ⟨L, S, S2, hi, q⟩ := h.phase
  obtain ⟨S', C, lvl, target, A⟩ := (analyzeConflict_spec (env := env) (ctx := ctx2) q.inv
    q.inv.storedInv hi.an hi.min hi.cb (q.conflict c rfl) h0).ok_elim e
  exact ⟨S2, S', C, lvl, target, q.inv, A⟩

theorem AnalyzePost.level {n : Nat} {F' L : DB} {S S' : List LC} {ctx ctx' : Ctx} {p p' : PropState}
    {cb cb' : Callbacks} {C : List Lit} {lvl target : Nat} {an : Analysis}
    (A : AnalyzePost env n F' L S ctx p cb S' C lvl target ctx' an p' cb') :
    p'.trail.decisionLevel = lvl := by
  obtain ⟨a, rest, r, _, _, ht, _⟩ := A.trail
  rw [ht]
  unfold Trail.decisionLevel
  simp only [Trail.push, Trail.cut, List.length_take]
  have := A.asserting.lt
  unfold Trail.decisionLevel at this
  omega

theorem Solver.Propagating.search {p1 p : PropState} {ctx1 : Ctx} {r : Option ConflictClause}
    (h : Solver.Propagating env F s p1 ctx1 p r) : ctx1.search = s.ctx.search := by
  obtain ⟨L, S1, hi, _, _⟩ := h.inv
  exact ((propagate_spec s.ctx hi).ok_elim h.prop).2.2.1

theorem StepCase.stats {ctx : Ctx} {search : Search} {r : Option Bool}
    (h : StepCase env F s ctx search r) : ctx.search.restarts = s.ctx.search.restarts ∧
      s.ctx.search.conflicts ≤ ctx.search.conflicts := by
  cases h with
  | already => exact ⟨rfl, Nat.le_refl _⟩
  | fail hp => simp [Ctx.conflict, hp.search]
  | learn hp h0 e =>
    obtain ⟨_, _, _, _, _, _, A⟩ := hp.analyze h0 e
    rw [A.search]
    simp [Ctx.conflict, hp.search]
  | decide hp => simp [Ctx.decision, hp.search]
  | sat hp => rw [hp.search]; exact ⟨rfl, Nat.le_refl _⟩

/-- Where input states start. -/
structure InputStart (n : Nat) (s : Solver) : Prop where
  phases : s.search.cb.phases = List.replicate n false
  search : s.ctx.search = ⟨0, 0, 0, 0⟩
  schedule : s.schedule = ⟨0, .default, 0, 0⟩

theorem addClauseVerbatim_search {ctx ctx' : Ctx} {p p' : PropState} {h : LongHeader} {ls : List Lit}
    {r : AddedClause} (e : addClauseVerbatim ctx p h ls = .ok (ctx', p', r)) :
    ctx'.search = ctx.search := by
  match ls with
  | [] => cases e; rfl
  | [a] =>
    simp only [addClauseVerbatim] at e
    obtain ⟨b, _, e⟩ := bind_eq_ok.1 e
    cases b with
    | true => cases e; rfl
    | false =>
      simp only [Bool.false_eq_true, if_false] at e
      obtain ⟨_, _, e⟩ := bind_eq_ok.1 e
      cases e; rfl
  | [a, b] =>
    simp only [addClauseVerbatim] at e
    obtain ⟨_, _, e⟩ := bind_eq_ok.1 e
    cases e; rfl
  | a :: b :: c :: ls =>
    simp only [addClauseVerbatim] at e
    obtain ⟨x, _, e⟩ := bind_eq_ok.1 e
    match x with
    | none => cases e
    | some (long, r) =>
      simp only at e
      obtain ⟨_, _, e⟩ := bind_eq_ok.1 e
      cases e
      split <;> rfl

theorem Solver.Input.start (h : Solver.Input env F s) : InputStart (formulaVars F) s := by
  induction h with
  | new => exact ⟨rfl, rfl, rfl⟩
  | proof _ ih => exact ⟨ih.phases, ih.search, ih.schedule⟩
  | @add F s s' c h hc e ih =>
    obtain ⟨S, hi⟩ := h.inv
    have e1 : formulaVars (F ++ [c]) = max (formulaVars F) (Solver.varCount c) := by
      simp [formulaVars]
    rw [e1]
    unfold Solver.addClause at e
    obtain ⟨s1, e2, e⟩ := bind_eq_ok.1 e
    obtain ⟨⟨ctx, p, r⟩, e3, e⟩ := bind_eq_ok.1 e
    cases e
    have key : InputStart (max (formulaVars F) (Solver.varCount c)) s1 := by
      unfold Solver.ensureVars at e2
      rw [hi.stats.vars] at e2
      split at e2
      · unfold Solver.resize at e2
        obtain ⟨a, _, e2⟩ := bind_eq_ok.1 e2
        cases e2
        refine ⟨?_, ih.search, ih.schedule⟩
        simp only
        rw [ih.phases, Heap.resizeList, List.take_replicate, List.length_replicate,
          List.replicate_append_replicate]
        congr 1
        omega
      · cases e2
        rw [Nat.max_eq_left (by omega)]
        exact ih
    exact ⟨key.phases, (addClauseVerbatim_search e3).trans key.search, key.schedule⟩

/-- The restart counter counts the restarts. -/
theorem Solver.History.restarts (h : Solver.History env F s u cs) :
    s.ctx.search.restarts = cs.length := by
  induction h with
  | input h => rw [h.start.search]; rfl
  | noRestart _ _ hr ih => exact hr.trans ih
  | restart hh e hr ih =>
    obtain ⟨L, S, hi⟩ := hh.reachable.inv
    obtain ⟨s2, e2, _, hc⟩ := maybeRestart_spec hi
    cases e.symm.trans e2
    rcases hc with ⟨_, rfl⟩ | ⟨_, h2, _⟩
    · exact absurd rfl hr
    · obtain ⟨ctx', s3, e3, _, h4, _⟩ := restart_spec hi
      rw [h2] at e3
      simp only [Except.ok.injEq, Prod.mk.injEq] at e3
      rw [e3.1, h4, List.length_cons, ← ih]
  | reduce hh e ih =>
    obtain ⟨L, S, hi⟩ := hh.reachable.inv
    obtain ⟨s2, e2, _, hc⟩ := maybeReduce_spec hi
    cases e.symm.trans e2
    rcases hc with ⟨_, rfl⟩ | ⟨_, h2, _⟩
    · exact ih
    · obtain ⟨ctx', s3, L', D, S', e3, _, q, _⟩ := reduce_inv hi
      rw [h2] at e3
      simp only [Except.ok.injEq, Prod.mk.injEq] at e3
      rw [e3.1, q.del.search]
      exact ih
  | learn hh hp h0 e ih => exact (searchStep_cases hh.reachable e).stats.1.trans ih
  | step hh hp e ih => exact (searchStep_cases hh.reachable e).stats.1.trans ih

/-! ## C34 -/

theorem savePhases_get (ss : List Step) : ∀ {phases : List Bool} {x : Nat}, x < phases.length →
    (∀ st ∈ ss, ∀ st' ∈ ss, st.lit.index = st'.lit.index → st.lit = st'.lit) →
    (savePhases phases ss)[x]? = match ss.find? (fun st => decide (st.lit.index = x)) with
      | some st => some st.lit.isPositive
      | none => phases[x]? := by
  induction ss with
  | nil => intro phases x _ _; rfl
  | cons st ss ih =>
    intro phases x hx hu
    rw [savePhases, ih (by simpa using hx) (fun a ha b hb => hu a (by simp [ha]) b (by simp [hb]))]
    by_cases h1 : st.lit.index = x
    · rw [List.find?_cons_of_pos (by simpa using h1)]
      cases h2 : ss.find? (fun st => decide (st.lit.index = x)) with
      | none => subst h1; simp [hx]
      | some st' =>
        have h3 : st'.lit.index = x := by simpa using List.find?_some h2
        simp only [hu st (by simp) st' (by simp [List.mem_of_find?_eq_some h2]) (h1.trans h3.symm)]
    · rw [List.find?_cons_of_neg (by simpa using h1), List.getElem?_set_ne h1]

/-- Phases after backtracking. -/
theorem phases_after {n : Nat} {S : List LC} {p : PropState} {cb : Callbacks} (hi : PInv n S p)
    (hcb : CbInv env n cb) {level target : Nat} (ht : p.trail.decisions[level + 1]? = some target)
    {x : Nat} (hx : x < n) (hu : cb.phases[x]? = some ((u x).getD false)) :
    (savePhases cb.phases (p.trail.steps.drop target))[x]? =
      some ((undone p.trail level u x).getD false) := by
  obtain ⟨_, hdrop⟩ := hi.trail.take_eq_filter ht
  rw [hdrop, savePhases_get _ (by rw [hcb.phases]; exact hx)]
  · unfold undone
    rw [List.find?_filter]
    cases hf : p.trail.steps.find? (fun st => decide (level < st.level) && decide (st.lit.index = x)) with
    | none => rw [show (p.trail.steps.find? fun a =>
        decide (decide (level < a.level) = true ∧ decide (a.lit.index = x) = true)) = none by
          rw [← hf]; congr 1; funext a; simp]; exact hu
    | some st => rw [show (p.trail.steps.find? fun a =>
        decide (decide (level < a.level) = true ∧ decide (a.lit.index = x) = true)) = some st by
          rw [← hf]; congr 1; funext a; simp]; rfl
  · intro a ha b hb he
    have ha := (List.mem_filter.1 ha).1
    have hb := (List.mem_filter.1 hb).1
    rcases Lit.eq_or_eq_neg he with e | e
    · exact e
    · exact absurd e (hi.trail.not_both ha hb)

/-- C34: a restart drops all decisions and everything above the top level, keeps the top-level
assignments and all clauses, and saves the phases of the undone literals. -/
theorem C34_restart (h : Solver.Reachable env F s) :
    ∃ ctx' s', restart s.ctx s.search = .ok (ctx', s') ∧ s'.prop.trail.decisionLevel = 0 ∧
      s'.prop.trail.steps = s.search.prop.trail.steps.filter (fun st => decide (st.level = 0)) ∧
      (∀ l : Lit, l.index < formulaVars F → ∀ b, s'.prop.values.value l = .ok (some b) ↔
        ∃ st ∈ s.search.prop.trail.steps, st.level = 0 ∧ st.lit = if b then l else l.neg) ∧
      s'.prop.long = s.search.prop.long ∧ s'.prop.binary = s.search.prop.binary ∧
      s'.prop.watches = s.search.prop.watches ∧ s'.prop.unsat = s.search.prop.unsat ∧
      (∀ st ∈ s.search.prop.trail.steps, st.level ≠ 0 →
        decidePhase s'.cb.phases st.lit.index = .ok st.lit) ∧
      (∀ x, x < formulaVars F → (∀ st ∈ s.search.prop.trail.steps, st.level ≠ 0 → st.lit.index ≠ x) →
        s'.cb.phases[x]? = s.search.cb.phases[x]?) := by
  obtain ⟨L, S, hi⟩ := h.inv
  obtain ⟨ctx', s', e, hi', _, hl, _, hcase⟩ := restart_spec hi
  refine ⟨ctx', s', e, hl, ?_⟩
  have hsteps : s'.prop.trail.steps =
      s.search.prop.trail.steps.filter (fun st => decide (st.level = 0)) := by
    rcases hcase with ⟨h0, rfl⟩ | ⟨target, ht, b⟩
    · symm
      rw [List.filter_eq_self]
      intro st hs
      obtain ⟨i, hi'⟩ := List.mem_iff_getElem?.1 hs
      have := hi.prop.trail.level_le i st hi'
      simp; omega
    · rw [b.trail]
      simp only [Trail.cut]
      rw [(hi.prop.trail.take_eq_filter ht).1]
      congr 1
      funext st
      simp
  refine ⟨hsteps, ?_, ?_, ?_, ?_, ?_, ?_, ?_⟩
  · intro l hli b
    rw [hi'.prop.value hli]
    simp only [Except.ok.injEq]
    have key : ∀ l' : Lit, (∃ st ∈ s'.prop.trail.steps, st.lit = l') ↔
        ∃ st ∈ s.search.prop.trail.steps, st.level = 0 ∧ st.lit = l' := by
      intro l'
      rw [hsteps]
      constructor
      · rintro ⟨st, hs, e⟩
        obtain ⟨h1, h2⟩ := List.mem_filter.1 hs
        exact ⟨st, h1, by simpa using h2, e⟩
      · rintro ⟨st, h1, h2, e⟩
        exact ⟨st, List.mem_filter.2 ⟨h1, by simpa using h2⟩, e⟩
    cases b with
    | true => rw [hi'.prop.trail.val_iff, key]; simp
    | false => rw [hi'.prop.trail.val_false_iff, key]; simp
  · rcases hcase with ⟨h0, rfl⟩ | ⟨target, ht, b⟩
    · rfl
    · exact b.long
  · rcases hcase with ⟨h0, rfl⟩ | ⟨target, ht, b⟩
    · rfl
    · exact b.binary
  · rcases hcase with ⟨h0, rfl⟩ | ⟨target, ht, b⟩
    · rfl
    · exact b.watches
  · rcases hcase with ⟨h0, rfl⟩ | ⟨target, ht, b⟩
    · rfl
    · exact b.unsat
  · intro st hs h1
    rcases hcase with ⟨h0, rfl⟩ | ⟨target, ht, b⟩
    · obtain ⟨i, hi'⟩ := List.mem_iff_getElem?.1 hs
      have := hi.prop.trail.level_le i st hi'
      omega
    · obtain ⟨_, hdrop⟩ := hi.prop.trail.take_eq_filter ht
      have hlt := hi.prop.trail.idx_lt st hs
      have hget : s'.cb.phases[st.lit.index]? = some st.lit.isPositive := by
        rw [b.phases, hdrop, savePhases_get _ (by rw [hi.cb.phases]; exact hlt)]
        · have hm : st ∈ s.search.prop.trail.steps.filter (fun st => decide (0 < st.level)) :=
            List.mem_filter.2 ⟨hs, by simp; omega⟩
          cases hf : (s.search.prop.trail.steps.filter (fun st => decide (0 < st.level))).find?
              (fun st' => decide (st'.lit.index = st.lit.index)) with
          | none =>
            have := List.find?_eq_none.1 hf st hm
            simp at this
          | some st' =>
            have h3 : st'.lit.index = st.lit.index := by simpa using List.find?_some hf
            have hm' := (List.mem_filter.1 (List.mem_of_find?_eq_some hf)).1
            rcases Lit.eq_or_eq_neg h3 with e | e
            · simp only [e]
            · exact absurd e (hi.prop.trail.not_both hm' hs)
        · intro a ha b hb he
          rcases Lit.eq_or_eq_neg he with e | e
          · exact e
          · exact absurd e (hi.prop.trail.not_both (List.mem_filter.1 ha).1 (List.mem_filter.1 hb).1)
      unfold decidePhase
      rw [idx_ok hget, bind_ok]
      have hmx : st.lit.index ≤ MAX_INDEX := by have := hi.prop.sized.n_le; omega
      show Except.ok (litOf _ _) = _
      congr 1
      rcases Lit.eq_or_eq_neg (litOf_index hmx st.lit.isPositive) with e | e
      · exact e
      · exfalso
        have := congrArg Lit.isPositive e
        rw [litOf_isPositive hmx] at this
        simp at this
  · intro x hx hno
    rcases hcase with ⟨h0, rfl⟩ | ⟨target, ht, b⟩
    · rfl
    · obtain ⟨_, hdrop⟩ := hi.prop.trail.take_eq_filter ht
      rw [b.phases, hdrop, savePhases_get _ (by rw [hi.cb.phases]; exact hx)]
      · rw [List.find?_eq_none.2]
        intro st hs
        obtain ⟨h1, h2⟩ := List.mem_filter.1 hs
        have := hno st h1 (by simp at h2; omega)
        simpa using this
      · intro a ha b hb he
        rcases Lit.eq_or_eq_neg he with e | e
        · exact e
        · exact absurd e (hi.prop.trail.not_both (List.mem_filter.1 ha).1 (List.mem_filter.1 hb).1)

/-! ## C36 -/

/-- The number of conflicts at which the next restart is due, given the numbers of conflicts at the
restarts so far. -/
def restartThreshold : List Nat → Nat
  | [] => 0
  | c :: cs => c + 512 * lubyResult (cs.length + 1)

/-- C36: restarts happen exactly when the number of conflicts has reached the threshold, and the
threshold is the number of conflicts at the last restart plus 512 times the next term of the Luby
sequence. -/
theorem C36_restart_schedule (h : Solver.History env F s u cs) (hb : cs.length < 2 ^ 63 - 1) :
    s.ctx.search.restarts = cs.length ∧
    s.schedule.nextRestart = restartThreshold cs ∧
    (∀ c ∈ cs, c ≤ s.ctx.search.conflicts) ∧
    (∀ (i c c' : Nat), cs[i]? = some c' → cs[i + 1]? = some c →
      c + 512 * lubyResult (cs.length - 1 - i) ≤ c') ∧
    ∃ s', s.maybeRestart = .ok s' ∧
      (s.schedule.nextRestart ≤ s.ctx.search.conflicts →
        s'.ctx.search.restarts = s.ctx.search.restarts + 1) ∧
      (s.ctx.search.conflicts < s.schedule.nextRestart → s' = s) := by
  have last : ∀ {s : Solver}, Solver.Reachable env F s → ∃ s', s.maybeRestart = .ok s' ∧
      (s.schedule.nextRestart ≤ s.ctx.search.conflicts →
        s'.ctx.search.restarts = s.ctx.search.restarts + 1 ∧
        s'.ctx.search.conflicts = s.ctx.search.conflicts ∧
        s'.schedule.nextRestart = s.ctx.search.conflicts + s.schedule.luby.advance.1 * 512 ∧
        s'.schedule.luby = s.schedule.luby.advance.2) ∧
      (s.ctx.search.conflicts < s.schedule.nextRestart → s' = s) := by
    intro s hr
    obtain ⟨L, S, hi⟩ := hr.inv
    obtain ⟨s', e, _, hc⟩ := maybeRestart_spec hi
    refine ⟨s', e, ?_, ?_⟩
    · intro hle
      rcases hc with ⟨h1, _⟩ | ⟨_, h2, h3⟩
      · omega
      · obtain ⟨ctx', s2, e2, _, h4, _⟩ := restart_spec hi
        rw [h2] at e2
        simp only [Except.ok.injEq, Prod.mk.injEq] at e2
        rw [e2.1, h4, h3]
        exact ⟨rfl, rfl, rfl, rfl⟩
    · intro hlt
      rcases hc with ⟨_, h1⟩ | ⟨h1, _⟩
      · exact h1
      · omega
  have luby : ∀ k, k < 2 ^ 63 - 1 → (Luby.after k).advance.1 = lubyResult (k + 1) := by
    intro k hk
    have := (Luby.toNat_after k (by omega)).2
    unfold lubyResult Luby64.advance Luby.advance
    rw [Nat.add_sub_cancel]
    split <;> split <;> simp [this]
  suffices key : s.ctx.search.restarts = cs.length ∧ s.schedule.luby = Luby.after cs.length ∧
      s.schedule.nextRestart = restartThreshold cs ∧
      (∀ c ∈ cs, c ≤ s.ctx.search.conflicts) ∧
      (∀ (i c c' : Nat), cs[i]? = some c' → cs[i + 1]? = some c →
        c + 512 * lubyResult (cs.length - 1 - i) ≤ c') by
    obtain ⟨s', e, h1, h2⟩ := last h.reachable
    exact ⟨key.1, key.2.2.1, key.2.2.2.1, key.2.2.2.2, s', e, fun hx => (h1 hx).1, h2⟩
  induction h with
  | input h =>
    have := h.start
    rw [this.search, this.schedule]
    exact ⟨rfl, rfl, rfl, by simp, by simp⟩
  | noRestart hh e hr ih =>
    obtain ⟨s2, e2, h1, h2⟩ := last hh.reachable
    cases e.symm.trans e2
    rw [h2]
    · exact ih hb
    · by_contra hx
      have := (h1 (by omega)).1
      omega
  | @restart s s' u cs hh e hr ih =>
    obtain ⟨s2, e2, h1, h2⟩ := last hh.reachable
    cases e.symm.trans e2
    have hle : s.schedule.nextRestart ≤ s.ctx.search.conflicts := by
      by_contra hx
      rw [h2 (by omega)] at hr
      exact hr rfl
    simp only [List.length_cons] at hb
    obtain ⟨i1, i2, i3, i4, i5⟩ := ih (by omega)
    obtain ⟨g1, g2, g3, g4⟩ := h1 hle
    refine ⟨by rw [g1, i1]; rfl, by rw [g4, i2]; rfl, ?_, ?_, ?_⟩
    · rw [g3, i2, luby _ (by omega)]
      simp only [restartThreshold]
      omega
    · intro c hc
      rw [g2]
      rcases List.mem_cons.1 hc with rfl | hc
      · exact Nat.le_refl _
      · exact i4 c hc
    · intro i c c' hc' hc
      cases i with
      | zero =>
        simp only [List.getElem?_cons_zero, Option.some.injEq, List.getElem?_cons_succ] at hc' hc
        subst hc'
        cases cs with
        | nil => simp at hc
        | cons d ds =>
          simp only [List.getElem?_cons_zero, Option.some.injEq] at hc
          subst hc
          rw [i3] at hle
          simpa [restartThreshold] using hle
      | succ i =>
        simp only [List.getElem?_cons_succ] at hc' hc
        have := i5 i c c' hc' hc
        simp only [List.length_cons]
        rw [show cs.length + 1 - 1 - (i + 1) = cs.length - 1 - i by omega]
        exact this
  | @reduce s s' u cs hh e ih =>
    obtain ⟨L, S, hi⟩ := hh.reachable.inv
    obtain ⟨s2, e2, _, hc⟩ := maybeReduce_spec hi
    cases e.symm.trans e2
    rcases hc with ⟨_, rfl⟩ | ⟨_, h2, h3⟩
    · exact ih hb
    · obtain ⟨ctx', s3, L', D, S', e3, _, q, _⟩ := reduce_inv hi
      rw [h2] at e3
      simp only [Except.ok.injEq, Prod.mk.injEq] at e3
      rw [e3.1, q.del.search, h3]
      exact ih hb
  | learn hh hp h0 e ih =>
    obtain ⟨h1, h2⟩ := (searchStep_cases hh.reachable e).stats
    obtain ⟨i1, i2, i3, i4, i5⟩ := ih hb
    exact ⟨h1.trans i1, i2, i3, fun c hc => (i4 c hc).trans h2, i5⟩
  | step hh hp e ih =>
    obtain ⟨h1, h2⟩ := (searchStep_cases hh.reachable e).stats
    obtain ⟨i1, i2, i3, i4, i5⟩ := ih hb
    exact ⟨h1.trans i1, i2, i3, fun c hc => (i4 c hc).trans h2, i5⟩

/-! ## C43 -/

/-- C43: the saved phase of a variable is the polarity it had when it was last unassigned, or negative
if it never was. -/
theorem C43_phases (h : Solver.History env F s u cs) {x : Nat} (hx : x < formulaVars F) :
    s.search.cb.phases[x]? = some ((u x).getD false) := by
  induction h with
  | input h => rw [h.start.phases]; simp [hx]
  | @noRestart s s' u cs hh e hr ih =>
    obtain ⟨L, S, hi⟩ := hh.reachable.inv
    obtain ⟨s2, e2, _, hc⟩ := maybeRestart_spec hi
    cases e.symm.trans e2
    rcases hc with ⟨_, rfl⟩ | ⟨_, h2, _⟩
    · exact ih
    · obtain ⟨ctx', s3, e3, _, h4, _⟩ := restart_spec hi
      rw [h2] at e3
      simp only [Except.ok.injEq, Prod.mk.injEq] at e3
      rw [e3.1, h4] at hr
      simp at hr
  | @restart s s' u cs hh e hr ih =>
    obtain ⟨L, S, hi⟩ := hh.reachable.inv
    obtain ⟨s2, e2, _, hc⟩ := maybeRestart_spec hi
    cases e.symm.trans e2
    rcases hc with ⟨_, rfl⟩ | ⟨_, h2, _⟩
    · exact absurd rfl hr
    · obtain ⟨ctx', s3, e3, _, _, _, _, hc⟩ := restart_spec hi
      rw [h2] at e3
      simp only [Except.ok.injEq, Prod.mk.injEq] at e3
      rw [e3.2]
      rcases hc with ⟨h0, rfl⟩ | ⟨target, ht, b⟩
      · have : undone s.search.prop.trail 0 u x = u x := by
          unfold undone
          rw [List.find?_eq_none.2]
          intro st hs
          obtain ⟨i, hi'⟩ := List.mem_iff_getElem?.1 hs
          have := hi.prop.trail.level_le i st hi'
          simp; omega
        rw [this]; exact ih
      · rw [b.phases]
        exact phases_after hi.prop hi.cb ht hx ih
  | reduce hh e ih =>
    obtain ⟨L, S, hi⟩ := hh.reachable.inv
    obtain ⟨s2, e2, _, hc⟩ := maybeReduce_spec hi
    cases e.symm.trans e2
    rcases hc with ⟨_, rfl⟩ | ⟨_, h2, _⟩
    · exact ih
    · obtain ⟨ctx', s3, L', D, S', e3, _, _, hcb, _⟩ := reduce_inv hi
      rw [h2] at e3
      simp only [Except.ok.injEq, Prod.mk.injEq] at e3
      rw [e3.2, hcb]; exact ih
  | @learn s u cs p1 p ctx1 ctx c search r hh hp h0 e ih =>
    have hcase := searchStep_cases hh.reachable e
    have same : ∀ {p1' p' : PropState} {ctx1' : Ctx} {r' : Option ConflictClause},
        Solver.Propagating env F s p1' ctx1' p' r' → p' = p ∧ r' = some c := by
      intro p1' p' ctx1' r' hp'
      cases hp.gc.symm.trans hp'.gc
      cases hp.prop.symm.trans hp'.prop
      exact ⟨rfl, rfl⟩
    cases hcase with
    | already hu => rw [hp.unsat] at hu; simp at hu
    | fail hp' h0' =>
      obtain ⟨rfl, _⟩ := same hp'
      exact absurd h0' h0
    | learn hp' h0' e' =>
      obtain ⟨rfl, hc⟩ := same hp'
      cases hc
      obtain ⟨S2, S', C, lvl, target, hi, A⟩ := hp'.analyze h0' e'
      obtain ⟨L, S, hs⟩ := hh.reachable.inv
      simp only [A.phases, A.level]
      exact phases_after hi hs.cb A.cutpos hx ih
    | decide hp' =>
      obtain ⟨_, hc⟩ := same hp'
      cases hc
    | sat hp' =>
      obtain ⟨_, hc⟩ := same hp'
      cases hc
  | step hh hp e ih =>
    cases searchStep_cases hh.reachable e with
    | already hu => exact ih
    | fail hp' h0' => exact ih
    | learn hp' h0' e' => exact absurd (hp _ _ _ _ hp') h0'
    | decide hp' => exact ih
    | sat hp' => exact ih

/-- C43, decisions: the decided literal has the saved polarity. -/
theorem C43_decisions (h : Solver.History env F s u cs) {ctx : Ctx} {search : Search} {r : Option Bool}
    (e : searchStep env s.ctx s.search = .ok (ctx, search, r))
    (hd : ctx.search.decisions ≠ s.ctx.search.decisions) :
    ∃ st, search.prop.trail.steps.getLast? = some st ∧ st.reason = .decision ∧
      st.level = s.search.prop.trail.decisionLevel + 1 ∧
      st.lit.isPositive = (u st.lit.index).getD false := by
  cases searchStep_cases h.reachable e with
  | already => exact absurd rfl hd
  | fail hp => simp [Ctx.conflict, hp.search] at hd
  | learn hp h0 e' =>
    obtain ⟨_, _, _, _, _, _, A⟩ := hp.analyze h0 e'
    rw [A.search] at hd
    simp [Ctx.conflict, hp.search] at hd
  | sat hp => rw [hp.search] at hd; exact absurd rfl hd
  | @decide p1 p p' ctx1 x v l hp e1 e2 e3 =>
    obtain ⟨L, S, S2, hi, q⟩ := hp.phase
    obtain ⟨r, v', e', _, _, _, h2⟩ := popDecisionVar_spec hi.cb q.inv.trail.vwf q.inv.sized.values
      q.inv.sized.n_le (q.covers hi.prop hi.covers)
    rw [e1] at e'
    simp only [Except.ok.injEq, Prod.mk.injEq] at e'
    obtain ⟨rfl, rfl⟩ := e'
    obtain ⟨hx, _⟩ := h2 x rfl
    have hph := C43_phases h hx
    unfold decidePhase at e2
    rw [idx_ok hph, bind_ok] at e2
    simp only [pure_eq, Except.ok.injEq] at e2
    have hmx : x ≤ MAX_INDEX := by have := q.inv.sized.n_le; omega
    have e2 : litOf x ((u x).getD false) = l := e2
    unfold PropState.assignDecision PropState.assign at e3
    simp only at e3
    obtain ⟨_, _, e3⟩ := bind_eq_ok.1 e3
    obtain ⟨_, _, e3⟩ := bind_eq_ok.1 e3
    unfold PropState.assignUnit at e3
    simp only at e3
    split at e3
    · obtain ⟨_, _, e3⟩ := bind_eq_ok.1 e3
      obtain ⟨_, _, e3⟩ := bind_eq_ok.1 e3
      cases e3
      refine ⟨⟨l, _, .decision⟩, by simp; rfl, rfl, ?_, ?_⟩
      · unfold Trail.decisionLevel
        simp only [List.length_append, List.length_singleton, q.decisions]
        have := hi.prop.trail.decisions_pos
        omega
      · rw [← e2, litOf_isPositive hmx, litOf_index hmx]
    · cases e3

/-! ## C42 -/

/-- C42: an assignment at level zero is kept, in all later states. -/
theorem C42_top_level (h : Solver.Reachable env F s) (hl : Solver.Later env s s') {st : Step}
    (hs : st ∈ s.search.prop.trail.steps) (h0 : st.level = 0) :
    (∃ st' ∈ s'.search.prop.trail.steps, st'.lit = st.lit ∧ st'.level = 0) ∧
    s'.search.prop.values.value st.lit = .ok (some true) := by
  have key : ∃ st' ∈ s'.search.prop.trail.steps, st'.lit = st.lit ∧ st'.level = 0 := by
    induction hl with
    | refl => exact ⟨st, hs, rfl, h0⟩
    | @restart s1 s2 hl e ih =>
      obtain ⟨st', h1, h2, h3⟩ := ih
      obtain ⟨L, S, hi⟩ := (hl.reachable h).inv
      obtain ⟨s3, e2, _, hc⟩ := maybeRestart_spec hi
      cases e.symm.trans e2
      rcases hc with ⟨_, rfl⟩ | ⟨_, h4, _⟩
      · exact ⟨st', h1, h2, h3⟩
      · obtain ⟨ctx', s3, e3, _, h5, _⟩ := C34_restart (hl.reachable h)
        rw [h4] at e3
        simp only [Except.ok.injEq, Prod.mk.injEq] at e3
        obtain ⟨_, rfl⟩ := e3
        exact ⟨st', by rw [h5]; exact List.mem_filter.2 ⟨h1, by simpa using h3⟩, h2, h3⟩
    | @reduce s1 s2 hl e ih =>
      obtain ⟨st', h1, h2, h3⟩ := ih
      obtain ⟨L, S, hi⟩ := (hl.reachable h).inv
      obtain ⟨s3, e2, _, hc⟩ := maybeReduce_spec hi
      cases e.symm.trans e2
      rcases hc with ⟨_, rfl⟩ | ⟨_, h4, _⟩
      · exact ⟨st', h1, h2, h3⟩
      · obtain ⟨ctx', s3, L', D, S', e3, _, q, _⟩ := reduce_inv hi
        rw [h4] at e3
        simp only [Except.ok.injEq, Prod.mk.injEq] at e3
        obtain ⟨a, ha⟩ := q.eq
        rw [e3.2, ha]
        exact ⟨st', h1, h2, h3⟩
    | @step s1 ctx search r hl e ih =>
      obtain ⟨st', h1, h2, h3⟩ := ih
      -- propagation keeps them
      have prop : ∀ {p1 p : PropState} {ctx1 : Ctx} {r : Option ConflictClause},
          Solver.Propagating env F s1 p1 ctx1 p r →
          ∃ st' ∈ p.trail.steps, st'.lit = st.lit ∧ st'.level = 0 := by
        intro p1 p ctx1 r hp
        obtain ⟨L, S, S2, hi, q⟩ := hp.phase
        obtain ⟨ρ, new, e, _⟩ := q.steps
        exact ⟨st'.ren ρ, by rw [e]; simp only [List.mem_append]; exact .inl (List.mem_map.2 ⟨st', h1, rfl⟩),
          h2, h3⟩
      cases searchStep_cases (hl.reachable h) e with
      | already => exact ⟨st', h1, h2, h3⟩
      | @fail _ p _ _ hp => exact prop (p := p) hp
      | sat hp => exact prop hp
      | learn hp h0' e' =>
        obtain ⟨st', h1, h2, h3⟩ := prop hp
        obtain ⟨S2, S', C, lvl, target, hi, A⟩ := hp.analyze h0' e'
        obtain ⟨a, rest, reason, _, _, ht, _⟩ := A.trail
        refine ⟨st', ?_, h2, h3⟩
        simp only [ht, Trail.push, Trail.cut]
        rw [(hi.trail.take_eq_filter A.cutpos).1]
        refine List.mem_append.2 (.inl (List.mem_filter.2 ⟨h1, ?_⟩))
        simp [h3]
      | decide hp e1 e2 e3 =>
        obtain ⟨st', h1, h2, h3⟩ := prop hp
        unfold PropState.assignDecision PropState.assign at e3
        simp only at e3
        obtain ⟨_, _, e3⟩ := bind_eq_ok.1 e3
        obtain ⟨_, _, e3⟩ := bind_eq_ok.1 e3
        unfold PropState.assignUnit at e3
        simp only at e3
        split at e3
        · obtain ⟨_, _, e3⟩ := bind_eq_ok.1 e3
          obtain ⟨_, _, e3⟩ := bind_eq_ok.1 e3
          cases e3
          exact ⟨st', by simp [h1], h2, h3⟩
        · cases e3
  refine ⟨key, ?_⟩
  obtain ⟨st', h1, h2, h3⟩ := key
  obtain ⟨L, S, hi⟩ := (hl.reachable h).inv
  rw [← h2, hi.prop.value (hi.prop.trail.idx_lt _ h1), (hi.prop.trail.val_iff _).2 ⟨st', h1, rfl⟩]

end

/-! ## Concrete cases -/

/-- A state for C34 and C42: five top-level assignments and one decision above them, a run of more than
one step to a later state. -/
theorem C34_example : ∃ s s', Solver.Reachable Example.env (Example.cnf (Example.php 4 3)) s ∧
    s.search.prop.trail.steps.map (fun st => (st.lit.code, st.level)) =
      [(1, 0), (6, 0), (12, 0), (18, 0), (2, 0), (8, 1)] ∧
    Solver.Later Example.env s s' ∧
    s'.search.prop.trail.steps.map (fun st => (st.lit.code, st.level)) =
      [(1, 0), (6, 0), (12, 0), (18, 0), (2, 0), (10, 0)] := by
  have h : (do
      let s ← Example.after (Example.php 4 3) 10
      let (_, search, _) ← searchStep Example.env s.ctx s.search
      pure (s.search.prop.trail.steps.map (fun st => (st.lit.code, st.level)),
        search.prop.trail.steps.map (fun st => (st.lit.code, st.level))) :
      M (List (Nat × Nat) × List (Nat × Nat))) =
      .ok ([(1, 0), (6, 0), (12, 0), (18, 0), (2, 0), (8, 1)],
        [(1, 0), (6, 0), (12, 0), (18, 0), (2, 0), (10, 0)]) := by
    decide +kernel
  obtain ⟨s, h1, h2⟩ := bind_eq_ok.1 h
  obtain ⟨⟨ctx, search, r⟩, h3, h2⟩ := bind_eq_ok.1 h2
  have h2 := Except.ok.inj h2
  simp only [Prod.mk.injEq] at h2
  exact ⟨s, _, Example.after_reachable (by decide +kernel) h1, h2.1, .step .refl h3, h2.2⟩

/-- A history for C36: one restart at the start, four conflicts since, and the next restart is due
after 512. -/
theorem C36_example : ∃ s u cs, Solver.History Example.env (Example.cnf (Example.php 4 3)) s u cs ∧
    cs.length = 1 ∧ s.ctx.search.conflicts = 4 ∧ s.schedule.nextRestart = 512 := by
  have h : (do
      let s ← Example.after (Example.php 4 3) 10
      pure (s.ctx.search.restarts, s.ctx.search.conflicts, s.schedule.nextRestart) :
      M (Nat × Nat × Nat)) = .ok (1, 4, 512) := by
    decide +kernel
  obtain ⟨s, h1, h2⟩ := bind_eq_ok.1 h
  have h2 := Except.ok.inj h2
  simp only [Prod.mk.injEq] at h2
  have hr := Example.after_reachable (by decide +kernel) h1
  obtain ⟨u, cs, hh⟩ := hr.history
  exact ⟨s, u, cs, hh, hh.restarts.symm.trans h2.1, h2.2⟩

set_option synthInstance.maxSize 1000 in
/-- A history for C43: variable 2 was last unassigned as true, and it is decided as true in the next
step. -/
theorem C43_example : ∃ s u cs ctx search,
    Solver.History Example.env (Example.cnf (Example.php 4 3)) s u cs ∧ u 1 = some true ∧
    searchStep Example.env s.ctx s.search = .ok (ctx, search, none) ∧
    ctx.search.decisions ≠ s.ctx.search.decisions ∧
    search.prop.trail.steps.map (fun st => (st.lit.code, st.level)) =
      [(0, 1), (18, 1), (3, 2)] := by
  have h : (do
      let s ← Example.after (Example.php 4 3) 6
      let (ctx, search, r) ← searchStep Example.env s.ctx s.search
      pure (s.search.cb.phases[1]?, s.ctx.search.decisions, ctx.search.decisions,
        search.prop.trail.steps.map (fun st => (st.lit.code, st.level)), r) :
      M (Option Bool × Nat × Nat × List (Nat × Nat) × Option Bool)) =
      .ok (some true, 4, 5, [(0, 1), (18, 1), (3, 2)], none) := by
    decide +kernel
  obtain ⟨s, h1, h2⟩ := bind_eq_ok.1 h
  obtain ⟨⟨ctx, search, r⟩, h3, h2⟩ := bind_eq_ok.1 h2
  have h2 := Except.ok.inj h2
  simp only [Prod.mk.injEq] at h2
  obtain ⟨h4, h5, h6, h7, rfl⟩ := h2
  have hr := Example.after_reachable (by decide +kernel) h1
  obtain ⟨u, cs, hh⟩ := hr.history
  refine ⟨s, u, cs, ctx, search, hh, ?_, h3, by omega, h7⟩
  have := C43_phases hh (x := 1) (by decide +kernel)
  rw [h4] at this
  cases hu : u 1 with
  | none => rw [hu] at this; simp at this
  | some b => rw [hu] at this; simp at this; rw [← this]

end Starlit
