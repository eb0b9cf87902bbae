import Verif.Props.GcScan
import Verif.Props.DecisionCost

/-!
# Sizes of the watch lists and of the clause arena

Along a run the watch lists have at most two entries, and the arena at most one clause with one literal for each variable,
for each clause of the formula and each conflict.  Used for the total work of `solve()` (C83).
-/

namespace Starlit

/-- The total length of the watch lists. -/
def watchSum (p : PropState) : Nat := (p.watches.byLit.map List.length).sum

theorem upd_sum {α : Type} {ls ls' : List (List α)} {i : Nat} {old new : List α} (ho : idx ls i = .ok old)
    (e : upd ls i new = .ok ls') :
    (ls'.map List.length).sum + old.length = (ls.map List.length).sum + new.length := by
  have h1 := idx_eq_ok.1 ho
  unfold upd at e
  split at e
  · cases e
    clear ho
    induction ls generalizing i with
    | nil => simp at h1
    | cons x xs ih =>
      cases i with
      | zero => simp at h1; subst h1; simp; omega
      | succ i =>
        simp at h1
        have := ih (i := i) h1 (Nat.lt_of_succ_lt_succ ‹i + 1 < (x :: xs).length›)
        simp at this ⊢; omega
  · cases e

/-- The arena and the watch lists have grown by at most so much, and the arena by three words for each entry of a watch
list. -/
def Grow (w k : Nat) (p p' : PropState) : Prop :=
  p'.long.buffer.length ≤ p.long.buffer.length + w ∧ watchSum p' ≤ watchSum p + k ∧
  3 * watchSum p' + p.long.buffer.length ≤ 3 * watchSum p + p'.long.buffer.length

theorem Grow.refl {p : PropState} : Grow 0 0 p p := by unfold Grow; omega

theorem Grow.trans {w k w' k' : Nat} {p p' p'' : PropState} (h : Grow w k p p') (h' : Grow w' k' p' p'') :
    Grow (w + w') (k + k') p p'' := by
  unfold Grow at *; omega

theorem Grow.trans0 {p p' p'' : PropState} (h : Grow 0 0 p p') (h' : Grow 0 0 p' p'') : Grow 0 0 p p'' := h.trans h'

theorem Grow.of_eq {p p' : PropState} (h : p'.long = p.long) (h' : p'.watches = p.watches) : Grow 0 0 p p' := by
  unfold Grow watchSum; rw [h, h']; simp

theorem Fit.res {α : Type} {m : M α} {Q : α → Prop} (h : Fit m Q) : Res m Q := fun _ e => h.ok_elim e

section
variable {env : Env} {p p' : PropState} {a : Arena} {c : Nat} {l : Lit}

theorem grow_assignUnit {s : Step} : Res (p.assignUnit s) (Grow 0 0 p) := by
  unfold PropState.assignUnit
  split
  · exact Res.any fun _ => Res.any fun _ => Res.pure (.of_eq rfl rfl)
  · exact Res.throw

theorem grow_assign {s : Step} : Res (p.assign s) (Grow 0 0 p) := by
  unfold PropState.assign
  exact Res.any fun _ => Res.any fun _ => grow_assignUnit

theorem grow_propagateBinary : ∀ (rest : List Lit) {p : PropState},
    Res (propagateBinary l rest p) (fun r => Grow 0 0 p r.1)
  | [], p => Res.pure .refl
  | o :: rest, p => by
    unfold propagateBinary
    refine Res.any fun b => ?_
    split
    · exact grow_propagateBinary rest
    refine Res.any fun b => ?_
    split
    · exact Res.pure .refl
    refine Res.bind grow_assign fun p1 h1 => ?_
    exact (grow_propagateBinary rest).mono fun _ h2 => h1.trans0 h2

theorem grow_push {w : Watches} {x : Watch} :
    Res (w.push l x) (fun w' => (w'.byLit.map List.length).sum = (w.byLit.map List.length).sum + 1) := by
  intro w' e
  unfold Watches.push at e
  obtain ⟨_, _, e⟩ := bind_eq_ok.1 e
  obtain ⟨ws, e1, e⟩ := bind_eq_ok.1 e
  obtain ⟨b, e2, e⟩ := bind_eq_ok.1 e
  cases e
  have := upd_sum e1 e2
  simp at this ⊢; omega

theorem grow_watchClause {w : Watches} {x y : Lit} :
    Res (w.watchClause c x y) (fun w' => (w'.byLit.map List.length).sum ≤ (w.byLit.map List.length).sum + 2) := by
  unfold Watches.watchClause
  split
  · exact Res.bind grow_push fun w1 h1 => grow_push.mono fun w2 h2 => by omega
  · exact Res.pure (by omega)

/-- Whether a visited watch stays in its list. -/
def VisitResult.kept : VisitResult → Nat
  | .remove => 0
  | _ => 1

theorem grow_visitWatch {w : Watch} : Res (visitWatch l w p) (fun r =>
    r.1.long.buffer.length = p.long.buffer.length ∧ watchSum r.1 + r.2.kept ≤ watchSum p + 1) := by
  unfold visitWatch
  refine Res.any fun b => ?_
  split
  · exact Res.pure ⟨rfl, Nat.le_refl _⟩
  refine Res.any fun r => ?_
  obtain ⟨hd, ls⟩ := r
  dsimp only
  split
  · exact Res.pure ⟨rfl, Nat.le_succ _⟩
  refine Res.any fun l0 => Res.any fun l1 => Res.any fun _ => Res.any fun b => ?_
  split
  · exact Res.pure ⟨rfl, Nat.le_refl _⟩
  refine Res.any fun r => ?_
  cases r with
  | isTrue x pos => exact Res.bind fit_modHeader.res fun a ha => Res.pure ⟨ha, Nat.le_refl _⟩
  | unassigned x pos =>
    refine Res.bind grow_push fun ws hw => Res.bind fit_modHeader.res fun a ha => ?_
    refine Res.any fun _ => Res.any fun _ => Res.any fun _ => ?_
    exact Res.bind fit_setLits.res fun a' ha' => Res.pure ⟨ha'.trans ha, Nat.le_of_eq hw⟩
  | none pos =>
    refine Res.bind fit_modHeader.res fun a ha => Res.any fun b => ?_
    split
    · exact Res.pure ⟨ha, Nat.le_refl _⟩
    refine Res.any fun _ => Res.any fun _ => Res.bind fit_setLits.res fun a' ha' => ?_
    have hq : Res (({ p with long := a' } : PropState).assign
        ⟨Lit.selectOther l l0 l1, p.trail.decisionLevel, .long w.clause⟩) (fun q =>
        q.long = a' ∧ q.watches = p.watches) := by
      unfold PropState.assign PropState.assignUnit
      refine Res.any fun _ => Res.any fun _ => ?_
      split
      · exact Res.any fun _ => Res.any fun _ => Res.pure ⟨rfl, rfl⟩
      · exact Res.throw
    refine Res.bind hq fun p1 h1 => Res.pure ⟨?_, ?_⟩
    · simp only; rw [h1.1]; exact ha'.trans ha
    · simp only [VisitResult.kept, watchSum]; rw [h1.2]

theorem grow_propagateLongLoop : ∀ (ws kept : List Watch) {p : PropState},
    Res (propagateLongLoop l ws kept p) (fun r => r.1.long.buffer.length = p.long.buffer.length ∧
      watchSum r.1 + r.2.1.length ≤ watchSum p + kept.length + ws.length)
  | [], _, p => Res.pure ⟨rfl, Nat.le_refl _⟩
  | w :: ws, kept, p => by
    unfold propagateLongLoop
    refine Res.bind grow_visitWatch fun r h1 => ?_
    obtain ⟨p1, r⟩ := r
    cases r with
    | keep w =>
      refine (grow_propagateLongLoop ws _).mono fun r h2 => ⟨h2.1.trans h1.1, ?_⟩
      have := h1.2; have := h2.2
      simp [VisitResult.kept] at *; omega
    | remove =>
      refine (grow_propagateLongLoop ws _).mono fun r h2 => ⟨h2.1.trans h1.1, ?_⟩
      have := h1.2; have := h2.2
      simp [VisitResult.kept] at *; omega
    | conflict w =>
      refine Res.pure ⟨h1.1, ?_⟩
      have := h1.2
      simp [VisitResult.kept] at *; omega

theorem grow_propagateLong : Res (propagateLong p l) (fun r => Grow 0 0 p r.1) := by
  intro r e
  unfold propagateLong at e
  obtain ⟨_, _, e⟩ := bind_eq_ok.1 e
  obtain ⟨ws, e1, e⟩ := bind_eq_ok.1 e
  obtain ⟨byLit, e2, e⟩ := bind_eq_ok.1 e
  obtain ⟨⟨p1, kept, r1⟩, e3, e⟩ := bind_eq_ok.1 e
  obtain ⟨_, _, e⟩ := bind_eq_ok.1 e
  obtain ⟨now, e4, e⟩ := bind_eq_ok.1 e
  obtain ⟨_, hn, e⟩ := bind_eq_ok.1 e
  obtain ⟨byLit', e5, e⟩ := bind_eq_ok.1 e
  cases e
  obtain ⟨h1, h2⟩ := grow_propagateLongLoop _ _ _ e3
  have u1 := upd_sum e1 e2
  have u2 := upd_sum e4 e5
  simp only [watchSum, List.length_nil] at *
  refine ⟨Nat.le_of_eq h1, ?_⟩
  simp only [watchSum]
  omega

theorem grow_propagateLiteral : Res (propagateLiteral p l) (fun r => Grow 0 0 p r.1) := by
  unfold propagateLiteral
  refine Res.any fun _ => Res.bind (grow_propagateBinary _) fun r h1 => ?_
  obtain ⟨p1, r⟩ := r
  cases r with
  | some c => exact Res.pure h1
  | none => exact grow_propagateLong.mono fun _ h2 => h1.trans0 h2

theorem grow_propagateLoop : ∀ (fuel : Nat) {p : PropState},
    Res (propagateLoop fuel p) (fun r => Grow 0 0 p r.1)
  | 0, _ => Res.throw
  | fuel + 1, p => by
    unfold propagateLoop
    split
    · exact Res.pure .refl
    refine Res.bind grow_propagateLiteral fun r h1 => ?_
    obtain ⟨p1, r⟩ := r
    cases r with
    | some c => exact Res.pure h1
    | none => exact Res.any fun _ => (grow_propagateLoop fuel).mono fun _ h2 => h1.trans0 h2

theorem grow_propagate {ctx : Ctx} (he : p.watches.enabled = true) :
    Res (propagate ctx p) (fun r => Grow 0 0 p r.2.1) := by
  unfold propagate
  have : enableWatchLists p true = .ok p := by unfold enableWatchLists; rw [if_pos he]; rfl
  rw [this, bind_ok]
  refine Res.bind (grow_propagateLoop _) fun r h1 => ?_
  obtain ⟨p1, r⟩ := r
  cases r with
  | some c => exact Res.pure h1
  | none => exact Res.any fun _ => Res.pure h1

namespace Analysis

theorem grow_bumpLongClause {an : Analysis} : Res (bumpLongClause an p c) (fun r => Grow 0 0 p r.2) := by
  unfold bumpLongClause
  exact Res.any fun _ => Res.any fun _ => Res.bind fit_modHeader.res fun _ h =>
    Res.pure (by unfold Grow; simp only [watchSum]; omega)

theorem grow_uipLoop : ∀ (k : Nat) {an : Analysis} {p : PropState} {cb : Callbacks},
    Res (uipLoop env k an p cb) (fun r => Grow 0 0 p r.2.1)
  | 0, _, _, _ => Res.pure .refl
  | k + 1, an, p, cb => by
    unfold uipLoop
    refine Res.any fun flag => Res.any fun _ => ?_
    split
    · refine Res.any fun s => ?_
      split
      · exact Res.throw
      dsimp only
      split
      · exact Res.any fun _ => Res.pure .refl
      · refine Res.bind (P := fun r => Grow 0 0 p r.2) ?_ fun r h1 => ?_
        · unfold bumpReason
          split
          · exact grow_bumpLongClause
          · exact Res.pure .refl
        obtain ⟨an1, p1⟩ := r
        exact Res.any fun _ => Res.any fun _ => (grow_uipLoop k).mono fun _ h2 => h1.trans0 h2
    · exact grow_uipLoop k

theorem grow_derive1uip {an : Analysis} {x : ConflictClause} {cb : Callbacks} :
    Res (derive1uip env an p x cb) (fun r => Grow 0 0 p r.2.1) := by
  unfold derive1uip
  refine Res.bind (P := fun r => Grow 0 0 p r.2) ?_ fun r h1 => ?_
  · cases x with
    | binary a b => exact Res.pure .refl
    | long c => exact grow_bumpLongClause
  obtain ⟨an1, p1⟩ := r
  refine Res.any fun _ => Res.any fun r => Res.bind (grow_uipLoop _) fun r h2 => ?_
  exact Res.any fun _ => Res.pure (h1.trans0 h2)

end Analysis

theorem grow_addClauseVerbatim {ctx : Ctx} {h : LongHeader} {ls : List Lit} :
    Res (addClauseVerbatim ctx p h ls) (fun r => Grow (longWords ls) 2 p r.2.1) := by
  match ls with
  | [] => exact Res.pure (by simp [Grow, watchSum])
  | [a] =>
    simp only [addClauseVerbatim]
    refine Res.any fun b => ?_
    split
    · exact Res.pure (by simp [Grow, watchSum])
    · refine Res.bind grow_assignUnit fun p1 h1 => Res.pure ?_
      unfold Grow at *; simp only; omega
  | [a, b] =>
    simp only [addClauseVerbatim]
    exact Res.any fun _ => Res.pure (by simp [Grow, watchSum])
  | a :: b :: d :: ls =>
    simp only [addClauseVerbatim]
    refine Res.bind (P := fun r => ∀ x, r = some x →
      x.1.buffer.length = p.long.buffer.length + longWords (a :: b :: d :: ls)) ?_ fun r hr => ?_
    · unfold Long.add Arena.addClause
      refine Res.any fun _ => ?_
      dsimp only
      split
      · exact Res.pure (by simp)
      · exact Res.pure (by simp [longWords, LongHeader.words])
    · match r with
      | none => exact Res.throw
      | some (long, r) =>
        refine Res.bind grow_watchClause fun w hw => Res.pure ?_
        have := hr _ rfl
        simp only [longWords, List.length_cons] at this
        simp only [Grow, watchSum, longWords, List.length_cons]
        split at this <;> split <;> omega

theorem grow_backtrack {level : Nat} {cb : Callbacks} :
    Res (backtrackToLevel p level cb) (fun r => Grow 0 0 p r.1) := by
  unfold backtrackToLevel
  repeat first | exact Res.pure (.of_eq rfl rfl) | exact Res.throw | refine Res.any fun _ => ?_ | split

theorem grow_analyzeConflict {ctx : Ctx} {an : Analysis} {x : ConflictClause} {cb : Callbacks} :
    Res (Analysis.analyzeConflict env ctx an p x cb) (fun r => Grow (longWords r.2.1.derivedClause) 2 p r.2.2.1) := by
  unfold Analysis.analyzeConflict
  refine Res.any fun _ => Res.bind Analysis.grow_derive1uip fun r h1 => ?_
  obtain ⟨an1, p1, cb1⟩ := r
  refine Res.any fun r => ?_
  obtain ⟨an2, level⟩ := r
  refine Res.bind grow_backtrack fun r h2 => ?_
  obtain ⟨p2, cb2⟩ := r
  refine Res.bind (P := fun r => Grow (longWords r.2.1.derivedClause) 2 p2 r.2.2) ?_ fun r h3 => Res.pure ?_
  · unfold Analysis.learnAndAssign
    refine Res.any fun _ => Res.any fun r => ?_
    obtain ⟨an3, h⟩ := r
    refine Res.bind grow_addClauseVerbatim fun r h3 => ?_
    obtain ⟨ctx', p3, added⟩ := r
    cases added with
    | empty => exact Res.pure h3
    | unit _ => exact Res.pure h3
    | binary _ b => exact Res.any fun _ => Res.bind grow_assign fun p4 h4 => Res.pure (h3.trans h4)
    | long c => exact Res.any fun _ => Res.bind grow_assign fun p4 h4 => Res.pure (h3.trans h4)
  · have := (h1.trans0 h2).trans h3
    simpa using this

theorem grow_assignDecision : Res (p.assignDecision l) (Grow 0 0 p) := by
  unfold PropState.assignDecision
  refine Res.any fun _ => Res.any fun _ => ?_
  exact grow_assignUnit.mono fun _ h => h

theorem grow_collectGarbage {n : Nat} {S : List LC} (h : PInv n S p) : Res (collectGarbage p) (fun p' =>
    p'.long.buffer.length ≤ p.long.buffer.length ∧ watchSum p' ≤ watchSum p) := by
  intro p' e
  obtain ⟨t, e1⟩ : ∃ t, collectGarbageS p = .ok (t, p') := by
    exact of_erase (collectGarbageS_erase p) e
  refine ⟨?_, (collectGarbageS_le e1).2⟩
  by_cases hb : p.long.buffer.length < 2 ^ 32
  · exact ((fit_collectGarbage h hb).ok_elim e).1
  · unfold collectGarbage collectGarbageNow at e
    split at e
    · cases e
    · cases e; exact Nat.le_refl _

end

theorem watchSum_resize (p : PropState) (n : Nat) : watchSum (p.resize n) ≤ watchSum p := by
  unfold watchSum PropState.resize Heap.resizeList
  simp only [List.map_append, List.map_replicate, List.sum_append, List.length_nil, List.sum_replicate, smul_zero,
    Nat.add_zero]
  conv_rhs => rw [← List.take_append_drop (n * 2) p.watches.byLit]
  rw [List.map_append, List.sum_append]
  exact Nat.le_add_right _ _

section
variable {env : Env} {F : List (List Lit)} {s s' : Solver}

theorem Solver.Input.sizes (h : Solver.Input env F s) :
    s.words ≤ formulaWords F ∧ watchSum s.search.prop ≤ 2 * F.length := by
  induction h with
  | new => exact ⟨Nat.le_refl _, Nat.le_refl _⟩
  | proof _ ih => exact ih
  | @add F s s' c h hc e ih =>
    unfold Solver.addClause at e
    obtain ⟨s1, e1, e⟩ := bind_eq_ok.1 e
    obtain ⟨⟨ctx, p, _⟩, e2, e⟩ := bind_eq_ok.1 e
    cases e
    have h1 : s1.words = s.words ∧ watchSum s1.search.prop ≤ watchSum s.search.prop := by
      unfold Solver.ensureVars at e1
      split at e1
      · unfold Solver.resize at e1
        obtain ⟨_, _, e1⟩ := bind_eq_ok.1 e1
        cases e1
        exact ⟨rfl, watchSum_resize _ _⟩
      · cases e1; exact ⟨rfl, Nat.le_refl _⟩
    obtain ⟨h2, h3⟩ := grow_addClauseVerbatim _ e2
    simp only [Solver.words, formulaWords, List.map_append, List.sum_append, List.length_append, List.map_cons,
      List.map_nil, List.sum_cons, List.sum_nil, List.length_cons, List.length_nil] at *
    omega

/-- The sizes after a step of the search. -/
theorem StepCase.sizes {ctx : Ctx} {search : Search} {r : Option Bool} (h : Solver.Reachable env F s)
    (hc : StepCase env F s ctx search r) :
    search.prop.long.buffer.length + s.ctx.search.conflicts * (formulaVars F + 3) ≤
      s.words + ctx.search.conflicts * (formulaVars F + 3) ∧
    watchSum search.prop + 2 * s.ctx.search.conflicts ≤ watchSum s.search.prop + 2 * ctx.search.conflicts := by
  obtain ⟨L, S, hi⟩ := h.inv
  have hp : ∀ {p1 p : PropState} {ctx1 : Ctx} {r : Option ConflictClause},
      Solver.Propagating env F s p1 ctx1 p r →
      p.long.buffer.length ≤ s.search.prop.long.buffer.length ∧ watchSum p ≤ watchSum s.search.prop := by
    intro p1 p ctx1 r hp
    obtain ⟨_, _, hi1, _⟩ := hp.inv
    have h1 := grow_collectGarbage hi.prop _ hp.gc
    obtain ⟨h2, h3, _⟩ := grow_propagate hi1.enabled _ hp.prop
    simp only at h2 h3
    omega
  cases hc with
  | already => exact ⟨Nat.le_refl _, Nat.le_refl _⟩
  | fail h1 h0 =>
    obtain ⟨g1, g2⟩ := hp h1
    simp only [Ctx.conflict, h1.search, Solver.words, Nat.add_mul, watchSum] at *
    omega
  | learn h1 h0 e =>
    obtain ⟨g1, g2⟩ := hp h1
    obtain ⟨S2, S', C, lvl, target, hq, A⟩ := h1.analyze h0 e
    obtain ⟨g3, g4⟩ := grow_analyzeConflict _ e
    have hl := A.asserting.length_le hq
    rw [A.search]
    simp only [A.clause] at g3
    have : longWords C ≤ formulaVars F + 3 := by unfold longWords; split <;> omega
    simp only [Ctx.conflict, h1.search, Solver.words, Nat.add_mul] at *
    omega
  | decide h1 _ _ e =>
    obtain ⟨g1, g2⟩ := hp h1
    obtain ⟨g3, g4, _⟩ := grow_assignDecision _ e
    simp only [Ctx.decision, h1.search, Solver.words] at *
    omega
  | sat h1 =>
    obtain ⟨g1, g2⟩ := hp h1
    simp only [h1.search, Solver.words] at *
    omega

theorem maybeRestart_watches (e : s.maybeRestart = .ok s') : s'.search.prop.watches = s.search.prop.watches := by
  unfold Solver.maybeRestart at e
  split at e
  · simp only at e
    obtain ⟨⟨ctx, search⟩, e1, e⟩ := bind_eq_ok.1 e
    cases e
    unfold restart at e1
    simp only at e1
    split at e1
    · obtain ⟨⟨p, cb⟩, e2, e1⟩ := bind_eq_ok.1 e1
      cases e1
      unfold backtrackToLevel at e2
      obtain ⟨_, _, e2⟩ := bind_eq_ok.1 e2
      obtain ⟨_, _, e2⟩ := bind_eq_ok.1 e2
      obtain ⟨_, _, e2⟩ := bind_eq_ok.1 e2
      obtain ⟨_, _, e2⟩ := bind_eq_ok.1 e2
      cases e2
      rfl
    · cases e1; rfl
  · cases e; rfl

theorem maybeReduce_watches (e : s.maybeReduce env = .ok s') : s'.search.prop.watches = s.search.prop.watches := by
  unfold Solver.maybeReduce at e
  split at e
  · obtain ⟨⟨ctx, search⟩, e1, e⟩ := bind_eq_ok.1 e
    cases e
    unfold reduce at e1
    obtain ⟨a1, h1, e1⟩ := bind_eq_ok.1 e1
    obtain ⟨⟨a2, cands⟩, h2, e1⟩ := bind_eq_ok.1 e1
    obtain ⟨⟨ctx3, a3⟩, h3, e1⟩ := bind_eq_ok.1 e1
    obtain ⟨a4, h4, e1⟩ := bind_eq_ok.1 e1
    cases e1
    rfl
  · cases e; rfl

/-- The arena has room for the formula and one clause with each variable for each conflict, and the watch lists have two
entries for each of these clauses. -/
theorem Solver.Reachable.sizes (h : Solver.Reachable env F s) :
    s.words ≤ formulaWords F + s.ctx.search.conflicts * (formulaVars F + 3) ∧
    watchSum s.search.prop ≤ 2 * (F.length + s.ctx.search.conflicts) := by
  induction h with
  | input h =>
    obtain ⟨h1, h2⟩ := h.sizes
    omega
  | @restart s s' h e ih =>
    have w := maybeRestart_words e
    have v := maybeRestart_watches e
    have c : s'.ctx.search.conflicts = s.ctx.search.conflicts := by
      rcases C55_restart h e with ⟨_, rfl⟩ | ⟨_, _, _, h4, _⟩
      · rfl
      · exact h4
    unfold watchSum at *
    rw [w, v, c]; exact ih
  | @reduce s s' h e ih =>
    have w := maybeReduce_words e
    have v := maybeReduce_watches e
    have c : s'.ctx.search.conflicts = s.ctx.search.conflicts := by
      rcases C55_reduce h e with ⟨_, rfl⟩ | ⟨_, _, _, _, _, h4, _⟩
      · rfl
      · exact h4
    unfold watchSum at *
    rw [w, v, c]; exact ih
  | step h e ih =>
    obtain ⟨h1, h2⟩ := (searchStep_cases h e).sizes h
    simp only [Solver.words] at *
    omega

end

end Starlit
