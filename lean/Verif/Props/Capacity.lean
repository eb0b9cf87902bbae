import Verif.Solver.Fit
import Verif.Props.Range
import Verif.Props.Memory
import Verif.Props.Solver

/-!
# C58: nothing fails unless the clause arena overflows

C03 and C04 allow the errors `arenaFull` (the `unwrap` of a full clause arena) and `tooBig` (limits of the
model).  Here it is shown when they do not occur.
-/

namespace Starlit

section
variable {env : Env} {n : Nat} {F L : DB} {S : List LC} {ctx : Ctx} {s : Search} {p : PropState}

/-- A clause of literals whose negations are on the trail has at most one literal of each variable. -/
theorem Asserting.length_le {D : DB} {c : List Lit} {lvl : Nat} (h : Asserting D p.trail c lvl)
    (hp : PInv n S p) : c.length ≤ n := by
  have hon : ∀ l ∈ c, ∃ s ∈ p.trail.steps, s.lit = l.neg := by
    obtain ⟨k, u, rest, rfl, hu, -, hr⟩ := h.head
    intro l hl
    rcases List.mem_cons.1 hl with rfl | hl
    · exact ⟨u, List.mem_of_getElem? hu, by simp⟩
    · obtain ⟨i, s, ha, hs, -⟩ := hr l hl
      obtain ⟨_, s', h1, h2, _⟩ := ha
      have : p.trail.steps[i]? = some s' := h1
      exact ⟨s', List.mem_of_getElem? this, h2⟩
  have h1 : (c.map Lit.index).Nodup := by
    refine List.Nodup.map_on ?_ h.nodup
    intro x hx y hy e
    obtain ⟨a, ha, ea⟩ := hon x hx
    obtain ⟨b, hb, eb⟩ := hon y hy
    refine (Lit.eq_or_eq_neg e).resolve_right fun hne => hp.trail.not_both ha hb ?_
    rw [ea, eb, hne]
  have h2 : c.map Lit.index ⊆ List.range n := by
    intro x hx
    obtain ⟨l, hl, rfl⟩ := List.mem_map.1 hx
    obtain ⟨a, ha, ea⟩ := hon l hl
    have := hp.trail.idx_lt a ha
    rw [ea, Lit.index_neg] at this
    exact List.mem_range.2 this
  have := (h1.subperm h2).length_le
  simpa using this

/-- Conflict analysis succeeds if the arena has less than `2^32` words, and adds at most one clause with at
most one literal of each variable. -/
theorem analyzeConflict_fit {an : Analysis} {cb : Callbacks}
    {c : ConflictClause} (h : PInv n S p) (d : DBInv F L S p.binary p.trail.steps p.unsat)
    (ha : AnIdle an) (hm : MinIdle an.minimize) (hcb : CbInv env n cb) (hc : ConflictOK S p c)
    (h0 : p.trail.decisionLevel ≠ 0) (hb : p.long.buffer.length < 2 ^ 32) (hl : p.load ≤ UNASSIGNED) :
    Fit (Analysis.analyzeConflict env ctx an p c cb) (fun r =>
      r.2.2.1.long.buffer.length ≤ p.long.buffer.length + (n + 3)) := by
  unfold Analysis.analyzeConflict
  rw [show assertM (decide (p.trail.decisionLevel ≠ 0)) = .ok () by simp [assertM, h0]; rfl, bind_ok]
  obtain ⟨an1, p1, cb1, S1, e1, o1, k1, c1, m1, u1⟩ := derive1uip_spec h d ha hcb hc h0
  have hsize := derive1uip_size e1
  obtain ⟨a1, rfl⟩ := o1.eq
  have d1 : DBInv F L S1 p.binary p.trail.steps p.unsat := d.sim o1.sim
  rw [e1, bind_ok]
  simp only
  have k2 := k1.trans (doDecay_spec k1.inv)
  obtain ⟨m', C, lvl, e2, hm', has, _⟩ := minimizeDerived_spec o1.inv d1 (m1 ▸ hm) u1 h0
  rw [e2, bind_ok]
  simp only
  obtain ⟨target, p2, cb2, ht, e3, b⟩ := backtrack_spec o1.inv k2.inv has.lt
  rw [e3, bind_ok]
  simp only
  have hlen : C.length ≤ n := has.length_le o1.inv
  have hn := h.sized.n_le
  rw [MAX_INDEX_eq] at hn
  obtain ⟨sd, hsd, _⟩ := h.trail.decs (lvl + 1) target (by omega) ht
  have hts := (List.getElem?_eq_some_iff.1 hsd).1
  have hst : p2.trail.steps.length < UNASSIGNED := by
    rw [b.trail]
    simp only [Trail.cut, List.length_take]
    unfold PropState.load at hl
    omega
  have hlong : p2.long.buffer.length = p.long.buffer.length := by rw [b.long]; exact hsize
  refine Fit.bind (fit_learnAndAssign hst (by rw [hlong]; exact hb) (by simp only; omega)) fun r hr =>
    fit_pure ?_
  simp only at hr ⊢
  rw [hr, hlong]
  unfold longWords
  split <;> omega

theorem searchStep_fit (h : SInv env n F L S ctx s) (hb : s.prop.long.buffer.length < 2 ^ 32)
    (hl : s.prop.load ≤ UNASSIGNED) :
    Fit (searchStep env ctx s) (fun r =>
      r.2.1.prop.long.buffer.length ≤ s.prop.long.buffer.length + (n + 3) ∧
      (s.prop.long.buffer.length < r.2.1.prop.long.buffer.length → ∃ p1, collectGarbage s.prop = .ok p1 ∧
        r.2.1.prop.long.buffer.length ≤ p1.long.buffer.length + (n + 3))) := by
  unfold searchStep
  split
  · exact fit_pure ⟨by simp only; omega, fun h => absurd h (Nat.lt_irrefl _)⟩
  have hph : Fit (do let p ← collectGarbage s.prop; propagate ctx p) (fun r =>
      r.2.1.load ≤ s.prop.load ∧ r.2.1.long.buffer.length ≤ s.prop.long.buffer.length) := by
    obtain ⟨p1, e1, w1, f1⟩ := (collectGarbage_spec h.prop).fit (fit_collectGarbage h.prop hb)
    rw [e1, bind_ok]
    have hen : p1.watches.enabled = true := by
      rcases w1 with rfl | ⟨ρ, hg⟩
      · exact h.prop.enabled
      · exact hg.inv.enabled
    refine (fit_propagate hen (by rw [f1.2]; exact hl)).mono fun r hr => ?_
    have := hr.1; have := hr.2; have := f1.1; have := f1.2
    omega
  obtain ⟨⟨ctx2, p2, r⟩, e, ⟨⟨S2, q⟩, c1, c2, c3⟩, f⟩ := (phase_spec h.prop ctx).fit hph
  obtain ⟨p1, e1, e2⟩ := bind_eq_ok.1 e
  rw [e1, bind_ok, e2, bind_ok]
  obtain ⟨_, hsz⟩ := (fit_collectGarbage h.prop hb).ok_elim e1
  have hp1 : p2.long.buffer.length = p1.long.buffer.length := by
    have hen : p1.watches.enabled = true := by
      rcases (collectGarbage_spec h.prop).ok_elim e1 with rfl | ⟨ρ, hg⟩
      · exact h.prop.enabled
      · exact hg.inv.enabled
    exact ((fit_propagate hen (by rw [hsz]; exact hl)).ok_elim e2).1
  simp only at f ⊢
  have d2 := q.db _ _ h.db
  cases r with
  | some c =>
    simp only
    split
    · exact fit_pure ⟨by simp only; omega, fun h => by simp only at h; omega⟩
    · rename_i h0
      refine Fit.bind (analyzeConflict_fit q.inv d2 h.an h.min h.cb (q.conflict c rfl) h0
        (Nat.lt_of_le_of_lt f.2 hb) (Nat.le_trans f.1 hl)) fun r hr => fit_pure ?_
      obtain ⟨an, ctx3, p3, cb⟩ := r
      simp only at hr ⊢
      exact ⟨by omega, fun _ => ⟨p1, rfl, by omega⟩⟩
  | none =>
    simp only
    obtain ⟨x, v', e3, cb1, pp, all, some⟩ := popDecisionVar_spec h.cb q.inv.trail.vwf
      q.inv.sized.values q.inv.sized.n_le (q.covers h.prop h.covers)
    rw [e3, bind_ok]
    cases x with
    | none => exact fit_pure ⟨by simp only; omega, fun h => by simp only at h; omega⟩
    | some x =>
      simp only
      refine Fit.bind (P := fun _ => True) (by
        unfold decidePhase; exact Fit.bind fit_idx fun _ _ => fit_pure trivial) fun l _ => ?_
      unfold PropState.assignDecision
      refine Fit.bind (fit_assign (p := { p2 with trail := { p2.trail with
        decisions := p2.trail.decisions ++ [p2.trail.steps.length] } })
        (Nat.le_trans f.1 hl)) fun p3 h3 => fit_pure ?_
      have := h3.1
      simp only at this ⊢
      exact ⟨by omega, fun h => by omega⟩

end

/-! ## Reductions and restarts keep the size of the arena -/

section
variable {env : Env} {a a' : Arena}

theorem protectLoop_size {b : Bool} : ∀ (ss : List Step) {a a' : Arena},
    protectLoop b ss a = .ok a' → a'.buffer.length = a.buffer.length
  | [], a, a', e => by cases e; rfl
  | s :: ss, a, a', e => by
    unfold protectLoop at e
    split at e
    · obtain ⟨a1, e1, e⟩ := bind_eq_ok.1 e
      exact (protectLoop_size ss e).trans (fit_modHeader.ok_elim e1)
    · exact protectLoop_size ss e

theorem reduceVisit_size {c : Nat} {r : Option (Nat × Nat)} (e : reduceVisit a c = .ok (a', r)) :
    a'.buffer.length = a.buffer.length := by
  unfold reduceVisit at e
  obtain ⟨_, _, e⟩ := bind_eq_ok.1 e
  obtain ⟨_, _, e⟩ := bind_eq_ok.1 e
  split at e
  · cases e; rfl
  split at e
  · cases e; rfl
  split at e
  · cases e; rfl
  split at e
  · obtain ⟨a1, e1, e⟩ := bind_eq_ok.1 e
    have := (fit_modHeader (a := a)).ok_elim e1
    split at e <;> (cases e; exact this)
  · cases e; rfl

theorem candidateLoop_size : ∀ (fuel : Nat) {a a' : Arena} {it : Option Nat} {cs cs' : List (Nat × Nat)},
    candidateLoop fuel a it cs = .ok (a', cs') → a'.buffer.length = a.buffer.length
  | 0, _, _, _, _, _, e => by cases e
  | fuel + 1, a, a', it, cs, cs', e => by
    unfold candidateLoop at e
    obtain ⟨r, _, e⟩ := bind_eq_ok.1 e
    cases r with
    | none => cases e; rfl
    | some c =>
      obtain ⟨⟨a1, r⟩, e1, e⟩ := bind_eq_ok.1 e
      exact (candidateLoop_size fuel e).trans (reduceVisit_size e1)

theorem deleteLoop_size : ∀ (ds : List (Nat × Nat)) {ctx ctx' : Ctx} {a a' : Arena},
    deleteLoop ds ctx a = .ok (ctx', a') → a'.buffer.length = a.buffer.length
  | [], _, _, _, _, e => by cases e; rfl
  | (_, c) :: ds, ctx, ctx', a, a', e => by
    unfold deleteLoop at e
    split at e
    · cases e
    · obtain ⟨_, _, e⟩ := bind_eq_ok.1 e
      obtain ⟨a1, e1, e⟩ := bind_eq_ok.1 e
      exact (deleteLoop_size ds e).trans (fit_delete.ok_elim e1)

variable {s s' : Solver}

/-- The number of words of the clause arena. -/
def Solver.words (s : Solver) : Nat := s.search.prop.long.buffer.length

theorem maybeReduce_words (e : s.maybeReduce env = .ok s') : s'.words = s.words := by
  unfold Solver.maybeReduce at e
  split at e
  · obtain ⟨⟨ctx, search⟩, e1, e⟩ := bind_eq_ok.1 e
    cases e
    unfold reduce at e1
    obtain ⟨a1, h1, e1⟩ := bind_eq_ok.1 e1
    obtain ⟨⟨a2, cands⟩, h2, e1⟩ := bind_eq_ok.1 e1
    obtain ⟨⟨ctx3, a3⟩, h3, e1⟩ := bind_eq_ok.1 e1
    obtain ⟨a4, h4, e1⟩ := bind_eq_ok.1 e1
    cases e1
    have := protectLoop_size _ h1
    have := candidateLoop_size _ h2
    have := deleteLoop_size _ h3
    have := protectLoop_size _ h4
    simp only [Solver.words] at *
    omega
  · cases e; rfl

theorem maybeRestart_words (e : s.maybeRestart = .ok s') : s'.words = s.words := by
  unfold Solver.maybeRestart at e
  split at e
  · simp only at e
    obtain ⟨⟨ctx, search⟩, e1, e⟩ := bind_eq_ok.1 e
    cases e
    unfold restart at e1
    simp only at e1
    split at e1
    · obtain ⟨⟨p, cb⟩, e2, e1⟩ := bind_eq_ok.1 e1
      cases e1
      unfold backtrackToLevel at e2
      obtain ⟨_, _, e2⟩ := bind_eq_ok.1 e2
      obtain ⟨_, _, e2⟩ := bind_eq_ok.1 e2
      obtain ⟨_, _, e2⟩ := bind_eq_ok.1 e2
      obtain ⟨_, _, e2⟩ := bind_eq_ok.1 e2
      cases e2
      rfl
    · cases e1; rfl
  · cases e; rfl

end

/-! ## Runs -/

section
variable {env : Env} {F : List (List Lit)} {s s' : Solver}

theorem Solver.Reachable.load (h : Solver.Reachable env F s) (hu : (unitLits F).length < 2 ^ 31) :
    s.search.prop.load ≤ UNASSIGNED := by
  obtain ⟨L, S, hi⟩ := h.inv
  have h1 := (C56_range h).1.steps
  have h2 := h.vars_le
  have h3 := s.search.prop.values.free_le
  rw [hi.prop.sized.values] at h3
  unfold PropState.load UNASSIGNED
  omega

/-- C58: in every state of every run with less than `2^32` words in the clause arena, one iteration of
`solve()` succeeds; it enlarges the arena by at most one clause with one literal for each variable. -/
theorem C58_step (h : Solver.Reachable env F s) (hu : (unitLits F).length < 2 ^ 31)
    (hb : s.words < 2 ^ 32) :
    ∃ s' r, s.scheduleStep env = .ok (s', r) ∧ s'.words ≤ s.words + (formulaVars F + 3) := by
  obtain ⟨L, S, hi⟩ := h.inv
  obtain ⟨s1, e1, h1, _⟩ := maybeRestart_spec hi
  obtain ⟨s2, e2, ⟨L2, S2, h2⟩, _⟩ := maybeReduce_spec (env := env) h1
  have w1 := maybeRestart_words e1
  have w2 := maybeReduce_words e2
  have hr := (h.restart e1).reduce e2
  obtain ⟨⟨ctx, search, r⟩, e3, _, f⟩ := (searchStep_spec h2).fit
    (searchStep_fit h2 (by unfold Solver.words at *; omega) (hr.load hu))
  refine ⟨_, _, by unfold Solver.scheduleStep; rw [e1, bind_ok, e2, bind_ok, e3, bind_ok]; rfl, ?_⟩
  have := f.1
  unfold Solver.words at *
  simp only at this ⊢
  omega

/-- C58: `solve()` does not fail in the first `k` iterations if the arena has room for `k` clauses with one
literal for each variable. -/
theorem C58_solve (hu : (unitLits F).length < 2 ^ 31) : ∀ (k : Nat) {s : Solver},
    Solver.Reachable env F s → s.words + k * (formulaVars F + 3) ≤ 2 ^ 32 →
    ∃ s' r, s.solve env k = .ok (s', r) ∧ s'.words ≤ s.words + k * (formulaVars F + 3)
  | 0, s, _, _ => ⟨s, none, rfl, by omega⟩
  | k + 1, s, h, hb => by
    rw [Nat.add_mul] at hb
    obtain ⟨s1, r1, e1, w1⟩ := C58_step h hu (by omega)
    simp only [Solver.solve]
    rw [e1, bind_ok]
    cases r1 with
    | some b => exact ⟨s1, some b, rfl, by rw [Nat.add_mul]; omega⟩
    | none =>
      obtain ⟨s2, r2, e2, w2⟩ := C58_solve hu k (h.schedule e1) (by omega)
      exact ⟨s2, r2, e2, by rw [Nat.add_mul]; omega⟩

/-- C58: if `solve()` fails, the clause arena had `2^32` words or more after some of the iterations. -/
theorem C58_cause (hu : (unitLits F).length < 2 ^ 31) : ∀ (k : Nat) {s : Solver} {err : Err},
    Solver.Reachable env F s → s.solve env k = .error err →
    ∃ j s', j < k ∧ s.solve env j = .ok (s', none) ∧ 2 ^ 32 ≤ s'.words
  | 0, s, err, _, e => by cases e
  | k + 1, s, err, h, e => by
    rcases Nat.lt_or_ge s.words (2 ^ 32) with hb | hb
    · obtain ⟨s1, r1, e1, _⟩ := C58_step h hu hb
      simp only [Solver.solve] at e
      rw [e1, bind_ok] at e
      cases r1 with
      | some b => cases e
      | none =>
        obtain ⟨j, s', hj, ej, hw⟩ := C58_cause hu k (h.schedule e1) e
        refine ⟨j + 1, s', by omega, ?_, hw⟩
        simp only [Solver.solve]
        rw [e1, bind_ok]
        exact ej
    · exact ⟨0, s, by omega, rfl, hb⟩

/-- C58: the arena overflows only if the clauses need the space: when it reaches `2^32` words in an
iteration, more than `2^30` words were needed for the clauses stored before the iteration. -/
theorem C58_needed (h : Solver.Reachable env F s) (hu : (unitLits F).length < 2 ^ 31)
    (hb : s.words < 2 ^ 32) {r : Option Bool} (e : s.scheduleStep env = .ok (s', r))
    (hw : 2 ^ 32 ≤ s'.words) :
    ∃ s2 cs, Solver.Reachable env F s2 ∧ s2.words = s.words ∧
      Long.clauses s2.search.prop.long = .ok cs ∧ 2 ^ 30 < neededWords cs := by
  obtain ⟨L, S, hi⟩ := h.inv
  obtain ⟨s1, e1, h1, _⟩ := maybeRestart_spec hi
  obtain ⟨s2, e2, ⟨L2, S2, h2⟩, _⟩ := maybeReduce_spec (env := env) h1
  have w1 := maybeRestart_words e1
  have w2 := maybeReduce_words e2
  have hr := (h.restart e1).reduce e2
  unfold Solver.scheduleStep at e
  rw [e1, bind_ok, e2, bind_ok] at e
  obtain ⟨⟨ctx, search, r⟩, e3, e⟩ := bind_eq_ok.1 e
  cases e
  have f := (searchStep_fit h2 (by unfold Solver.words at *; omega) (hr.load hu)).ok_elim e3
  obtain ⟨p1, g, hlt⟩ := f.2 (by unfold Solver.words at *; simp only at *; omega)
  have hv := h.vars_le
  unfold Solver.words at *
  simp only at hw hlt
  refine ⟨s2, _, hr, by omega, h2.prop.rep.clauses, ?_⟩
  have h3 := h2.prop.rep.needed
  have : p1.long.buffer.length ≤
      2 * neededWords ((S2.filter LC.live).map LC.lits) := by
    unfold collectGarbage at g
    split at g
    · obtain ⟨g1, g2⟩ := collectGarbageNow_long h2.prop g
      rw [h2.prop.rep.clauses] at g2
      obtain ⟨S3, hp3⟩ : ∃ S3, PInv _ S3 p1 := by
        obtain ⟨ρ, hg⟩ := (collectGarbageNow_spec h2.prop).ok_elim g
        exact ⟨_, hg.inv⟩
      have h4 := hp3.rep.needed
      rw [hp3.rep.clauses] at g2
      have g2 := Except.ok.inj g2
      rw [g2, g1] at h4
      omega
    · rename_i hs
      cases g
      simp only [Arena.shouldCollectGarbage, decide_eq_true_eq] at hs
      omega
  omega

/-- C58: adding a clause succeeds if the arena has less than `2^32` words and the clause less than `2^31`
literals; it enlarges the arena by the clause, its length and its header if it is long. -/
theorem C58_add {c : List Lit} (h : Solver.Input env F s) (hc : ∀ l ∈ c, l.Valid)
    (hu : (unitLits F).length < 2 ^ 31) (hb : s.words < 2 ^ 32) (hlen : c.length < 2 ^ 31) :
    ∃ s', s.addClause c = .ok s' ∧ s'.words = s.words + longWords c := by
  obtain ⟨S, hi⟩ := h.inv
  have hst := (C56_range (.input h)).1.steps
  have hv := h.vars_le
  have hf : Fit (s.addClause c) (fun s' => s'.words = s.words + longWords c) := by
    unfold Solver.addClause
    refine Fit.bind (P := fun s1 => s1.search.prop.long = s.search.prop.long ∧
      s1.search.prop.trail.steps = s.search.prop.trail.steps) ?_ fun s1 h1 => ?_
    · obtain ⟨s1, e1, _⟩ := ensureVars_spec hi (varCount_le hc)
      rw [e1]
      unfold Solver.ensureVars at e1
      split at e1
      · unfold Solver.resize at e1
        obtain ⟨_, _, e1⟩ := bind_eq_ok.1 e1
        cases e1
        exact ⟨rfl, rfl⟩
      · cases e1; exact ⟨rfl, rfl⟩
    · refine Fit.bind (fit_addClauseVerbatim (by rw [h1.2]; unfold UNASSIGNED; omega)
        (by rw [h1.1]; exact hb) hlen) fun r hr => fit_pure ?_
      have := hr.1
      rw [h1.1] at this
      exact this
  obtain ⟨s', e, _, w⟩ := (addClause_spec hi hc).fit hf
  exact ⟨s', e, w⟩

/-- The words needed for the long clauses of a formula. -/
def formulaWords (F : List (List Lit)) : Nat := (F.map longWords).sum

theorem C58_addClauses {env : Env} : ∀ (cs : List (List Lit)) {F : List (List Lit)} {s : Solver},
    Solver.Input env F s → (∀ c ∈ cs, ∀ l ∈ c, l.Valid) → (unitLits (F ++ cs)).length < 2 ^ 31 →
    s.words + formulaWords cs < 2 ^ 32 → (∀ c ∈ cs, c.length < 2 ^ 31) →
    ∃ s', s.addClauses cs = .ok s' ∧ s'.words = s.words + formulaWords cs
  | [], F, s, _, _, _, _, _ => ⟨s, rfl, by simp [formulaWords]⟩
  | c :: cs, F, s, h, hc, hu, hb, hlen => by
    have hu' : unitLits (F ++ c :: cs) = unitLits ((F ++ [c]) ++ cs) := by simp
    have hle : (unitLits F).length ≤ (unitLits (F ++ c :: cs)).length := by
      simp [unitLits, List.filterMap_append]
    have hw : formulaWords (c :: cs) = longWords c + formulaWords cs := by simp [formulaWords]
    obtain ⟨s1, e1, w1⟩ := C58_add h (hc c (by simp)) (by omega) (by omega) (hlen c (by simp))
    obtain ⟨s2, e2, w2⟩ := C58_addClauses cs (h.add (hc c (by simp)) e1)
      (fun d hd => hc d (by simp [hd])) (by rw [← hu']; exact hu) (by omega)
      (fun d hd => hlen d (by simp [hd]))
    simp only [Solver.addClauses]
    rw [e1, bind_ok]
    exact ⟨s2, e2, by omega⟩

/-- C58, from a new solver: with fewer than `2^31` unit clauses, clauses of less than `2^31` literals, and room
in the arena for the long clauses and for `k` learned clauses, loading the formula and `k` iterations of
`solve()` succeed; an answer within these iterations is right. -/
theorem C58_total (env : Env) (F : List (List Lit)) (k : Nat) (hF : ∀ c ∈ F, ∀ l ∈ c, l.Valid)
    (hlen : ∀ c ∈ F, c.length < 2 ^ 31) (hu : (unitLits F).length < 2 ^ 31)
    (hb : formulaWords F + k * (formulaVars F + 3) < 2 ^ 32) :
    ∃ s s' r, (Solver.default env).addClauses F = .ok s ∧ s.solve env k = .ok (s', r) ∧
      s'.words < 2 ^ 32 ∧ (r = some false → FormulaUnsat F) ∧
      (r = some true → ∃ α : Nat → Bool, FormulaSat α F ∧ ∀ c ∈ F, ∀ l ∈ c,
        s'.value l = .ok (some (α l.index == l.isPositive))) := by
  obtain ⟨s, e, w⟩ := C58_addClauses (env := env) F .new hF (by simpa using hu)
    (by
      have : (Solver.default env).words = 0 := rfl
      omega) hlen
  have h0 : (Solver.default env).words = 0 := rfl
  have hin : Solver.Input env F s := by
    have := Solver.Input.new.addClauses F hF e
    simpa using this
  obtain ⟨s', r, e2, w2⟩ := C58_solve hu k (.input hin) (by omega)
  exact ⟨s, s', r, e, e2, by omega, fun h => C01_fresh hF e (h ▸ e2), fun h => C02_fresh hF e (h ▸ e2)⟩

end

private theorem aux {env : Env} {F : List (List Lit)} {k x y : Nat} {b : Option Bool} (h : (do
    let s ← (Solver.default env).addClauses F
    let (s', r) ← s.solve env k
    pure (s.words, r, s'.words) : M (Nat × Option Bool × Nat)) = .ok (x, b, y)) :
    ∃ s s', (Solver.default env).addClauses F = .ok s ∧ s.words = x ∧ s.solve env k = .ok (s', b) ∧
      s'.words = y := by
  obtain ⟨s, h1, h⟩ := bind_eq_ok.1 h
  obtain ⟨⟨s', r⟩, h2, h⟩ := bind_eq_ok.1 h
  cases h
  exact ⟨s, s', h1, rfl, h2, rfl⟩

private theorem run : (do
    let s ← (Solver.default Example.envReduce).addClauses (Example.cnf (Example.php 4 3))
    let (s', r) ← s.solve Example.envReduce 20
    pure (s.words, r, s'.words) : M (Nat × Option Bool × Nat)) = .ok (24, some false, 30) := by
  decide +kernel

/-- The hypotheses of `C58_total` are met by a formula with long clauses that needs conflict analysis: the
pigeon hole formula for four pigeons is refuted within 20 iterations, in which the arena grows from 24 to 30 words. -/
theorem C58_example : ∃ s s',
    (∀ c ∈ Example.cnf (Example.php 4 3), ∀ l ∈ c, l.Valid) ∧
    (∀ c ∈ Example.cnf (Example.php 4 3), c.length < 2 ^ 31) ∧
    (unitLits (Example.cnf (Example.php 4 3))).length < 2 ^ 31 ∧
    formulaWords (Example.cnf (Example.php 4 3)) = 24 ∧
    formulaWords (Example.cnf (Example.php 4 3)) + 20 * (formulaVars (Example.cnf (Example.php 4 3)) + 3) < 2 ^ 32 ∧
    (Solver.default Example.envReduce).addClauses (Example.cnf (Example.php 4 3)) = .ok s ∧ s.words = 24 ∧
    s.solve Example.envReduce 20 = .ok (s', some false) ∧ s'.words = 30 := by
  obtain ⟨s, s', h1, h3, h2, h4⟩ := aux run
  exact ⟨s, s', by decide +kernel, by decide +kernel, by decide +kernel, by decide +kernel, by decide +kernel,
    h1, h3, h2, h4⟩

end Starlit
