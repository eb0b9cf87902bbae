import Verif.Solver.Trace
import Verif.Props.Graph
import Verif.Props.Calculus
import Verif.Props.TraceText
import Verif.Props.Stats
import Verif.Props.Memory

/-!
# C105: the log of a run is a record of it

`readLog` reads the messages of a run without knowing the solver: it keeps a list of decisions, and rejects messages that
do not fit.
-/

namespace Starlit

/-- Reads a list of messages, starting with the given decisions: the decisions at the end and the answer, if there
is one.  A decision is about a variable without a decision.  A derived clause is followed by a message that takes back at least
the last decision, a restart by one that takes back all of them (if there are any).  These messages tell how many
decisions there are.  Garbage is collected when at most half of the arena is used.  "unsatisfiable" is said without
decisions, and nothing follows an answer. -/
def readLog : List Event → List Lit → Option (List Lit × Option Bool)
  | [], d => some (d, none)
  | .sat :: es, d => if es = [] then some (d, some true) else none
  | .unsat :: es, d => if es = [] ∧ d = [] then some (d, some false) else none
  | .decision l :: es, d =>
    if ∀ m ∈ d, m.index ≠ l.index then readLog es (d ++ [l]) else none
  | .uip c :: .backtrack a b :: es, d =>
    if c ≠ [] ∧ a = d.length ∧ b < a then readLog es (d.take b) else none
  | .restart :: es, [] => readLog es []
  | .restart :: .backtrack a b :: es, m :: d =>
    if a = (m :: d).length ∧ b = 0 then readLog es [] else none
  | .reduce :: es, d => readLog es d
  | .collect a u :: es, d => if 2 * u ≤ a then readLog es d else none
  | _ :: _, _ => none

/-- The decisions of the trail. -/
def Trail.decided (t : Trail) : List Lit :=
  (t.steps.filter (fun st => Decidable.decide (st.reason = .decision))).map Step.lit

/-- What the messages say about the counters. -/
def tally : List Event → SearchStats
  | [] => ⟨0, 0, 0, 0⟩
  | .decision _ :: es => { tally es with decisions := (tally es).decisions + 1 }
  | .uip _ :: es => { tally es with conflicts := (tally es).conflicts + 1 }
  | .unsat :: es => { tally es with conflicts := (tally es).conflicts + 1 }
  | .restart :: es => { tally es with restarts := (tally es).restarts + 1 }
  | .reduce :: es => { tally es with reductions := (tally es).reductions + 1 }
  | _ :: es => tally es

/-- Adding up counters. -/
def SearchStats.plus (a b : SearchStats) : SearchStats :=
  ⟨a.decisions + b.decisions, a.conflicts + b.conflicts, a.restarts + b.restarts, a.reductions + b.reductions⟩

theorem SearchStats.plus_assoc (a b c : SearchStats) : (a.plus b).plus c = a.plus (b.plus c) := by
  simp [SearchStats.plus, Nat.add_assoc]

theorem SearchStats.plus_zero (a : SearchStats) : a.plus ⟨0, 0, 0, 0⟩ = a := rfl

theorem tally_append (a b : List Event) : tally (a ++ b) = (tally a).plus (tally b) := by
  induction a with
  | nil => simp [tally, SearchStats.plus]
  | cons e a ih =>
    rw [List.cons_append]
    cases e <;> simp only [tally, ih, SearchStats.plus] <;> congr 1 <;> omega

/-! ## Erasure -/

theorem Analysis.analyzeConflictLog_eq (env : Env) (ctx : Ctx) (an : Analysis) (p : PropState) (c : ConflictClause)
    (cb : Callbacks) : Except.map Prod.fst (Analysis.analyzeConflictLog env ctx an p c cb) =
      Analysis.analyzeConflict env ctx an p c cb := by
  unfold Analysis.analyzeConflictLog Analysis.analyzeConflict
  cases assertM (decide (p.trail.decisionLevel ≠ 0)) with
  | error => rfl
  | ok x =>
    simp only [bind_ok]
    cases derive1uip env an p c cb with
    | error => rfl
    | ok x =>
      simp only [bind_ok]
      cases x.1.minimizeDerived x.2.1 with
      | error => rfl
      | ok y =>
        simp only [bind_ok]
        cases backtrackToLevel x.2.1 y.2 { x.2.2 with vsids := x.2.2.vsids.doDecay env } with
        | error => rfl
        | ok z =>
          simp only [bind_ok]
          cases learnAndAssign ctx y.1 z.1 <;> rfl

theorem searchStepLog_eq (env : Env) (ctx : Ctx) (s : Search) :
    Except.map Prod.fst (searchStepLog env ctx s) = searchStep env ctx s := by
  unfold searchStepLog searchStep
  split
  · rfl
  · simp only
    cases collectGarbage s.prop with
    | error => rfl
    | ok p =>
      simp only [bind_ok]
      cases propagate ctx p with
      | error => rfl
      | ok x =>
        obtain ⟨ctx1, p1, r⟩ := x
        simp only [bind_ok]
        cases r with
        | some c =>
          simp only
          split
          · rfl
          · rw [← Analysis.analyzeConflictLog_eq]
            cases Analysis.analyzeConflictLog env _ s.analysis p1 c s.cb <;> rfl
        | none =>
          simp only
          cases s.cb.vsids.popDecisionVar p1.values with
          | error => rfl
          | ok y =>
            obtain ⟨v, vs⟩ := y
            simp only [bind_ok]
            cases v with
            | none => rfl
            | some v =>
              simp only
              cases decidePhase s.cb.phases v with
              | error => rfl
              | ok l =>
                simp only [bind_ok]
                cases p1.assignDecision l <;> rfl

theorem restartLog_eq (ctx : Ctx) (s : Search) : Except.map Prod.fst (restartLog ctx s) = restart ctx s := by
  unfold restartLog restart
  simp only
  split
  · cases backtrackToLevel s.prop 0 s.cb <;> rfl
  · rfl

namespace Solver

theorem maybeRestartLog_eq (s : Solver) : Except.map Prod.fst s.maybeRestartLog = s.maybeRestart := by
  unfold maybeRestartLog maybeRestart
  split
  · simp only
    rw [← restartLog_eq]
    cases restartLog s.ctx s.search <;> rfl
  · rfl

theorem maybeReduceLog_eq (env : Env) (s : Solver) :
    Except.map Prod.fst (s.maybeReduceLog env) = s.maybeReduce env := by
  unfold maybeReduceLog
  cases s.maybeReduce env <;> rfl

theorem scheduleStepLog_eq (env : Env) (s : Solver) :
    Except.map Prod.fst (s.scheduleStepLog env) = s.scheduleStep env := by
  unfold scheduleStepLog scheduleStep
  rw [← maybeRestartLog_eq]
  cases s.maybeRestartLog with
  | error => rfl
  | ok x =>
    simp only [bind_ok, Except.map]
    rw [← maybeReduceLog_eq]
    cases x.1.maybeReduceLog env with
    | error => rfl
    | ok y =>
      simp only [bind_ok, Except.map]
      rw [← searchStepLog_eq]
      cases searchStepLog env y.1.ctx y.1.search <;> rfl

theorem solveLog_eq (env : Env) (k : Nat) (s : Solver) :
    Except.map Prod.fst (s.solveLog env k) = s.solve env k := by
  induction k generalizing s with
  | zero => rfl
  | succ k ih =>
    unfold solveLog solve
    rw [← scheduleStepLog_eq]
    cases s.scheduleStepLog env with
    | error => rfl
    | ok x =>
      obtain ⟨⟨s1, r⟩, es⟩ := x
      simp only [bind_ok, Except.map]
      cases r with
      | some b => rfl
      | none =>
        simp only
        rw [← ih s1]
        cases s1.solveLog env k <;> rfl

end Solver

theorem fst_of_ok {α β : Type} {x : M (α × β)} {y : M α} (h : Except.map Prod.fst x = y) {a : α} {b : β}
    (e : x = .ok (a, b)) : y = .ok a := by
  rw [← h, e]; rfl

/-! ## Decisions of the trail -/

theorem take_of_levels {xs : List Step} {a n k : Nat} (h : xs.map Step.level = List.range' (a + 1) n) :
    xs.filter (fun st => decide (st.level ≤ a + k)) = xs.take k := by
  induction xs generalizing a n k with
  | nil => simp
  | cons x xs ih =>
    cases n with
    | zero => simp at h
    | succ n =>
      rw [List.range'_succ, List.map_cons, List.cons.injEq] at h
      cases k with
      | zero =>
        rw [List.take_zero, List.filter_eq_nil_iff]
        intro y hy
        have : y.level ∈ (x :: xs).map Step.level := List.mem_map_of_mem hy
        rw [List.map_cons, h.1, h.2] at this
        simp only [decide_eq_true_eq]
        rcases List.mem_cons.1 this with e | e
        · omega
        · have := List.mem_range'.1 e
          omega
      | succ k =>
        rw [List.filter_cons_of_pos (by simp [h.1]), List.take_succ_cons]
        have := ih (a := a + 1) (k := k) h.2
        rw [← this]
        congr 2
        funext st
        congr 2
        omega

section
variable {env : Env} {F : List (List Lit)} {s s' : Solver} {n : Nat} {S : List LC} {p p' : PropState}

theorem PInv.decided_length (h : PInv n S p) : p.trail.decided.length = p.trail.decisionLevel := by
  have := congrArg List.length h.graph.decisions
  simpa [Trail.decided] using this

theorem PInv.decided_filter (h : PInv n S p) (lvl : Nat) :
    ((p.trail.steps.filter (fun st => Decidable.decide (st.level ≤ lvl))).filter
      (fun st => Decidable.decide (st.reason = .decision))).map Step.lit = p.trail.decided.take lvl := by
  rw [List.filter_comm, Trail.decided, ← List.map_take]
  congr 1
  have := take_of_levels (a := 0) (k := lvl) h.graph.decisions
  simpa using this

theorem Phase.decided {S2 : List LC} {p2 : PropState} {r : Option ConflictClause} (h : Phase n S p S2 p2 r) :
    p2.trail.decided = p.trail.decided := by
  obtain ⟨ρ, new, e, hn⟩ := h.steps
  unfold Trail.decided
  rw [e, List.filter_append, List.map_append]
  have h1 : new.filter (fun st => decide (st.reason = .decision)) = [] := by
    rw [List.filter_eq_nil_iff]
    intro st hst
    simpa using (hn st hst).2.2
  rw [h1, List.map_nil, List.append_nil, List.filter_map, List.map_map]
  have h2 : ((fun st => decide (st.reason = .decision)) ∘ Step.ren ρ) =
      fun st : Step => decide (st.reason = .decision) := by
    funext st
    obtain ⟨l, v, r⟩ := st
    cases r <;> rfl
  rw [h2]
  congr 1

/-! ## Steps -/

theorem readLog_collect (h : Solver.Reachable env F s) {p1 : PropState} (e : collectGarbage s.search.prop = .ok p1)
    (es : List Event) (d : List Lit) : readLog (collectLog s.search.prop ++ es) d = readLog es d := by
  unfold collectLog
  split
  · next hc =>
    obtain ⟨cs, _, h1, h2⟩ := C54_utilization (.between h)
    unfold collectGarbage at e
    rw [if_pos hc] at e
    have hb : s.search.prop.long.buffer.length < 2 ^ 32 := by
      unfold collectGarbageNow at e
      split at e
      · assumption
      · cases e
    rw [h2 (by omega)]
    simp only [List.singleton_append, readLog]
    rw [if_pos]
    simp only [Arena.shouldCollectGarbage, decide_eq_true_eq] at hc
    omega
  · rfl

theorem tally_collect (p : PropState) : tally (collectLog p) = ⟨0, 0, 0, 0⟩ := by
  unfold collectLog
  split <;> rfl

theorem learnAndAssign_decisions {ctx ctx' : Ctx} {an an' : Analysis} (e : Analysis.learnAndAssign ctx an p = .ok (ctx', an', p')) :
    p'.trail.decisions = p.trail.decisions := by
  have assign_dec : ∀ {q q' : PropState} {st : Step}, q.assign st = .ok q' → q'.trail.decisions = q.trail.decisions := by
    intro q q' st e
    unfold PropState.assign PropState.assignUnit at e
    obtain ⟨_, _, e⟩ := bind_eq_ok.1 e
    obtain ⟨_, _, e⟩ := bind_eq_ok.1 e
    split at e
    · obtain ⟨_, _, e⟩ := bind_eq_ok.1 e
      obtain ⟨_, _, e⟩ := bind_eq_ok.1 e
      cases e
      rfl
    · cases e
  unfold Analysis.learnAndAssign at e
  obtain ⟨_, _, e⟩ := bind_eq_ok.1 e
  obtain ⟨⟨an1, h⟩, _, e⟩ := bind_eq_ok.1 e
  obtain ⟨⟨ctx1, p1, added⟩, e1, e⟩ := bind_eq_ok.1 e
  have h1 := (addClauseVerbatim_trail e1).2.1
  cases added with
  | empty => cases e; exact h1
  | unit l => cases e; exact h1
  | binary a b =>
    obtain ⟨l, _, e⟩ := bind_eq_ok.1 e
    obtain ⟨p2, e2, e⟩ := bind_eq_ok.1 e
    cases e
    exact (assign_dec e2).trans h1
  | long c =>
    obtain ⟨l, _, e⟩ := bind_eq_ok.1 e
    obtain ⟨p2, e2, e⟩ := bind_eq_ok.1 e
    cases e
    exact (assign_dec e2).trans h1

/-- The messages of an analysis. -/
theorem analyzeConflictLog_spec {p1 : PropState} {ctx1 ctx2 ctx' : Ctx} {c : ConflictClause} {an : Analysis}
    {cb : Callbacks} {es : List Event} (hp : Solver.Propagating env F s p1 ctx1 p (some c))
    (h0 : p.trail.decisionLevel ≠ 0)
    (e : Analysis.analyzeConflictLog env ctx2 s.search.analysis p c s.search.cb = .ok ((ctx', an, p', cb), es)) :
    ∃ C, es = [.uip C, .backtrack p.trail.decisionLevel p'.trail.decisionLevel] ∧ C ≠ [] ∧
      (∀ l ∈ C, l.Valid) ∧ (∀ α, FormulaSat α F → ∃ l ∈ C, LitSat α l) ∧
      p'.trail.decisionLevel < p.trail.decisionLevel ∧
      p'.trail.decided = p.trail.decided.take p'.trail.decisionLevel ∧ ctx'.search = ctx2.search ∧
      p'.unsat = p.unsat := by
  have ea := fst_of_ok (Analysis.analyzeConflictLog_eq ..) e
  obtain ⟨L, S, S2, hi, q⟩ := hp.phase
  obtain ⟨S', C', lvl, target, A⟩ := (analyzeConflict_spec (env := env) (ctx := ctx2) q.inv
    (q.db _ _ hi.db) hi.an hi.min hi.cb (q.conflict c rfl) h0).ok_elim ea
  obtain ⟨a0, rest0, lvl0, r0, _, _, _, _, _, hlt, _, _, hlv, hst, _⟩ := C10_asserting hp h0 ea
  unfold Analysis.analyzeConflictLog at e
  obtain ⟨_, _, e⟩ := bind_eq_ok.1 e
  obtain ⟨⟨an1, p2, cb1⟩, e1, e⟩ := bind_eq_ok.1 e
  obtain ⟨⟨an2, level⟩, e2, e⟩ := bind_eq_ok.1 e
  obtain ⟨⟨p3, cb2⟩, e3, e⟩ := bind_eq_ok.1 e
  obtain ⟨⟨ctx3, an3, p4⟩, e4, e⟩ := bind_eq_ok.1 e
  cases e
  obtain ⟨an', p2', cb2', S3, e5, oh, _, _, _, uip⟩ := derive1uip_spec (env := env) q.inv
    (q.db _ _ hi.db) hi.an hi.cb (q.conflict c rfl) h0
  cases e1.symm.trans e5
  obtain ⟨a1, rfl⟩ := oh.eq
  have hd := learnAndAssign_decisions e4
  unfold backtrackToLevel at e3
  obtain ⟨_, e6, e3⟩ := bind_eq_ok.1 e3
  obtain ⟨tg, e7, e3⟩ := bind_eq_ok.1 e3
  obtain ⟨_, e8, e3⟩ := bind_eq_ok.1 e3
  obtain ⟨⟨vs, cb3⟩, e9, e3⟩ := bind_eq_ok.1 e3
  cases e3
  simp only at hd e7
  have hl7 := (idx_eq_ok.1 e7)
  have hlen : level + 1 < p.trail.decisions.length := (List.getElem?_eq_some_iff.1 hl7).1
  have hlevel : p'.trail.decisionLevel = level := by
    unfold Trail.decisionLevel
    rw [hd, List.length_take]
    omega
  refine ⟨an1.derivedClause, by rw [hlevel], ?_, ?_, ?_, by rw [hlv]; exact hlt, ?_, A.search, A.unsat⟩
  · obtain ⟨R, k, u, hR, _⟩ := uip.split
    rw [hR]; simp
  · have key : ∀ st ∈ p.trail.steps, st.lit.Valid := by
      intro st hs
      have h1 := q.inv.trail.idx_lt st hs
      have h2 := q.inv.sized.n_le
      exact Lit.valid_iff_index.2 (by omega)
    obtain ⟨R, k, u, hR, hu, _, _, hr⟩ := uip.split
    intro l hl
    rw [hR] at hl
    rcases List.mem_append.1 hl with hl | hl
    · obtain ⟨i, st, h1, h2, _⟩ := hr l hl
      have := (key st (List.mem_of_getElem? h1)).neg
      rwa [h2, Lit.neg_neg] at this
    · rw [List.mem_singleton.1 hl]
      exact (key u (List.mem_of_getElem? hu)).neg
  · intro α hα
    obtain ⟨log, hacc, _⟩ := hi.proof
    have hF := dbSat_toDB.2 hα
    have hL := hacc.sat hF
    obtain ⟨l, h1, h2⟩ := uip.rup.sat (α := α) (by
      intro D hD
      rcases Multiset.mem_add.1 hD with hD | hD
      · exact hF D hD
      · exact hL D hD)
    exact ⟨l, by simpa using h1, h2⟩
  · obtain ⟨a, rest, r, _, hr, ht, _⟩ := A.trail
    have hlast : p'.trail.steps.getLast? = some ⟨a, lvl, r⟩ := by rw [ht]; simp [Trail.push]
    rw [hst, List.getLast?_append, List.getLast?_singleton] at hlast
    have hr0 : r0 ≠ .decision := by
      have : r0 = r := by simpa using congrArg (Option.map Step.reason) hlast
      rw [this]; exact hr
    have h1 : p'.trail.decided = ((p.trail.steps.filter (fun st => Decidable.decide (st.level ≤ lvl0))).filter
        (fun st => Decidable.decide (st.reason = .decision))).map Step.lit := by
      unfold Trail.decided
      rw [hst, List.filter_append]
      simp [hr0]
    rw [h1, q.inv.decided_filter, hlv]

/-- What a list of messages says about a step from `s` to `s'` that answers `r`. -/
structure Records (F : List (List Lit)) (s s' : Solver) (r : Option Bool) (es : List Event) : Prop where
  read : ∀ rest, (r ≠ none → rest = []) → readLog (es ++ rest) s.search.prop.trail.decided =
    match r with
    | none => readLog rest s'.search.prop.trail.decided
    | some b => some (s'.search.prop.trail.decided, some b)
  count : s'.ctx.search = s.ctx.search.plus (tally es)
  valid : ∀ C, .uip C ∈ es → (∀ l ∈ C, l.Valid) ∧ ∀ α, FormulaSat α F → ∃ l ∈ C, LitSat α l
  lits : ∀ l, .decision l ∈ es → l.Valid
  unsat : r ≠ some false → s'.search.prop.unsat = false

theorem Records.trans {s1 s2 : Solver} {r : Option Bool} {es es' : List Event} (h : Records F s s1 none es)
    (h' : Records F s1 s2 r es') : Records F s s2 r (es ++ es') := by
  refine ⟨fun rest hr => ?_, ?_, ?_, ?_, h'.unsat⟩
  · rw [List.append_assoc, h.read _ (fun hn => absurd rfl hn)]
    exact h'.read rest hr
  · rw [h'.count, h.count, tally_append, SearchStats.plus_assoc]
  · intro C hC
    rcases List.mem_append.1 hC with hC | hC
    · exact h.valid C hC
    · exact h'.valid C hC
  · intro l hl
    rcases List.mem_append.1 hl with hl | hl
    · exact h.lits l hl
    · exact h'.lits l hl

theorem searchStepLog_records (h : Solver.Reachable env F s) (hu : s.search.prop.unsat = false) {ctx' : Ctx}
    {search' : Search} {r : Option Bool} {es : List Event}
    (e : searchStepLog env s.ctx s.search = .ok ((ctx', search', r), es)) :
    Records F s { s with ctx := ctx', search := search' } r es := by
  unfold searchStepLog at e
  rw [if_neg (by simp [hu])] at e
  obtain ⟨p1, e1, e⟩ := bind_eq_ok.1 e
  obtain ⟨⟨ctx1, p, rc⟩, e2, e⟩ := bind_eq_ok.1 e
  have hp : Solver.Propagating env F s p1 ctx1 p rc := ⟨h, hu, e1, e2⟩
  have hs := hp.search
  obtain ⟨L, S, S2, hi, q⟩ := hp.phase
  have hc : ∀ C, Event.uip C ∉ collectLog s.search.prop := by
    intro C; unfold collectLog; split <;> simp
  have hd : ∀ l, Event.decision l ∉ collectLog s.search.prop := by
    intro C; unfold collectLog; split <;> simp
  cases rc with
  | some c =>
    simp only at e
    by_cases h0 : p.trail.decisionLevel = 0
    · rw [if_pos h0] at e
      cases e
      refine ⟨fun rest hr => ?_, ?_, ?_, ?_, fun hn => absurd rfl hn⟩
      · have := hr (by simp)
        subst this
        have hl := q.inv.decided_length
        rw [h0, List.length_eq_zero_iff] at hl
        rw [List.append_assoc, readLog_collect h e1]
        simp only [← q.decided, hl, List.singleton_append, readLog]
        simp
      · simp [tally_append, tally_collect, tally, SearchStats.plus, hs]
      · intro C hC
        simp [hc] at hC
      · intro C hC
        simp [hd] at hC
    · rw [if_neg h0] at e
      obtain ⟨⟨⟨ctx2, an, p', cb⟩, es1⟩, e3, e⟩ := bind_eq_ok.1 e
      cases e
      obtain ⟨C, rfl, h1, h2, h3, h4, h5, h6, h7⟩ := analyzeConflictLog_spec hp h0 e3
      refine ⟨fun rest _ => ?_, ?_, ?_, ?_, fun _ => (h7.trans q.unsat).trans hu⟩
      · rw [List.append_assoc, readLog_collect h e1]
        simp only [List.cons_append, List.nil_append, readLog]
        rw [if_pos ⟨h1, by rw [← q.decided, q.inv.decided_length], h4⟩]
        rw [h5, ← q.decided]
      · simp [tally_append, tally_collect, tally, SearchStats.plus, h6, hs]
      · intro C' hC
        simp [hc] at hC
        rw [hC]; exact ⟨h2, h3⟩
      · intro C hC
        simp [hd] at hC
  | none =>
    simp only at e
    obtain ⟨⟨x, v⟩, e3, e⟩ := bind_eq_ok.1 e
    cases x with
    | none =>
      cases e
      refine ⟨fun rest hr => ?_, ?_, ?_, ?_, fun _ => q.unsat.trans hu⟩
      · have := hr (by simp)
        subst this
        rw [List.append_assoc, readLog_collect h e1]
        simp only [List.singleton_append, readLog, if_true, q.decided]
      · simp [tally_append, tally_collect, tally, SearchStats.plus, hs]
      · intro C hC
        simp [hc] at hC
      · intro C hC
        simp [hd] at hC
    | some x =>
      simp only at e
      obtain ⟨l, e4, e⟩ := bind_eq_ok.1 e
      obtain ⟨p', e5, e⟩ := bind_eq_ok.1 e
      cases e
      obtain ⟨d1, _, d3⟩ := assignDecision_trail q.inv.trail e5
      obtain ⟨k1, k2⟩ := hp.decided e3 e4
      have hdec : p'.trail.decided = p.trail.decided ++ [l] := by
        unfold Trail.decided
        rw [d1, List.filter_append, List.map_append]
        rfl
      refine ⟨fun rest _ => ?_, ?_, ?_, ?_, fun _ => (d3.trans q.unsat).trans hu⟩
      · rw [List.append_assoc, readLog_collect h e1]
        simp only [List.singleton_append, readLog]
        rw [if_pos, hdec, q.decided]
        intro m hm hix
        rw [← q.decided] at hm
        obtain ⟨st, hst, rfl⟩ := List.mem_map.1 hm
        have hst := (List.mem_filter.1 hst).1
        rcases Lit.eq_or_eq_neg hix with e | e
        · exact k2.1 (holds_marked.2 ⟨st, hst, e⟩)
        · exact k2.2 (holds_marked.2 ⟨st, hst, e⟩)
      · simp [tally_append, tally_collect, tally, SearchStats.plus, hs]
      · intro C hC
        simp [hc] at hC
      · intro l' hl
        simp [hd] at hl
        have h2 := q.inv.sized.n_le
        rw [hl]; exact Lit.valid_iff_index.2 (by omega)

theorem maybeRestartLog_records (h : Solver.Reachable env F s) (hu : s.search.prop.unsat = false)
    {es : List Event} (e : s.maybeRestartLog = .ok (s', es)) : Records F s s' none es := by
  obtain ⟨L, S, hi⟩ := h.inv
  unfold Solver.maybeRestartLog at e
  split at e
  · obtain ⟨⟨⟨ctx, search⟩, es1⟩, e1, e⟩ := bind_eq_ok.1 e
    cases e
    unfold restartLog at e1
    simp only at e1
    have hlen := hi.prop.decided_length
    split at e1
    · next h0 =>
      obtain ⟨⟨p, cb⟩, e2, e1⟩ := bind_eq_ok.1 e1
      cases e1
      obtain ⟨target, p', cb', ht, e3, b⟩ := backtrack_spec hi.prop hi.cb h0
      cases e2.symm.trans e3
      refine ⟨fun rest _ => ?_, rfl, by simp, by simp, fun _ => b.unsat.trans hu⟩
      have h1 : p.trail.decided = [] := by
        rw [← List.length_eq_zero_iff, b.inv.decided_length, b.level]
      simp only [h1]
      cases hd : s.search.prop.trail.decided with
      | nil => rw [hd] at hlen; simp at hlen; omega
      | cons m d =>
        simp only [List.cons_append, List.nil_append, readLog]
        rw [if_pos (by rw [← hlen, hd]; simp)]
    · next h0 =>
      cases e1
      refine ⟨fun rest _ => ?_, rfl, by simp, by simp, fun _ => hu⟩
      have h1 : s.search.prop.trail.decided = [] := by
        rw [← List.length_eq_zero_iff, hlen]; omega
      simp only [h1, List.singleton_append, readLog]
  · cases e
    exact ⟨fun rest _ => rfl, rfl, by simp, by simp, fun _ => hu⟩

theorem maybeReduceLog_records (h : Solver.Reachable env F s) (hu : s.search.prop.unsat = false)
    {es : List Event} (e : s.maybeReduceLog env = .ok (s', es)) : Records F s s' none es := by
  unfold Solver.maybeReduceLog at e
  obtain ⟨s1, e1, e⟩ := bind_eq_ok.1 e
  cases e
  rcases C55_reduce h e1 with ⟨h1, rfl⟩ | ⟨h1, h2, h3, h4, h5, h6, h7, h8, h9⟩
  · rw [if_neg (by omega)]
    exact ⟨fun rest _ => rfl, rfl, by simp, by simp, fun _ => hu⟩
  · rw [if_pos h1]
    refine ⟨fun rest _ => ?_, ?_, by simp, by simp, fun _ => h3.trans hu⟩
    · simp only [List.singleton_append, readLog, h2]
    · show s'.ctx.search = _
      cases hx : s'.ctx.search
      rw [hx] at h4 h6 h7 h8
      simp only at h4 h6 h7 h8
      subst h4 h6 h7 h8
      rfl

theorem scheduleStepLog_records (h : Solver.Reachable env F s) (hu : s.search.prop.unsat = false) {r : Option Bool}
    {es : List Event} (e : s.scheduleStepLog env = .ok ((s', r), es)) :
    Records F s s' r es ∧ Solver.Reachable env F s' := by
  unfold Solver.scheduleStepLog at e
  obtain ⟨⟨s1, es1⟩, e1, e⟩ := bind_eq_ok.1 e
  obtain ⟨⟨s2, es2⟩, e2, e⟩ := bind_eq_ok.1 e
  obtain ⟨⟨⟨ctx, search, r'⟩, es3⟩, e3, e⟩ := bind_eq_ok.1 e
  cases e
  have r1 := maybeRestartLog_records h hu e1
  have h1 := h.restart (fst_of_ok (Solver.maybeRestartLog_eq _) e1)
  have r2 := maybeReduceLog_records h1 (r1.unsat (by simp)) e2
  have h2 := h1.reduce (fst_of_ok (Solver.maybeReduceLog_eq _ _) e2)
  have r3 := searchStepLog_records h2 (r2.unsat (by simp)) e3
  exact ⟨(r1.trans r2).trans r3, h2.step (fst_of_ok (searchStepLog_eq _ _ _) e3)⟩

theorem solveLog_records (k : Nat) : ∀ {s s' : Solver} {r : Option Bool} {es : List Event},
    Solver.Reachable env F s → s.search.prop.unsat = false → s.solveLog env k = .ok ((s', r), es) →
    Records F s s' r es := by
  induction k with
  | zero =>
    intro s s' r es h hu e
    cases e
    exact ⟨fun rest _ => rfl, rfl, by simp, by simp, fun _ => hu⟩
  | succ k ih =>
    intro s s' r es h hu e
    unfold Solver.solveLog at e
    obtain ⟨⟨⟨s1, r1⟩, es1⟩, e1, e⟩ := bind_eq_ok.1 e
    obtain ⟨h1, h2⟩ := scheduleStepLog_records h hu e1
    cases r1 with
    | some b => cases e; exact h1
    | none =>
      obtain ⟨⟨⟨s2, r2⟩, es2⟩, e2, e⟩ := bind_eq_ok.1 e
      cases e
      exact h1.trans (ih h2 (h1.unsat (by simp)) e2)

/-- C105: whoever reads the messages of a run knows the decisions and the answer at its end. -/
theorem C105_read (h : Solver.Reachable env F s) (hu : s.search.prop.unsat = false) {k : Nat} {r : Option Bool}
    {es : List Event} (e : s.solveLog env k = .ok ((s', r), es)) :
    readLog es s.search.prop.trail.decided = some (s'.search.prop.trail.decided, r) := by
  have := (solveLog_records k h hu e).read [] (fun _ => rfl)
  rw [List.append_nil] at this
  rw [this]
  cases r <;> rfl

/-- C105: decisions, conflicts, restarts and reductions are counted as many times as there are messages
about them. -/
theorem C105_count (h : Solver.Reachable env F s) (hu : s.search.prop.unsat = false) {k : Nat} {r : Option Bool}
    {es : List Event} (e : s.solveLog env k = .ok ((s', r), es)) :
    s'.ctx.search = s.ctx.search.plus (tally es) := (solveLog_records k h hu e).count

/-- C105: all derived clauses in the messages follow from the formula. -/
theorem C105_clauses (h : Solver.Reachable env F s) (hu : s.search.prop.unsat = false) {k : Nat} {r : Option Bool}
    {es : List Event} (e : s.solveLog env k = .ok ((s', r), es)) {C : List Lit} (hC : .uip C ∈ es)
    {α : Nat → Bool} (hα : FormulaSat α F) : ∃ l ∈ C, LitSat α l :=
  ((solveLog_records k h hu e).valid C hC).2 α hα

/-- C105: all that was said is in the text on standard output, up to the level that was asked for: it can be read line by
line. -/
theorem C105_text (h : Solver.Reachable env F s) (hu : s.search.prop.unsat = false) {k : Nat} {r : Option Bool}
    {es : List Event} (e : s.solveLog env k = .ok ((s', r), es)) {lg : Logger}
    (hl : lg.logSourceLocations = false) (loc : Event → List Byte) :
    (Reader.lines (es.flatMap fun e => lg.log e.level (loc e) e.items)).mapM Reader.readLine =
      some (es.filter fun e => e.level.toU8 < lg.levelLimit) := by
  refine readLines_log hl loc es fun ev hev => ?_
  have hr := solveLog_records k h hu e
  cases ev with
  | decision l => exact hr.lits l hev
  | uip C => exact (hr.valid C hev).1
  | restart | reduce | unsat | sat | collect _ _ | backtrack _ _ => trivial

/-- C105: a run that starts without decisions can be followed by reading standard output alone, at the level
`trace`. -/
theorem C105_follow (h : Solver.Reachable env F s) (hu : s.search.prop.unsat = false)
    (hd : s.search.prop.trail.decisionLevel = 0) {k : Nat} {r : Option Bool}
    {es : List Event} (e : s.solveLog env k = .ok ((s', r), es)) (loc : Event → List Byte) :
    ((Reader.lines (es.flatMap fun e =>
        ((Logger.default.setLogLevel (some .trace)).log e.level (loc e) e.items))).mapM Reader.readLine).bind
      (readLog · []) = some (s'.search.prop.trail.decided, r) := by
  obtain ⟨L, S, hi⟩ := h.inv
  have hlen := hi.prop.decided_length
  rw [hd, List.length_eq_zero_iff] at hlen
  rw [C105_text h hu e rfl loc, List.filter_eq_self.2, ← hlen]
  · exact C105_read h hu e
  · intro ev _
    cases ev <;> rfl

/-- C105: logging does not change the run. -/
theorem C105_same (k : Nat) (s : Solver) : Except.map Prod.fst (s.solveLog env k) = s.solve env k :=
  Solver.solveLog_eq env k s

/-- C105: a solver that knows that the formula is unsatisfiable says nothing but that it restarts or
reduces. -/
theorem C105_known (h : Solver.Reachable env F s) (hu : s.search.prop.unsat = true) {k : Nat} {r : Option Bool}
    {es : List Event} (e : s.solveLog env k = .ok ((s', r), es)) :
    ∀ ev ∈ es, ev = .restart ∨ ev = .reduce ∨ ∃ a, ev = .backtrack a 0 := by
  cases k with
  | zero => cases e; simp
  | succ k =>
    unfold Solver.solveLog at e
    obtain ⟨⟨⟨s1, r1⟩, es1⟩, e1, e⟩ := bind_eq_ok.1 e
    unfold Solver.scheduleStepLog at e1
    obtain ⟨⟨s2, es2⟩, e2, e1⟩ := bind_eq_ok.1 e1
    obtain ⟨⟨s3, es3⟩, e3, e1⟩ := bind_eq_ok.1 e1
    obtain ⟨L, S, hi⟩ := h.inv
    have h2 := h.restart (fst_of_ok (Solver.maybeRestartLog_eq _) e2)
    have k2 : (∀ ev ∈ es2, ev = .restart ∨ ∃ a, ev = .backtrack a 0) ∧ s2.search.prop.unsat = true := by
      unfold Solver.maybeRestartLog at e2
      split at e2
      · obtain ⟨⟨⟨ctx, search⟩, es4⟩, e4, e2⟩ := bind_eq_ok.1 e2
        cases e2
        unfold restartLog at e4
        simp only at e4
        split at e4
        · next h0 =>
          obtain ⟨⟨p, cb⟩, e5, e4⟩ := bind_eq_ok.1 e4
          cases e4
          obtain ⟨target, p', cb', ht, e6, b⟩ := backtrack_spec hi.prop hi.cb h0
          cases e5.symm.trans e6
          exact ⟨by simp, b.unsat.trans hu⟩
        · cases e4; exact ⟨by simp, hu⟩
      · cases e2; exact ⟨by simp, hu⟩
    have k3 : (∀ ev ∈ es3, ev = .reduce) ∧ s3.search.prop.unsat = true := by
      unfold Solver.maybeReduceLog at e3
      obtain ⟨s4, e4, e3⟩ := bind_eq_ok.1 e3
      cases e3
      refine ⟨by split <;> simp, ?_⟩
      rcases C55_reduce h2 e4 with ⟨_, rfl⟩ | ⟨_, _, h3, _⟩
      · exact k2.2
      · exact h3.trans k2.2
    obtain ⟨⟨⟨ctx, search, r'⟩, es4⟩, e4, e1⟩ := bind_eq_ok.1 e1
    unfold searchStepLog at e4
    rw [if_pos k3.2] at e4
    cases e4
    cases e1
    cases e
    intro ev hev
    simp only [List.append_nil, List.mem_append] at hev
    rcases hev with hev | hev
    · rcases k2.1 ev hev with h | h
      · exact .inl h
      · exact .inr (.inr h)
    · exact .inr (.inl (k3.1 ev hev))

/-- The hypotheses can be met: a run on the pigeonhole formula, with all kinds of messages but "satisfiable". There
are no long clauses, so garbage is collected in each step (see C54). -/
theorem C105_example : ∃ s s' es, Solver.Reachable Example.envReduce (Example.cnf (Example.php 3 2)) s ∧
    s.search.prop.unsat = false ∧ s.search.prop.trail.decisionLevel = 0 ∧
    s.solveLog Example.envReduce 30 = .ok ((s', some false), es) ∧
    es = [.restart, .reduce, .collect 0 0, .decision (Example.lit (-1)), .collect 0 0,
      .uip [Example.lit (-2)], .backtrack 1 0, .reduce, .collect 0 0, .unsat] ∧
    (es.flatMap fun e => (Logger.default.setLogLevel (some .trace)).log e.level [] e.items) =
      Logger.text "c D: restart\n" ++
      Logger.text "c D: reduce\n" ++
      Logger.text "c D: garbage collection Utilization { allocated: 0, used: 0 }\n" ++
      Logger.text "c T: decision: -1\n" ++
      Logger.text "c D: garbage collection Utilization { allocated: 0, used: 0 }\n" ++
      Logger.text "c T: 1-uip clause: [-2]\n" ++
      Logger.text "c T: backtrack from: 1 to: 0\n" ++
      Logger.text "c D: reduce\n" ++
      Logger.text "c D: garbage collection Utilization { allocated: 0, used: 0 }\n" ++
      Logger.text "c V: unsatisfiable\n" := by
  have h : (do
      let (s, _) ← Example.runReduce (Example.php 3 2) 0
      let ((_, r), es) ← s.solveLog Example.envReduce 30
      pure (s.search.prop.unsat, s.search.prop.trail.decisionLevel, r, es) : M (Bool × Nat × Option Bool × List Event)) =
      .ok (false, 0, some false, [.restart, .reduce, .collect 0 0, .decision (Example.lit (-1)), .collect 0 0,
      .uip [Example.lit (-2)], .backtrack 1 0, .reduce, .collect 0 0, .unsat]) := by
    decide +kernel
  obtain ⟨⟨s, r0⟩, h1, h2⟩ := bind_eq_ok.1 h
  obtain ⟨⟨⟨s', r⟩, es⟩, h3, h2⟩ := bind_eq_ok.1 h2
  have h2 := Except.ok.inj h2
  simp only [Prod.mk.injEq] at h2
  obtain ⟨a1, a2, rfl, rfl⟩ := h2
  exact ⟨s, s', _, Example.runReduce_reachable (by decide +kernel) h1, a1, a2, h3, rfl, by decide +kernel⟩

end

end Starlit
