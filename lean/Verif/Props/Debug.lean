import Verif.Props.Solver
import Verif.Props.Stats

/-!
# C53: debug assertions
-/

namespace Starlit

/-! ## The debug build -/

namespace Solver

/-- The debug assertion of `assign_raw` (`/repo/starlit/src/prop/trail.rs:234`) when an input clause is
added: it is reached for a unit clause whose literal is not false
(`/repo/starlit/src/prop.rs:97-108`). -/
def debugUnit (p : PropState) : List Lit → M Unit
  | [a] => do
    if ← p.values.isFalse a then pure ()
    else debugM (!(← p.values.isAssigned a.index))
  | _ => pure ()

/-- `add_clause` (`/repo/starlit/src/solver.rs:23-43`) of a debug build.  The other debug assertions are
part of `addClause`. -/
def addClauseDebug (s : Solver) (ls : List Lit) : M Solver := do
  let s ← s.ensureVars (varCount ls)
  debugUnit s.search.prop ls
  let (ctx, p, _) ← addClauseVerbatim s.ctx s.search.prop .newInputClause ls
  pure { s with ctx := ctx, search := { s.search with prop := p } }

/-- A sequence of `add_clause` calls in a debug build. -/
def addClausesDebug (s : Solver) : List (List Lit) → M Solver
  | [] => pure s
  | c :: cs => do
    let s ← s.addClauseDebug c
    addClausesDebug s cs

end Solver

/-! ## Specification -/

/-- The literal of the first unit clause on a variable. -/
def firstUnit (F : List (List Lit)) (v : Nat) : Option Lit :=
  (unitLits F).find? (fun l => decide (l.index = v))

section
variable {env : Env} {F : List (List Lit)} {s s' : Solver}

theorem firstUnit_index {v : Nat} {l : Lit} (h : firstUnit F v = some l) : l.index = v := by
  have := List.find?_some h
  simpa using this

theorem firstUnit_snoc (c : List Lit) (v : Nat) : firstUnit (F ++ [c]) v =
    (firstUnit F v).or (firstUnit [c] v) := by
  unfold firstUnit
  rw [← List.find?_append]
  unfold unitLits
  rw [List.filterMap_append]

theorem firstUnit_mem {l : Lit} {v : Nat} (h : firstUnit F v = some l) : [l] ∈ F := by
  have := List.mem_of_find?_eq_some h
  unfold unitLits at this
  obtain ⟨c, hc, e⟩ := List.mem_filterMap.1 this
  split at e
  · injection e with e
    subst e
    exact hc
  · simp at e

theorem firstUnit_single (a : Lit) (v : Nat) :
    firstUnit [[a]] v = if a.index = v then some a else none := by
  unfold firstUnit unitLits
  by_cases h : a.index = v <;> simp [List.find?, h]

theorem firstUnit_other {c : List Lit} (hc : ∀ a, c ≠ [a]) (v : Nat) : firstUnit [c] v = none := by
  unfold firstUnit unitLits
  match c, hc with
  | [], _ => rfl
  | [a], hc => exact absurd rfl (hc a)
  | _ :: _ :: _, _ => rfl

theorem addClauseVerbatim_steps {ctx ctx' : Ctx} {p p' : PropState} {h : LongHeader} {ls : List Lit}
    {r : AddedClause} (hc : ∀ a, ls ≠ [a]) (e : addClauseVerbatim ctx p h ls = .ok (ctx', p', r)) :
    p'.trail.steps = p.trail.steps := by
  rcases (addClauseVerbatim_trail e).2.2 with h | ⟨a, h, _⟩
  · exact h
  · exact absurd h (hc a)

/-- What growing the number of variables keeps. -/
theorem ensureVars_steps {m : Nat} (e : s.ensureVars m = .ok s') :
    s'.search.prop.trail.steps = s.search.prop.trail.steps := by
  unfold Solver.ensureVars at e
  split at e
  · unfold Solver.resize at e
    obtain ⟨a, _, e⟩ := bind_eq_ok.1 e
    cases e
    rfl
  · cases e; rfl

/-- The trail before the first call of `solve()` has the first unit clause of every variable. -/
theorem Solver.Input.firstUnit (h : Solver.Input env F s) (l : Lit) :
    (∃ st ∈ s.search.prop.trail.steps, st.lit = l) ↔ firstUnit F l.index = some l := by
  induction h generalizing l with
  | new => simp [Solver.default, PropState.default, Trail.default, Starlit.firstUnit, unitLits]
  | proof _ ih => exact ih l
  | @add F s s' c h hc e ih =>
    obtain ⟨S, hi⟩ := h.inv
    obtain ⟨s1, e1, h1, _⟩ := ensureVars_spec hi (varCount_le hc)
    unfold Solver.addClause at e
    rw [e1, bind_ok] at e
    obtain ⟨⟨ctx, p, r⟩, e3, e⟩ := bind_eq_ok.1 e
    cases e
    simp only
    rw [firstUnit_snoc]
    have ih : ∀ l, (∃ st ∈ s1.search.prop.trail.steps, st.lit = l) ↔
        Starlit.firstUnit F l.index = some l := by
      intro l; rw [ensureVars_steps e1]; exact ih l
    by_cases hu : ∀ a, c ≠ [a]
    · rw [addClauseVerbatim_steps hu e3, firstUnit_other hu, Option.or_none]
      exact ih l
    · simp only [ne_eq, not_forall, not_not] at hu
      obtain ⟨a, rfl⟩ := hu
      have hp := h1.prop
      have ha : a.index < max (formulaVars F) (Solver.varCount [a]) := by
        have := varCount_lt (show a ∈ [a] by simp); omega
      rw [firstUnit_single]
      simp only [addClauseVerbatim] at e3
      rw [hp.isFalse ha, bind_ok] at e3
      by_cases hv : s1.search.prop.values.val a = some false
      · rw [hv] at e3
        simp only [beq_self_eq_true, if_true, pure_eq, Except.ok.injEq, Prod.mk.injEq] at e3
        obtain ⟨_, rfl, _⟩ := e3
        simp only
        have h2 := (ih a.neg).1 ((hp.trail.val_false_iff a).1 hv)
        rw [Lit.index_neg] at h2
        rw [ih l]
        split
        · rename_i hl
          rw [← hl, h2]; simp
        · rw [Option.or_none]
      · have hb : (s1.search.prop.values.val a == some false) = false := by simpa using hv
        rw [hb] at e3
        simp only [Bool.false_eq_true, if_false] at e3
        rw [assignUnit_eq hp.sized (s := ⟨a, 0, .unit⟩) ha] at e3
        split at e3
        swap
        · cases e3
        cases e3
        simp only [Trail.push, List.mem_append, List.mem_singleton, or_and_right, exists_or,
          exists_eq_left]
        rw [ih l]
        by_cases hl : a.index = l.index
        · rw [if_pos hl, ← hl]
          cases hx : Starlit.firstUnit F a.index with
          | none => simp
          | some x =>
            rcases Lit.eq_or_eq_neg (firstUnit_index hx) with rfl | rfl
            · simp
            · exfalso
              apply hv
              rw [hp.trail.val_false_iff]
              refine (ih a.neg).2 ?_
              rw [Lit.index_neg, hx]
        · rw [if_neg hl, Option.or_none]
          have : a ≠ l := fun e => hl (by rw [e])
          simp [this]

/-- What the additional debug assertion does. -/
theorem debugUnit_eq (h : Solver.Input env F s) {c : List Lit} (hc : ∀ l ∈ c, l.Valid) {s1 : Solver}
    (e1 : s.ensureVars (Solver.varCount c) = .ok s1) :
    ((∃ l, c = [l] ∧ firstUnit F l.index = some l) →
      Solver.debugUnit s1.search.prop c = .error .debug) ∧
    ((¬ ∃ l, c = [l] ∧ firstUnit F l.index = some l) →
      Solver.debugUnit s1.search.prop c = .ok ()) := by
  obtain ⟨S, hi⟩ := h.inv
  obtain ⟨s2, e2, h1, _⟩ := ensureVars_spec hi (varCount_le hc)
  cases e1.symm.trans e2
  by_cases hu : ∀ a, c ≠ [a]
  · refine ⟨fun ⟨l, e, _⟩ => absurd e (hu l), fun _ => ?_⟩
    unfold Solver.debugUnit
    split
    · exact absurd rfl (hu _)
    · rfl
  · simp only [ne_eq, not_forall, not_not] at hu
    obtain ⟨a, rfl⟩ := hu
    have hp := h1.prop
    have ha : a.index < max (formulaVars F) (Solver.varCount [a]) := by
      have := varCount_lt (show a ∈ [a] by simp); omega
    have key : s1.search.prop.values.val a = some true ↔ firstUnit F a.index = some a := by
      rw [hp.trail.val_iff, ensureVars_steps e1, h.firstUnit a]
    simp only [Solver.debugUnit]
    rw [hp.isFalse ha, bind_ok, PartialAssignment.isAssigned_eq hp.trail.vwf
      (by rw [hp.sized.values]; exact ha)]
    constructor
    · rintro ⟨l, e, hf⟩
      simp only [List.cons.injEq, and_true] at e
      subst e
      rw [key.2 hf]
      rfl
    · intro hn
      have hv : s1.search.prop.values.val a ≠ some true := fun hv => hn ⟨a, rfl, key.1 hv⟩
      cases hx : s1.search.prop.values.val a with
      | none => rfl
      | some b =>
        cases b with
        | true => exact absurd hx hv
        | false => rfl

/-! ## C53 -/

/-- C53 for `solve()`: no debug assertion fails during the search. -/
theorem C53_solve (h : Solver.Reachable env F s) (k : Nat) : s.solve env k ≠ .error .debug := by
  intro e
  rcases C04_no_panic h k _ e with h | h <;> cases h

/-- C53 for `add_clause`: a debug assertion fails exactly when the clause is the unit clause of a literal
that is true because the first unit clause on its variable is the same clause; in all other cases the debug
build does the same as the release build. -/
theorem C53_add (h : Solver.Input env F s) {c : List Lit} (hc : ∀ l ∈ c, l.Valid) :
    (s.addClauseDebug c = .error .debug ↔ ∃ l, c = [l] ∧ firstUnit F l.index = some l) ∧
    ((¬ ∃ l, c = [l] ∧ firstUnit F l.index = some l) → s.addClauseDebug c = s.addClause c) := by
  obtain ⟨S, hi⟩ := h.inv
  obtain ⟨s1, e1, _⟩ := ensureVars_spec hi (varCount_le hc)
  obtain ⟨d1, d2⟩ := debugUnit_eq h hc e1
  have key : (¬ ∃ l, c = [l] ∧ firstUnit F l.index = some l) →
      s.addClauseDebug c = s.addClause c := by
    intro hn
    unfold Solver.addClauseDebug Solver.addClause
    rw [e1, bind_ok, bind_ok, d2 hn, bind_ok]
  refine ⟨⟨fun e => ?_, fun hx => ?_⟩, key⟩
  · by_contra hn
    rw [key hn] at e
    rcases C04_add_no_panic h hc _ e with h | h <;> cases h
  · unfold Solver.addClauseDebug
    rw [e1, bind_ok, d1 hx]
    rfl

theorem addClausesDebug_eq : ∀ (cs : List (List Lit)) {F : List (List Lit)} {s : Solver},
    Solver.Input env F s → (∀ c ∈ cs, ∀ l ∈ c, l.Valid) → (unitLits (F ++ cs)).Nodup →
    s.addClausesDebug cs = s.addClauses cs
  | [], _, _, _, _, _ => rfl
  | c :: cs, F, s, h, hc, hn => by
    have hx : ¬ ∃ l, c = [l] ∧ firstUnit F l.index = some l := by
      rintro ⟨l, rfl, e⟩
      have h1 : l ∈ unitLits F := List.mem_of_find?_eq_some e
      have h2 : unitLits (F ++ [l] :: cs) = unitLits F ++ l :: unitLits cs := by
        unfold unitLits; rw [List.filterMap_append]; simp
      rw [h2] at hn
      exact (List.nodup_append.1 hn).2.2 l h1 l (by simp) rfl
    simp only [Solver.addClausesDebug, Solver.addClauses]
    rw [(C53_add h (hc c (by simp))).2 hx]
    cases e : s.addClause c with
    | error _ => rfl
    | ok s1 =>
      exact addClausesDebug_eq cs (h.add (hc c (by simp)) e) (fun c h => hc c (by simp [h]))
        (by simpa using hn)

/-- C53 for formulas in which no unit clause is repeated: adding the clauses in a debug build does the same
as in a release build, and the following search meets no failing debug assertion.

Partial: the full property has no hypothesis on the unit clauses. -/
theorem C53_formula_partial (F : List (List Lit)) (hF : ∀ c ∈ F, ∀ l ∈ c, l.Valid)
    (hn : (unitLits F).Nodup) :
    (Solver.default env).addClausesDebug F = (Solver.default env).addClauses F ∧
    ∀ s, (Solver.default env).addClausesDebug F = .ok s → ∀ k, s.solve env k ≠ .error .debug := by
  have e := addClausesDebug_eq F (Solver.Input.new (env := env)) hF (by simpa using hn)
  refine ⟨e, fun s hs k => ?_⟩
  rw [e] at hs
  have := Solver.Input.addClauses F Solver.Input.new hF hs
  exact C53_solve (.input this) k

end

/-- The unrestricted property is false: adding the same unit clause twice fails in a debug build and
succeeds in a release build. -/
theorem C53_repeated :
    (Solver.default Example.env).addClausesDebug (Example.cnf [[1], [1]]) = .error .debug ∧
    ∃ s, (Solver.default Example.env).addClauses (Example.cnf [[1], [1]]) = .ok s := by
  constructor
  · have h : ((Solver.default Example.env).addClausesDebug (Example.cnf [[1], [1]])).map (fun _ => ()) =
        .error .debug := by decide +kernel
    revert h
    cases (Solver.default Example.env).addClausesDebug (Example.cnf [[1], [1]]) with
    | error e => intro h; cases h; rfl
    | ok s => intro h; cases h
  · have h : ((Solver.default Example.env).addClauses (Example.cnf [[1], [1]])).map (fun _ => ()) =
        .ok () := by decide +kernel
    revert h
    cases (Solver.default Example.env).addClauses (Example.cnf [[1], [1]]) with
    | error e => intro h; cases h
    | ok s => intro _; exact ⟨s, rfl⟩

/-- The hypotheses of C53 are met by a formula with three different unit clauses, two of them
contradictory: all clauses are added, and the first of the contradictory ones stays on the trail. -/
theorem C53_example :
    (∀ c ∈ Example.cnf [[1], [2, 3, 4], [-1], [-4]], ∀ l ∈ c, l.Valid) ∧
    (unitLits (Example.cnf [[1], [2, 3, 4], [-1], [-4]])).Nodup ∧
    ((Solver.default Example.env).addClausesDebug (Example.cnf [[1], [2, 3, 4], [-1], [-4]])).map
      (fun s => (s.search.prop.unsat, s.search.prop.trail.steps.map (·.lit.dimacs))) =
      .ok (true, [1, -4]) ∧
    firstUnit (Example.cnf [[1], [2, 3, 4], [-1], [-4]]) 0 = some (Example.lit 1) := by
  refine ⟨by decide +kernel, by decide +kernel, by decide +kernel, by decide +kernel⟩

end Starlit
