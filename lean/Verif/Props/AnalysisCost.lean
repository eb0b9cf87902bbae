import Mathlib.Algebra.Group.Prod
import Verif.Props.HeapCost
import Verif.Props.Activity

/-!
# C71: conflict analysis takes linear time, up to the logarithmic factor of the heap

The functions of `conflict_analysis.rs` again, with a pair of counters: iterations of loops, including those of the heap,
and calls of `rescale`.
-/

namespace Starlit

/-- Iterations of loops, and calls of `rescale`. -/
abbrev Cost := Nat × Nat

namespace Vsids

/-- `bump_var` (`/repo/starlit/src/search/vsids.rs:83-101`). -/
def bumpVarT (env : Env) (v : Vsids) (x : Nat) : M (Cost × Vsids) := do
  let old ← v.activity.get x
  let (k, activity) ← v.activity.increaseT x (fun a => env.add a v.increment)
  let v := { v with activity := activity }
  if env.aboveLimit (env.add old v.increment) then pure ((k, 1), v.doRescale env) else pure ((k, 0), v)

/-- `decay` (`/repo/starlit/src/search/vsids.rs:104-109`). -/
def doDecayT (env : Env) (v : Vsids) : Cost × Vsids :=
  let v := { v with increment := env.decay v.increment }
  if env.aboveLimit v.increment then ((0, 1), v.doRescale env) else ((0, 0), v)

end Vsids

/-- `Callbacks::unassign` (`/repo/starlit/src/search.rs:93-98`). -/
def Callbacks.unassignT (cb : Callbacks) (l : Lit) : M (Nat × Callbacks) := do
  let (k, activity) ← cb.vsids.activity.enqueueT l.index
  let phases ← upd cb.phases l.index l.isPositive
  pure (k, { vsids := { cb.vsids with activity := activity }, phases := phases })

/-- The loop of `backtrack_to_level` (`/repo/starlit/src/prop/trail.rs:287-298`). -/
def undoLoopT : List Step → PartialAssignment → Callbacks → M (Nat × PartialAssignment × Callbacks)
  | [], values, cb => pure (0, values, cb)
  | s :: ss, values, cb => do
    let (k, cb) ← cb.unassignT s.lit
    let values ← values.unassign s.lit.index
    let (k', r) ← undoLoopT ss values cb
    pure (k + k' + 1, r)

/-- `backtrack_to_level` (`/repo/starlit/src/prop/trail.rs:270-303`). -/
def backtrackToLevelT (p : PropState) (level : Nat) (cb : Callbacks) : M (Nat × PropState × Callbacks) := do
  assertM (decide (level < p.trail.decisionLevel))
  let target ← idx p.trail.decisions (level + 1)
  assertM (decide (target ≤ p.trail.steps.length))
  let (k, values, cb) ← undoLoopT (p.trail.steps.drop target) p.values cb
  pure (k, { p with
    values := values
    trail := { p.trail with
      steps := p.trail.steps.take target
      decisions := p.trail.decisions.take (level + 1)
      propagated := min p.trail.propagated target } }, cb)

namespace Analysis

/-- `bump_long_clause` (`/repo/starlit/src/conflict_analysis.rs:193-202`); both loops of `compute_glue` visit all literals. -/
def bumpLongClauseT (an : Analysis) (p : PropState) (c : Nat) : M (Nat × Analysis × PropState) := do
  let (_, ls) ← Long.headerAndLits p.long c
  let (glue, tmp) ← computeGlue p.trail ls an.glueLevelFlags
  let a ← Long.modHeader p.long c (fun h => (h.setGlue glue).setUsed ((h.setGlue glue).used + 1))
  pure (2 * ls.length, { an with glueLevelFlags := tmp }, { p with long := a })

/-- `add_literal` (`/repo/starlit/src/conflict_analysis.rs:212-239`); the call counts one. -/
def addLiteralT (env : Env) (an : Analysis) (t : Trail) (l : Lit) (cb : Callbacks) :
    M (Cost × Analysis × Callbacks) := do
  let i ← t.indexOf l.index
  let s ← idx t.steps i
  if s.level = 0 then pure ((1, 0), an, cb)
  else do
    let old ← idx an.currentClauseLits i
    let flags ← upd an.currentClauseLits i true
    let an := { an with currentClauseLits := flags }
    if old then pure ((1, 0), an, cb)
    else do
      let (k, vsids) ← cb.vsids.bumpVarT env l.index
      let cb := { cb with vsids := vsids }
      if s.level = t.decisionLevel then
        pure (k + (1, 0), { an with currentLevelLitCount := an.currentLevelLitCount + 1 }, cb)
      else pure (k + (1, 0), { an with derivedClause := an.derivedClause ++ [l] }, cb)

/-- `for &lit in …lits(prop) { add_literal(..) }`
(`/repo/starlit/src/conflict_analysis.rs:132-134`, `182-184`). -/
def addLiteralsT (env : Env) (t : Trail) : List Lit → Analysis → Callbacks → M (Cost × Analysis × Callbacks)
  | [], an, cb => pure ((0, 0), an, cb)
  | l :: ls, an, cb => do
    let (k, an, cb) ← addLiteralT env an t l cb
    let (k', r) ← addLiteralsT env t ls an cb
    pure (k + k', r)

/-- `if let Reason::Long(reason) = step.reason { bump_long_clause(..) }`
(`/repo/starlit/src/conflict_analysis.rs:174-181`). -/
def bumpReasonT (an : Analysis) (p : PropState) : Reason → M (Nat × Analysis × PropState)
  | .long c => bumpLongClauseT an p c
  | _ => pure (0, an, p)

/-- The loop of `derive_1uip_clause` (`/repo/starlit/src/conflict_analysis.rs:142-186`); the loop that clears the flags
visits all literals of the clause. -/
def uipLoopT (env : Env) : Nat → Analysis → PropState → Callbacks → M (Cost × Analysis × PropState × Callbacks)
  | 0, an, p, cb => pure ((0, 0), an, p, cb)
  | k + 1, an, p, cb => do
    let flag ← idx an.currentClauseLits k
    let flags ← upd an.currentClauseLits k false
    let an := { an with currentClauseLits := flags }
    if flag then do
      let s ← idx p.trail.steps k
      if an.currentLevelLitCount = 0 then throw .panic
      else
        let an := { an with currentLevelLitCount := an.currentLevelLitCount - 1 }
        if an.currentLevelLitCount = 0 then do
          let flags ← clearFlags p.trail an.derivedClause an.currentClauseLits
          pure ((1 + an.derivedClause.length, 0), { an with
            currentClauseLits := flags
            derivedClause := an.derivedClause ++ [s.lit.neg] }, p, cb)
        else do
          let (t1, an, p) ← bumpReasonT an p s.reason
          let ls ← p.reasonLits s.reason
          let (t2, an, cb) ← addLiteralsT env p.trail ls an cb
          let (t3, r) ← uipLoopT env k an p cb
          pure ((1 + t1, 0) + t2 + t3, r)
    else do
      let (t, r) ← uipLoopT env k an p cb
      pure ((1, 0) + t, r)

/-- `if let ConflictClause::Long(conflict) = conflict { bump_long_clause(..) }`
(`/repo/starlit/src/conflict_analysis.rs:124-131`). -/
def bumpConflictT (an : Analysis) (p : PropState) : ConflictClause → M (Nat × Analysis × PropState)
  | .long c => bumpLongClauseT an p c
  | .binary _ _ => pure (0, an, p)

/-- `derive_1uip_clause` (`/repo/starlit/src/conflict_analysis.rs:110-191`). -/
def derive1uipT (env : Env) (an : Analysis) (p : PropState) (conflict : ConflictClause) (cb : Callbacks) :
    M (Cost × Analysis × PropState × Callbacks) := do
  let an := { an with derivedClause := [] }.updateTrailLen p.trail
  let (t1, an, p) ← bumpConflictT an p conflict
  let ls ← conflict.lits p
  let (t2, an, cb) ← addLiteralsT env p.trail ls an cb
  let (t3, an, p, cb) ← uipLoopT env p.trail.steps.length an p cb
  assertM (decide (an.currentLevelLitCount = 0))
  pure ((t1, 0) + t2 + t3, an, p, cb)

/-- `minimize_derived_clause` (`/repo/starlit/src/conflict_analysis.rs:270-280`). -/
def minimizeDerivedT (an : Analysis) (p : PropState) : M (Nat × Analysis × Nat) :=
  if an.derivedClause.length > 1 then do
    let (k, m, clause, level) ← Minimize.minimizeT 21 an.minimize an.derivedClause p
    pure (k, { an with minimize := m, derivedClause := clause }, level)
  else pure (0, an, 0)

/-- `learn_and_assign` (`/repo/starlit/src/conflict_analysis.rs:283-322`): all literals are visited at most twice by
`compute_glue`, once when the clause is logged and once when it is copied to the arena.  Debug assertions are not
counted. -/
def learnAndAssignT (ctx : Ctx) (an : Analysis) (p : PropState) : M (Nat × Ctx × Analysis × PropState) := do
  let r ← learnAndAssign ctx an p
  pure (4 * an.derivedClause.length, r)

/-- `analyze_conflict` (`/repo/starlit/src/conflict_analysis.rs:82-104`). -/
def analyzeConflictT (env : Env) (ctx : Ctx) (an : Analysis) (p : PropState) (conflict : ConflictClause)
    (cb : Callbacks) : M (Cost × Ctx × Analysis × PropState × Callbacks) := do
  assertM (decide (p.trail.decisionLevel ≠ 0))
  let (t1, an, p, cb) ← derive1uipT env an p conflict cb
  let (t2, vsids) := cb.vsids.doDecayT env
  let cb := { cb with vsids := vsids }
  let (t3, an, level) ← an.minimizeDerivedT p
  let (t4, p, cb) ← backtrackToLevelT p level cb
  let (t5, ctx, an, p) ← learnAndAssignT ctx an p
  pure (t1 + t2 + (t3 + t4 + t5, 0), ctx, an, p, cb)

end Analysis

/-! ## The counted functions are those of the model -/

theorem Vsids.bumpVarT_erase (env : Env) (v : Vsids) (x : Nat) :
    Except.map Prod.snd (v.bumpVarT env x) = v.bumpVar env x := by
  unfold bumpVarT bumpVar
  simp only [map_snd_bind]
  congr 1; funext old
  rw [← Heap.increaseT_erase, bind_map_snd]
  congr 1; funext y
  split <;> rfl

theorem Vsids.doDecayT_erase (env : Env) (v : Vsids) : (v.doDecayT env).2 = v.doDecay env := by
  unfold doDecayT doDecay
  simp only
  split <;> rfl

theorem Callbacks.unassignT_erase (cb : Callbacks) (l : Lit) :
    Except.map Prod.snd (cb.unassignT l) = cb.unassign l := by
  unfold unassignT unassign
  rw [← Heap.enqueueT_erase, bind_map_snd, map_snd_bind]
  congr 1; funext y
  simp only [map_snd_bind]
  rfl

theorem undoLoopT_erase : ∀ (ss : List Step) (values : PartialAssignment) (cb : Callbacks),
    Except.map Prod.snd (undoLoopT ss values cb) = undoLoop ss values cb
  | [], _, _ => rfl
  | s :: ss, values, cb => by
    unfold undoLoopT undoLoop
    rw [← Callbacks.unassignT_erase, bind_map_snd, map_snd_bind]
    congr 1; funext y
    simp only [map_snd_bind]
    congr 1; funext values
    rw [← undoLoopT_erase ss]
    cases undoLoopT ss values y.2 <;> rfl

theorem backtrackToLevelT_erase (p : PropState) (level : Nat) (cb : Callbacks) :
    Except.map Prod.snd (backtrackToLevelT p level cb) = backtrackToLevel p level cb := by
  unfold backtrackToLevelT backtrackToLevel
  simp only [map_snd_bind]
  congr 1; funext _
  congr 1; funext target
  congr 1; funext _
  rw [← undoLoopT_erase, bind_map_snd]
  rfl

namespace Analysis

theorem bumpLongClauseT_erase (an : Analysis) (p : PropState) (c : Nat) :
    Except.map Prod.snd (bumpLongClauseT an p c) = bumpLongClause an p c := by
  unfold bumpLongClauseT bumpLongClause
  simp only [map_snd_bind]
  rfl

theorem addLiteralT_erase (env : Env) (an : Analysis) (t : Trail) (l : Lit) (cb : Callbacks) :
    Except.map Prod.snd (addLiteralT env an t l cb) = addLiteral env an t l cb := by
  unfold addLiteralT addLiteral
  simp only [map_snd_bind]
  congr 1; funext i
  congr 1; funext s
  split
  · rfl
  simp only [map_snd_bind]
  congr 1; funext old
  congr 1; funext flags
  split
  · rfl
  rw [← Vsids.bumpVarT_erase, bind_map_snd, map_snd_bind]
  congr 1; funext y
  obtain ⟨k, v⟩ := y
  split <;> rfl

theorem addLiteralsT_erase (env : Env) (t : Trail) : ∀ (ls : List Lit) (an : Analysis) (cb : Callbacks),
    Except.map Prod.snd (addLiteralsT env t ls an cb) = addLiterals env t ls an cb
  | [], _, _ => rfl
  | l :: ls, an, cb => by
    unfold addLiteralsT addLiterals
    rw [← addLiteralT_erase, bind_map_snd, map_snd_bind]
    congr 1; funext y
    obtain ⟨k, an, cb⟩ := y
    simp only [map_snd_bind]
    rw [← addLiteralsT_erase env t ls]
    cases addLiteralsT env t ls an cb <;> rfl

theorem bumpReasonT_erase (an : Analysis) (p : PropState) (r : Reason) :
    Except.map Prod.snd (bumpReasonT an p r) = bumpReason an p r := by
  cases r with
  | long c => exact bumpLongClauseT_erase an p c
  | _ => rfl

theorem uipLoopT_erase (env : Env) : ∀ (k : Nat) (an : Analysis) (p : PropState) (cb : Callbacks),
    Except.map Prod.snd (uipLoopT env k an p cb) = uipLoop env k an p cb
  | 0, _, _, _ => rfl
  | k + 1, an, p, cb => by
    unfold uipLoopT uipLoop
    simp only [map_snd_bind]
    congr 1; funext flag
    congr 1; funext flags
    split
    · simp only [map_snd_bind]
      congr 1; funext s
      split
      · rfl
      split
      · simp only [map_snd_bind]
        rfl
      · rw [← bumpReasonT_erase, bind_map_snd, map_snd_bind]
        congr 1; funext y
        obtain ⟨t1, an, p⟩ := y
        simp only [map_snd_bind]
        congr 1; funext ls
        rw [← addLiteralsT_erase, bind_map_snd]
        congr 1; funext y
        obtain ⟨t2, an, cb⟩ := y
        simp only [map_snd_bind]
        rw [← uipLoopT_erase env k]
        cases uipLoopT env k an p cb <;> rfl
    · simp only [map_snd_bind]
      rw [← uipLoopT_erase env k]
      cases uipLoopT env k _ p cb <;> rfl

theorem bumpConflictT_erase (an : Analysis) (p : PropState) (c : ConflictClause) :
    Except.map Prod.snd (bumpConflictT an p c) = bumpConflict an p c := by
  cases c with
  | long c => exact bumpLongClauseT_erase an p c
  | binary => rfl

theorem derive1uipT_erase (env : Env) (an : Analysis) (p : PropState) (c : ConflictClause) (cb : Callbacks) :
    Except.map Prod.snd (derive1uipT env an p c cb) = derive1uip env an p c cb := by
  unfold derive1uipT derive1uip
  simp only
  rw [← bumpConflictT_erase, bind_map_snd, map_snd_bind]
  congr 1; funext y
  obtain ⟨t1, an, p⟩ := y
  simp only [map_snd_bind]
  congr 1; funext ls
  rw [← addLiteralsT_erase, bind_map_snd]
  congr 1; funext y
  obtain ⟨t2, an, cb⟩ := y
  simp only [map_snd_bind]
  rw [← uipLoopT_erase, bind_map_snd]
  rfl

theorem minimizeDerivedT_erase (an : Analysis) (p : PropState) :
    Except.map Prod.snd (minimizeDerivedT an p) = minimizeDerived an p := by
  unfold minimizeDerivedT minimizeDerived
  split
  · rw [← Minimize.minimizeT_erase, bind_map_snd, map_snd_bind]
    rfl
  · rfl

theorem analyzeConflictT_erase (env : Env) (ctx : Ctx) (an : Analysis) (p : PropState) (c : ConflictClause)
    (cb : Callbacks) :
    Except.map Prod.snd (analyzeConflictT env ctx an p c cb) = analyzeConflict env ctx an p c cb := by
  unfold analyzeConflictT analyzeConflict
  simp only [map_snd_bind]
  congr 1; funext _
  rw [← derive1uipT_erase, bind_map_snd]
  congr 1; funext y
  obtain ⟨t1, an, p, cb⟩ := y
  simp only [map_snd_bind, ← Vsids.doDecayT_erase]
  rw [← minimizeDerivedT_erase, bind_map_snd]
  congr 1; funext y
  obtain ⟨t3, an, level⟩ := y
  simp only [map_snd_bind]
  rw [← backtrackToLevelT_erase, bind_map_snd]
  congr 1; funext y
  obtain ⟨t4, p, cb⟩ := y
  unfold learnAndAssignT
  simp only [map_snd_bind]
  cases learnAndAssign ctx an p <;> rfl

end Analysis

/-! ## The heap -/

namespace Heap

variable {V : Type} [LinearOrder V]

theorem rootLoopT_length (value : V) (fuel : Nat) : ∀ {h h' : Heap V} {pos t : Nat},
    rootLoopT value fuel h pos = .ok (t, h') → h'.heap.length = h.heap.length := by
  induction fuel with
  | zero =>
    intro h h' pos t e
    unfold rootLoopT at e
    split at e
    · cases e; rfl
    · cases e
  | succ fuel ih =>
    intro h h' pos t e
    unfold rootLoopT at e
    split at e
    · obtain ⟨pv, _, e⟩ := bind_eq_ok.1 e
      split at e
      · obtain ⟨h1, e1, e⟩ := bind_eq_ok.1 e
        obtain ⟨⟨k, h2⟩, e2, e⟩ := bind_eq_ok.1 e
        cases e
        rw [ih e2, swap_length e1]
      · cases e; rfl
    · cases e; rfl

theorem moveTowardsRootT_length {h h' : Heap V} {pos t : Nat} (e : h.moveTowardsRootT pos = .ok (t, h')) :
    h'.heap.length = h.heap.length := by
  unfold moveTowardsRootT at e
  obtain ⟨v, _, e⟩ := bind_eq_ok.1 e
  exact rootLoopT_length _ _ e

theorem increaseT_length {h h' : Heap V} {x t : Nat} {f : V → V} (e : h.increaseT x f = .ok (t, h')) :
    h'.heap.length = h.heap.length := by
  unfold increaseT at e
  obtain ⟨v, _, e⟩ := bind_eq_ok.1 e
  obtain ⟨vs, _, e⟩ := bind_eq_ok.1 e
  obtain ⟨pos, _, e⟩ := bind_eq_ok.1 e
  split at e
  · have := moveTowardsRootT_length e
    exact this
  · cases e; rfl

theorem enqueueT_length {h h' : Heap V} {x t : Nat} (e : h.enqueueT x = .ok (t, h')) :
    h.heap.length ≤ h'.heap.length ∧ t ≤ Nat.log 2 h'.heap.length := by
  unfold enqueueT at e
  obtain ⟨pos, _, e⟩ := bind_eq_ok.1 e
  split at e
  · cases e; omega
  · obtain ⟨hp, _, e⟩ := bind_eq_ok.1 e
    have h1 := moveTowardsRootT_length e
    have h2 := (moveTowardsRootT_le e).1
    simp only [List.length_append, List.length_singleton] at h1
    rw [← h1] at h2
    omega

theorem WF.length_le {h : Heap V} (w : h.WF) : h.heap.length ≤ h.values.length := by
  have h1 := List.toFinset_card_of_nodup w.nodup
  rw [← h1, ← Finset.card_range h.values.length]
  refine Finset.card_le_card fun x hx => ?_
  exact Finset.mem_range.2 (w.lt (List.mem_toFinset.1 hx))

end Heap

theorem Vsids.bumpVarT_le {env : Env} {v v' : Vsids} {x : Nat} {t : Cost} (e : v.bumpVarT env x = .ok (t, v')) :
    t.1 ≤ Nat.log 2 v.activity.heap.length ∧ v'.activity.heap.length = v.activity.heap.length := by
  unfold bumpVarT at e
  obtain ⟨old, _, e⟩ := bind_eq_ok.1 e
  obtain ⟨⟨k, a⟩, e1, e⟩ := bind_eq_ok.1 e
  have h1 := Heap.C70_increase e1
  have h2 := Heap.increaseT_length e1
  simp only at e
  split at e
  · cases e; exact ⟨h1, h2⟩
  · cases e; exact ⟨h1, h2⟩

theorem undoLoopT_le : ∀ {ss : List Step} {values values' : PartialAssignment} {cb cb' : Callbacks} {t : Nat},
    undoLoopT ss values cb = .ok (t, values', cb') →
    cb.vsids.activity.heap.length ≤ cb'.vsids.activity.heap.length ∧
    t ≤ ss.length * (1 + Nat.log 2 cb'.vsids.activity.heap.length)
  | [], values, values', cb, cb', t, e => by
    cases e
    simp
  | s :: ss, values, values', cb, cb', t, e => by
    unfold undoLoopT at e
    obtain ⟨⟨k, cb1⟩, e1, e⟩ := bind_eq_ok.1 e
    obtain ⟨values1, _, e⟩ := bind_eq_ok.1 e
    obtain ⟨⟨k', r⟩, e2, e⟩ := bind_eq_ok.1 e
    cases e
    obtain ⟨h1, h2⟩ := undoLoopT_le e2
    unfold Callbacks.unassignT at e1
    obtain ⟨⟨k0, a⟩, e0, e1⟩ := bind_eq_ok.1 e1
    obtain ⟨ph, _, e1⟩ := bind_eq_ok.1 e1
    cases e1
    obtain ⟨h3, h4⟩ := Heap.enqueueT_length e0
    simp only at h1 h2 h3 h4 ⊢
    have h5 : Nat.log 2 a.heap.length ≤ Nat.log 2 cb'.vsids.activity.heap.length := Nat.log_mono_right h1
    rw [List.length_cons, Nat.succ_mul]
    omega

theorem backtrackToLevelT_le {p p' : PropState} {level t : Nat} {cb cb' : Callbacks}
    (e : backtrackToLevelT p level cb = .ok (t, p', cb')) :
    t ≤ p.trail.steps.length * (1 + Nat.log 2 cb'.vsids.activity.heap.length) := by
  unfold backtrackToLevelT at e
  obtain ⟨_, _, e⟩ := bind_eq_ok.1 e
  obtain ⟨target, _, e⟩ := bind_eq_ok.1 e
  obtain ⟨_, _, e⟩ := bind_eq_ok.1 e
  obtain ⟨⟨k, values, cb1⟩, e1, e⟩ := bind_eq_ok.1 e
  cases e
  refine Nat.le_trans (undoLoopT_le e1).2 (Nat.mul_le_mul_right _ ?_)
  simp

/-! ## Deriving the clause -/

/-- The number of literals a reason consists of. -/
def reasonLen (p : PropState) (st : Step) : Nat :=
  match p.reasonLits st.reason with
  | .ok rs => rs.length
  | .error _ => 0

/-- The size of the implication graph below a trail index. -/
def graphBelow (p : PropState) (k : Nat) : Nat := ((p.trail.steps.take k).map (reasonLen p)).sum

theorem graphBelow_all (p : PropState) : graphBelow p p.trail.steps.length = graphSize p := by
  unfold graphBelow graphSize
  rw [List.take_length]
  rfl

theorem graphBelow_succ (p : PropState) {k : Nat} {st : Step} (h : p.trail.steps[k]? = some st) :
    graphBelow p (k + 1) = graphBelow p k + reasonLen p st := by
  unfold graphBelow
  rw [List.take_add_one, h]
  simp

theorem graphBelow_mono (p : PropState) (k : Nat) : graphBelow p k ≤ graphBelow p (k + 1) := by
  unfold graphBelow
  rw [List.take_add_one, List.map_append, List.sum_append]
  omega

section
variable {n : Nat} {S S' : List LC} {p p' : PropState}

theorem OnlyHeaders.trail (h : OnlyHeaders n S p S' p') : p'.trail = p.trail := by
  obtain ⟨a, rfl⟩ := h.eq; rfl

/-- Changes of headers do not change the number of literals of clauses. -/
theorem OnlyHeaders.litsLen (hp : PInv n S p) (h : OnlyHeaders n S p S' p') {e : LC} (he : e ∈ S) :
    ∃ ls ls', Long.lits p.long e.ref = .ok ls ∧ Long.lits p'.long e.ref = .ok ls' ∧ ls'.length = ls.length := by
  obtain ⟨e', he', hsim⟩ := h.sim.symm_mem he
  refine ⟨_, _, hp.rep.lits_ok he, hsim.ref ▸ h.inv.rep.lits_ok he', hsim.lits.length_eq⟩

theorem OnlyHeaders.reasonLen (hp : PInv n S p) (h : OnlyHeaders n S p S' p') {st : Step}
    (hst : st ∈ p.trail.steps) : reasonLen p' st = reasonLen p st := by
  obtain ⟨i, hi⟩ := List.mem_iff_getElem?.1 hst
  have hr := hp.reasons i st hi
  unfold ReasonOK at hr
  unfold Starlit.reasonLen
  cases hx : st.reason with
  | decision => rfl
  | unit => rfl
  | binary o => rfl
  | long c =>
    rw [hx] at hr
    obtain ⟨e, he, rfl, _⟩ := hr
    obtain ⟨ls, ls', e1, e2, hl⟩ := h.litsLen hp he
    simp only [PropState.reasonLits, e1, e2, bind_ok]
    cases ls with
    | nil => cases ls' with
      | nil => rfl
      | cons => cases hl
    | cons => cases ls' with
      | nil => cases hl
      | cons => exact Nat.succ.inj hl

theorem OnlyHeaders.graphBelow (hp : PInv n S p) (h : OnlyHeaders n S p S' p') (k : Nat) :
    graphBelow p' k = graphBelow p k := by
  unfold Starlit.graphBelow
  rw [h.trail]
  congr 1
  exact List.map_congr_left fun st hst => h.reasonLen hp (List.mem_of_mem_take hst)

theorem Analysis.bumpLongClauseT_le {an an' : Analysis} (h : PInv n S p) {e : LC} (he : e ∈ S) {t : Nat}
    (eq : an.bumpLongClauseT p e.ref = .ok (t, an', p')) :
    t = 2 * e.lits.length ∧ an'.derivedClause = an.derivedClause ∧ ∃ S', OnlyHeaders n S p S' p' := by
  unfold bumpLongClauseT at eq
  rw [h.rep.headerAndLits_ok he, bind_ok] at eq
  obtain ⟨⟨glue, tmp⟩, e1, eq⟩ := bind_eq_ok.1 eq
  obtain ⟨a, e2, eq⟩ := bind_eq_ok.1 eq
  cases eq
  obtain ⟨a', e3, S', hs, _, hp⟩ := h.modHeader he
    (f := fun h => (h.setGlue glue).setUsed ((h.setGlue glue).used + 1))
    (((h.rep.hdrWF he).setGlue _).setUsed _)
    (fun hlive => (h.long.len e he hlive).2)
    (by rw [LongHeader.redundant_setUsed, LongHeader.redundant_setGlue])
    (by rw [LongHeader.prot_setUsed, LongHeader.prot_setGlue])
  cases e2.symm.trans e3
  exact ⟨rfl, rfl, S', hs, hp, a, rfl⟩

theorem Analysis.bumpReasonT_le {an an' : Analysis} (h : PInv n S p) {st : Step} (hst : st ∈ p.trail.steps) {t : Nat}
    (eq : an.bumpReasonT p st.reason = .ok (t, an', p')) :
    t ≤ 2 * reasonLen p st + 2 ∧ an'.derivedClause = an.derivedClause ∧ ∃ S', OnlyHeaders n S p S' p' := by
  obtain ⟨i, hi⟩ := List.mem_iff_getElem?.1 hst
  have hr := h.reasons i st hi
  unfold ReasonOK at hr
  unfold reasonLen
  cases hx : st.reason with
  | decision => rw [hx] at eq; cases eq; exact ⟨by omega, rfl, S, .refl h⟩
  | unit => rw [hx] at eq; cases eq; exact ⟨by omega, rfl, S, .refl h⟩
  | binary o => rw [hx] at eq; cases eq; exact ⟨by omega, rfl, S, .refl h⟩
  | long c =>
    rw [hx] at hr eq
    obtain ⟨e, he, rfl, rest, h1, _⟩ := hr
    obtain ⟨h2, h3⟩ := bumpLongClauseT_le h he eq
    refine ⟨?_, h3⟩
    simp only [PropState.reasonLits, h.rep.lits_ok he, bind_ok, h1]
    rw [h1] at h2
    simp only [List.length_cons] at h2
    show t ≤ 2 * rest.length + 2
    omega

theorem Analysis.addLiteralT_le {env : Env} {an an' : Analysis} {t : Trail} {l : Lit} {cb cb' : Callbacks} {k : Cost}
    (e : addLiteralT env an t l cb = .ok (k, an', cb')) :
    k.1 ≤ 1 + Nat.log 2 cb.vsids.activity.heap.length ∧
    cb'.vsids.activity.heap.length = cb.vsids.activity.heap.length ∧
    an'.derivedClause.length ≤ an.derivedClause.length + 1 := by
  unfold addLiteralT at e
  obtain ⟨i, _, e⟩ := bind_eq_ok.1 e
  obtain ⟨s, _, e⟩ := bind_eq_ok.1 e
  split at e
  · cases e; simp
  obtain ⟨old, _, e⟩ := bind_eq_ok.1 e
  obtain ⟨flags, _, e⟩ := bind_eq_ok.1 e
  simp only at e
  split at e
  · cases e; simp
  obtain ⟨⟨k, v⟩, e1, e⟩ := bind_eq_ok.1 e
  obtain ⟨h1, h2⟩ := Vsids.bumpVarT_le e1
  simp only at e
  split at e
  · cases e
    refine ⟨?_, h2, by simp⟩
    rw [Prod.fst_add]; omega
  · cases e
    refine ⟨?_, h2, by simp⟩
    rw [Prod.fst_add]; omega

theorem Analysis.addLiteralsT_le {env : Env} {t : Trail} : ∀ {ls : List Lit} {an an' : Analysis} {cb cb' : Callbacks}
    {k : Cost}, addLiteralsT env t ls an cb = .ok (k, an', cb') →
    k.1 ≤ ls.length * (1 + Nat.log 2 cb.vsids.activity.heap.length) ∧
    cb'.vsids.activity.heap.length = cb.vsids.activity.heap.length ∧
    an'.derivedClause.length ≤ an.derivedClause.length + ls.length
  | [], an, an', cb, cb', k, e => by cases e; simp
  | l :: ls, an, an', cb, cb', k, e => by
    unfold addLiteralsT at e
    obtain ⟨⟨k1, an1, cb1⟩, e1, e⟩ := bind_eq_ok.1 e
    obtain ⟨⟨k2, r⟩, e2, e⟩ := bind_eq_ok.1 e
    cases e
    obtain ⟨h1, h2, h3⟩ := addLiteralT_le e1
    obtain ⟨h4, h5, h6⟩ := addLiteralsT_le e2
    rw [h2] at h4 h5
    refine ⟨?_, h5, ?_⟩
    · rw [Prod.fst_add, List.length_cons, Nat.succ_mul]; omega
    · rw [List.length_cons]; omega

theorem Analysis.uipLoopT_le {env : Env} : ∀ (k : Nat) {S : List LC} {an an' : Analysis} {p p' : PropState}
    {cb cb' : Callbacks} {t : Cost}, PInv n S p → uipLoopT env k an p cb = .ok (t, an', p', cb') →
    t.1 ≤ 3 * k + graphBelow p k * (3 + Nat.log 2 cb.vsids.activity.heap.length) + an'.derivedClause.length ∧
    an'.derivedClause.length ≤ an.derivedClause.length + graphBelow p k + 1 ∧
    cb'.vsids.activity.heap.length = cb.vsids.activity.heap.length
  | 0, S, an, an', p, p', cb, cb', t, h, e => by
    cases e
    refine ⟨by simp, by omega, rfl⟩
  | k + 1, S, an, an', p, p', cb, cb', t, h, e => by
    have hmono := graphBelow_mono p k
    have hmono2 := Nat.mul_le_mul_right (3 + Nat.log 2 cb.vsids.activity.heap.length) hmono
    unfold uipLoopT at e
    obtain ⟨flag, _, e⟩ := bind_eq_ok.1 e
    obtain ⟨flags, _, e⟩ := bind_eq_ok.1 e
    simp only at e
    split at e
    · obtain ⟨s, es, e⟩ := bind_eq_ok.1 e
      have hs := idx_eq_ok.1 es
      split at e
      · cases e
      split at e
      · obtain ⟨flags, _, e⟩ := bind_eq_ok.1 e
        cases e
        refine ⟨?_, by simp, rfl⟩
        simp only [List.length_append, List.length_singleton]
        omega
      · obtain ⟨⟨t1, an1, p1⟩, e1, e⟩ := bind_eq_ok.1 e
        obtain ⟨ls, e2, e⟩ := bind_eq_ok.1 e
        obtain ⟨⟨t2, an2, cb2⟩, e3, e⟩ := bind_eq_ok.1 e
        obtain ⟨⟨t3, r⟩, e4, e⟩ := bind_eq_ok.1 e
        cases e
        obtain ⟨a1, a2, S1, o⟩ := bumpReasonT_le h (List.mem_iff_getElem?.2 ⟨k, hs⟩) e1
        obtain ⟨b1, b2, b3⟩ := addLiteralsT_le e3
        obtain ⟨c1, c2, c3⟩ := uipLoopT_le k o.inv e4
        have hl : ls.length = reasonLen p s := by
          have := o.reasonLen h (List.mem_iff_getElem?.2 ⟨k, hs⟩)
          rw [← this]
          unfold reasonLen
          rw [e2]
        rw [o.graphBelow h, b2] at c1
        rw [o.graphBelow h] at c2
        rw [hl] at b1 b3
        rw [graphBelow_succ p hs, Nat.add_mul]
        simp only at a1 a2 b1 b2 b3
        rw [a2] at b3
        have hm : reasonLen p s * (3 + Nat.log 2 cb.vsids.activity.heap.length) =
            2 * reasonLen p s + reasonLen p s * (1 + Nat.log 2 cb.vsids.activity.heap.length) := by ring
        refine ⟨?_, by simp only at c2 ⊢; omega, c3.trans b2⟩
        simp only [Prod.fst_add] at c1 ⊢
        omega
    · obtain ⟨⟨t3, r⟩, e4, e⟩ := bind_eq_ok.1 e
      cases e
      obtain ⟨c1, c2, c3⟩ := uipLoopT_le k h e4
      refine ⟨?_, by simp only at c2 ⊢; omega, c3⟩
      simp only [Prod.fst_add] at c1 ⊢
      omega

theorem Analysis.derive1uipT_le {env : Env} {an an' : Analysis} {cb cb' : Callbacks} {c : ConflictClause} {conf : List Lit}
    {t : Cost} (h : PInv n S p) (hc : ConflictOK S p c) (hconf : c.lits p = .ok conf)
    (e : derive1uipT env an p c cb = .ok (t, an', p', cb')) :
    t.1 ≤ conf.length * (3 + Nat.log 2 cb.vsids.activity.heap.length) + 3 * p.trail.steps.length +
      graphSize p * (3 + Nat.log 2 cb.vsids.activity.heap.length) + an'.derivedClause.length ∧
    an'.derivedClause.length ≤ conf.length + graphSize p + 1 ∧
    cb'.vsids.activity.heap.length = cb.vsids.activity.heap.length := by
  unfold derive1uipT at e
  simp only at e
  obtain ⟨⟨t1, an1, p1⟩, e1, e⟩ := bind_eq_ok.1 e
  obtain ⟨ls, e2, e⟩ := bind_eq_ok.1 e
  obtain ⟨⟨t2, an2, cb2⟩, e3, e⟩ := bind_eq_ok.1 e
  obtain ⟨⟨t3, r⟩, e4, e⟩ := bind_eq_ok.1 e
  obtain ⟨_, _, e⟩ := bind_eq_ok.1 e
  cases e
  have key : t1 ≤ 2 * conf.length ∧ ls.length = conf.length ∧ an1.derivedClause = [] ∧ ∃ S', OnlyHeaders n S p S' p1 := by
    cases c with
    | binary a b =>
      cases e1; cases e2; cases hconf
      exact ⟨by omega, rfl, rfl, S, .refl h⟩
    | long c =>
      obtain ⟨x, hx, rfl, _⟩ := hc
      obtain ⟨k1, k2, S', o⟩ := bumpLongClauseT_le h hx e1
      obtain ⟨l1, l2, f1, f2, hl⟩ := o.litsLen h hx
      have f3 := h.rep.lits_ok hx
      cases f1.symm.trans f3
      cases hconf.symm.trans f1
      cases e2.symm.trans f2
      exact ⟨by omega, hl, k2, S', o⟩
  obtain ⟨k1, k2, k3, S', o⟩ := key
  obtain ⟨b1, b2, b3⟩ := addLiteralsT_le e3
  obtain ⟨c1, c2, c3⟩ := uipLoopT_le _ o.inv e4
  rw [o.graphBelow h, o.trail, graphBelow_all, b2] at c1
  rw [o.graphBelow h, o.trail, graphBelow_all] at c2
  rw [k2, k3] at b3
  rw [k2] at b1
  simp only [List.length_nil] at b3
  have hm : conf.length * (3 + Nat.log 2 cb.vsids.activity.heap.length) =
      2 * conf.length + conf.length * (1 + Nat.log 2 cb.vsids.activity.heap.length) := by ring
  refine ⟨?_, by simp only at c2 ⊢; omega, c3.trans b2⟩
  simp only [Prod.fst_add] at c1 ⊢
  omega

end

/-! ## The bound -/

section
variable {env : Env} {F : List (List Lit)} {s : Solver} {p1 p : PropState} {ctx1 ctx : Ctx}
  {c : ConflictClause} {search : Search} {r : Option Bool} {conf : List Lit}

/-- C71: analysing a conflict — deriving the clause, bumping the variables, minimising, backtracking and learning — takes
linear time, up to the logarithm of the number of variables for the heap. -/
theorem C71_linear (h : Solver.Propagating env F s p1 ctx1 p (some c)) (h0 : p.trail.decisionLevel ≠ 0)
    (hconf : c.lits p = .ok conf) (e : searchStep env s.ctx s.search = .ok (ctx, search, r)) :
    ∃ t ctx', Analysis.analyzeConflictT env ctx1.conflict s.search.analysis p c s.search.cb =
        .ok (t, ctx', search.analysis, search.prop, search.cb) ∧
      t.1 ≤ (13 + Nat.log 2 (formulaVars F)) * (conf.length + graphSize p + p.trail.steps.length) + 8 := by
  obtain ⟨ctx', an', p', cb', ea, rfl⟩ := searchStep_conflict h h0 e
  obtain ⟨L, S, S2, hi, q⟩ := h.phase
  obtain ⟨S', C, lvl, target, A⟩ := (analyzeConflict_spec q.inv q.inv.storedInv hi.an hi.min hi.cb
    (q.conflict _ rfl) h0).ok_elim ea
  rw [← Analysis.analyzeConflictT_erase] at ea
  obtain ⟨t, et⟩ := map_snd_eq_ok ea
  refine ⟨t, ctx', et, ?_⟩
  unfold Analysis.analyzeConflictT at et
  obtain ⟨_, _, et⟩ := bind_eq_ok.1 et
  obtain ⟨⟨t1, an1, p2, cb1⟩, e1, et⟩ := bind_eq_ok.1 et
  simp only at et
  obtain ⟨⟨t3, an2, level⟩, e2, et⟩ := bind_eq_ok.1 et
  obtain ⟨⟨t4, p3, cb2⟩, e3, et⟩ := bind_eq_ok.1 et
  obtain ⟨⟨t5, ctx5, an5, p5⟩, e4, et⟩ := bind_eq_ok.1 et
  cases et
  obtain ⟨a1, a2, a3⟩ := Analysis.derive1uipT_le q.inv (q.conflict _ rfl) hconf e1
  have b1 := backtrackToLevelT_le e3
  have d1 : Analysis.derive1uip env s.search.analysis p c s.search.cb = .ok (an1, p2, cb1) := by
    rw [← Analysis.derive1uipT_erase, e1]; rfl
  obtain ⟨an1', p2', cb1', S3, d2, o, _, _, hmin, uip⟩ := derive1uip_spec (env := env) q.inv q.inv.storedInv hi.an hi.cb
    (q.conflict c rfl) h0
  cases d1.symm.trans d2
  have hg : graphSize p2 = graphSize p := by
    rw [← graphBelow_all, ← graphBelow_all, o.trail, o.graphBelow q.inv]
  have hD : an2.derivedClause.length ≤ an1.derivedClause.length ∧
      t3 ≤ 2 * graphSize p + 3 * p.trail.steps.length + 3 * an1.derivedClause.length := by
    have db3 : storedBase S2 p + liveRed S2 = storedBase S3 p2 + liveRed S3 := by
      obtain ⟨a, rfl⟩ := o.eq
      unfold storedBase
      rw [o.sim.liveIrr, o.sim.liveRed]
    have uip2 := uip
    rw [← o.trail, db3] at uip2
    obtain ⟨m', c', lvl', f1, _, f2, f3, _⟩ := minimizeDerived_spec o.inv o.inv.storedInv (by rw [hmin]; exact hi.min) uip2
      (by rw [o.trail]; exact h0)
    have f4 := f1
    rw [← Analysis.minimizeDerivedT_erase, e2] at f4
    cases f4
    refine ⟨(List.Nodup.subperm f2.nodup f3).length_le, ?_⟩
    unfold Analysis.minimizeDerivedT at e2
    split at e2
    · rename_i hlen
      obtain ⟨tm, rm, g1, _, g2⟩ := minimizeT_conflict h h0 d1 hlen 21
      rw [g1, bind_ok] at e2
      rw [hg, o.trail] at g2
      cases e2
      exact g2
    · have := (Prod.mk.inj (Except.ok.inj e2)).1
      omega
  have h5 : t5 = 4 * an2.derivedClause.length := by
    unfold Analysis.learnAndAssignT at e4
    obtain ⟨_, _, e4⟩ := bind_eq_ok.1 e4
    cases e4
    rfl
  have h2 : (Vsids.doDecayT env cb1.vsids).1.1 = 0 := by
    unfold Vsids.doDecayT
    simp only
    split <;> rfl
  have hX : ∀ {cb : Callbacks}, CbInv env (formulaVars F) cb →
      Nat.log 2 cb.vsids.activity.heap.length ≤ Nat.log 2 (formulaVars F) := by
    intro cb hcb
    refine Nat.log_mono_right ?_
    have := hcb.wf.length_le
    rwa [hcb.len] at this
  have x1 := hX hi.cb
  have x2 := hX A.cbinv
  have m1 := Nat.mul_le_mul_left conf.length (Nat.add_le_add_left x1 3)
  have m2 := Nat.mul_le_mul_left (graphSize p) (Nat.add_le_add_left x1 3)
  have m3 := Nat.mul_le_mul_left p.trail.steps.length (Nat.add_le_add_left x2 1)
  rw [o.trail] at b1
  have key := Nat.le_trans b1 m3
  generalize Nat.log 2 (formulaVars F) = X at *
  have n1 : conf.length * (3 + X) = 3 * conf.length + X * conf.length := by ring
  have n2 : graphSize p * (3 + X) = 3 * graphSize p + X * graphSize p := by ring
  have n3 : p.trail.steps.length * (1 + X) = p.trail.steps.length + X * p.trail.steps.length := by ring
  have n4 : (13 + X) * (conf.length + graphSize p + p.trail.steps.length) + 8 = 13 * conf.length + 13 * graphSize p +
      13 * p.trail.steps.length + X * conf.length + X * graphSize p + X * p.trail.steps.length + 8 := by ring
  rw [n4]
  simp only [Prod.fst_add]
  rw [h2]
  omega

end

/-- C71: the counted function is the one of the model. -/
theorem C71_counted (env : Env) (ctx : Ctx) (an : Analysis) (p : PropState) (c : ConflictClause) (cb : Callbacks) :
    Except.map Prod.snd (Analysis.analyzeConflictT env ctx an p c cb) = Analysis.analyzeConflict env ctx an p c cb :=
  Analysis.analyzeConflictT_erase env ctx an p c cb

/-- The hypotheses of C71 are met by the conflict of `C66_example`, whose analysis takes 57 steps, 17 of them for
minimisation; six variables, four literals in the falsified clause, six on the trail and six in reasons give the bound
248. -/
theorem C71_example : ∃ s p1 ctx1 p c conf ctx search r t ctx', Solver.Propagating Example.env
    (Example.cnf [[1, -2], [2, -4], [4, -6], [5, 1, 6, 3], [5, 1, 6, -3]]) s p1 ctx1 p (some c) ∧
    p.trail.decisionLevel = 2 ∧ c.lits p = .ok conf ∧
    searchStep Example.env s.ctx s.search = .ok (ctx, search, r) ∧
    conf.length = 4 ∧ graphSize p = 6 ∧ p.trail.steps.length = 6 ∧
    Analysis.analyzeConflictT Example.env ctx1.conflict s.search.analysis p c s.search.cb =
      .ok ((57, 0), ctx', search.analysis, search.prop, search.cb) ∧
    t = (13 + Nat.log 2 (formulaVars (Example.cnf [[1, -2], [2, -4], [4, -6], [5, 1, 6, 3], [5, 1, 6, -3]]))) *
      (conf.length + graphSize p + p.trail.steps.length) + 8 ∧ t = 248 := by
  have h : (do
      let x ← Example.mid [[1, -2], [2, -4], [4, -6], [5, 1, 6, 3], [5, 1, 6, -3]] 2
      match x.2.2.2.2 with
      | none => throw .panic
      | some c => do
        let conf ← c.lits x.2.2.2.1
        let y ← searchStep Example.env x.1.ctx x.1.search
        let z ← Analysis.analyzeConflictT Example.env x.2.2.1.conflict x.1.search.analysis x.2.2.2.1 c x.1.search.cb
        pure [x.2.2.2.1.trail.decisionLevel, conf.length, graphSize x.2.2.2.1, x.2.2.2.1.trail.steps.length, z.1.1, z.1.2] :
          M (List Nat)) = .ok [2, 4, 6, 6, 57, 0] := by
    decide +kernel
  obtain ⟨⟨s, p1, ctx1, p, r⟩, h1, h2⟩ := bind_eq_ok.1 h
  cases r with
  | none => cases h2
  | some c =>
    simp only at h2
    obtain ⟨conf, hconf, h2⟩ := bind_eq_ok.1 h2
    obtain ⟨⟨ctx, search, r⟩, hs, h2⟩ := bind_eq_ok.1 h2
    obtain ⟨⟨⟨w, k⟩, z⟩, hz, h2⟩ := bind_eq_ok.1 h2
    have h3 := Except.ok.inj h2
    simp only [List.cons.injEq, and_true] at h3
    obtain ⟨a1, a2, a3, a4, rfl, rfl⟩ := h3
    have hp := Example.mid_propagating (by decide +kernel) h1
    obtain ⟨t, ctx', e, _⟩ := C71_linear hp (by omega) hconf hs
    have e2 := hz.symm.trans e
    cases e2
    exact ⟨s, p1, ctx1, p, c, conf, ctx, search, r, 248, ctx', hp, a1, hconf, hs, a2, a3, a4, hz,
      by rw [a2, a3, a4, show formulaVars (Example.cnf [[1, -2], [2, -4], [4, -6], [5, 1, 6, 3], [5, 1, 6, -3]]) = 6 by
        decide +kernel]; decide +kernel, rfl⟩

end Starlit
