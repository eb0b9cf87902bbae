import Verif.Props.Capacity
import Verif.Props.Linear
import Verif.Props.Counters
import Verif.Props.Overflow

/-!
# C73: garbage collection pays for itself

A collection copies the clauses in use and visits the trail and all watch lists.  It should only run when there is garbage
that makes up for this.  The code does so except for an empty arena, for which it runs a collection in each step.
-/

namespace Starlit

/-! ## What succeeds keeps the garbage counter -/

/-- A successful result has the property. -/
def Res (m : M α) (Q : α → Prop) : Prop := ∀ a, m = .ok a → Q a

section
variable {α β : Type} {m : M α} {f : α → M β}

theorem Res.pure {Q : α → Prop} {a : α} (h : Q a) : Res (pure a) Q := by
  intro b e; cases e; exact h

theorem Res.throw {Q : α → Prop} {x : Err} : Res (throw x) Q := by
  intro b e; cases e

theorem Res.bind {P : α → Prop} {Q : β → Prop} (h : Res m P) (hi : ∀ a, P a → Res (f a) Q) : Res (m >>= f) Q := by
  intro b e
  obtain ⟨a, e1, e2⟩ := bind_eq_ok.1 e
  exact hi a (h a e1) b e2

theorem Res.any {Q : β → Prop} (hi : ∀ a, Res (f a) Q) : Res (m >>= f) Q :=
  Res.bind (P := fun _ => True) (fun _ _ => trivial) fun a _ => hi a

theorem Res.mono {P Q : α → Prop} (h : Res m P) (hi : ∀ a, P a → Q a) : Res m Q := fun a e => hi a (h a e)

end

section
variable {env : Env} {p p' : PropState} {a : Arena} {c : Nat} {l : Lit}

theorem res_modHeader {f : LongHeader → LongHeader} : Res (Long.modHeader a c f) (fun a' => a'.garbage = a.garbage) := by
  unfold Long.modHeader Arena.modifyHeader Arena.writeHeaderUnchecked
  exact Res.any fun _ => Res.any fun _ => Res.any fun _ => Res.pure rfl

theorem res_setLits {ls : List Lit} : Res (Long.setLits a c ls) (fun a' => a'.garbage = a.garbage) := by
  unfold Long.setLits Arena.modifyLits Arena.writeLits
  exact Res.any fun _ => Res.any fun _ => Res.any fun _ => Res.pure rfl

theorem res_assignUnit {s : Step} : Res (p.assignUnit s) (fun p' => p'.long = p.long) := by
  unfold PropState.assignUnit
  split
  · exact Res.any fun _ => Res.any fun _ => Res.pure rfl
  · exact Res.throw

theorem res_assign {s : Step} : Res (p.assign s) (fun p' => p'.long = p.long) := by
  unfold PropState.assign
  exact Res.any fun _ => Res.any fun _ => res_assignUnit

theorem res_propagateBinary : ∀ (rest : List Lit) {p : PropState},
    Res (propagateBinary l rest p) (fun r => r.1.long = p.long)
  | [], p => Res.pure rfl
  | o :: rest, p => by
    unfold propagateBinary
    refine Res.any fun b => ?_
    split
    · exact res_propagateBinary rest
    refine Res.any fun b => ?_
    split
    · exact Res.pure rfl
    refine Res.bind res_assign fun p1 h1 => ?_
    exact (res_propagateBinary rest).mono fun _ h2 => h2.trans h1

theorem res_visitWatch {w : Watch} : Res (visitWatch l w p) (fun r => r.1.long.garbage = p.long.garbage) := by
  unfold visitWatch
  refine Res.any fun b => ?_
  split
  · exact Res.pure rfl
  refine Res.any fun r => ?_
  obtain ⟨hd, ls⟩ := r
  dsimp only
  split
  · exact Res.pure rfl
  refine Res.any fun l0 => Res.any fun l1 => Res.any fun _ => Res.any fun b => ?_
  split
  · exact Res.pure rfl
  refine Res.any fun r => ?_
  cases r with
  | isTrue x pos => exact Res.bind res_modHeader fun a ha => Res.pure ha
  | unassigned x pos =>
    refine Res.any fun ws => Res.bind res_modHeader fun a ha => ?_
    refine Res.any fun _ => Res.any fun _ => Res.any fun _ => ?_
    exact Res.bind res_setLits fun a' ha' => Res.pure (ha'.trans ha)
  | none pos =>
    refine Res.bind res_modHeader fun a ha => Res.any fun b => ?_
    split
    · exact Res.pure ha
    refine Res.any fun _ => Res.any fun _ => Res.bind res_setLits fun a' ha' => ?_
    refine Res.bind res_assign fun p1 h1 => Res.pure ?_
    rw [h1]; exact ha'.trans ha

theorem res_propagateLongLoop : ∀ (ws kept : List Watch) {p : PropState},
    Res (propagateLongLoop l ws kept p) (fun r => r.1.long.garbage = p.long.garbage)
  | [], _, p => Res.pure rfl
  | w :: ws, kept, p => by
    unfold propagateLongLoop
    refine Res.bind res_visitWatch fun r h1 => ?_
    obtain ⟨p1, r⟩ := r
    cases r with
    | keep w => exact (res_propagateLongLoop ws _).mono fun _ h2 => h2.trans h1
    | remove => exact (res_propagateLongLoop ws _).mono fun _ h2 => h2.trans h1
    | conflict w => exact Res.pure h1

theorem res_propagateLiteral : Res (propagateLiteral p l) (fun r => r.1.long.garbage = p.long.garbage) := by
  unfold propagateLiteral
  refine Res.any fun _ => Res.bind (res_propagateBinary _) fun r h1 => ?_
  obtain ⟨p1, r⟩ := r
  cases r with
  | some c => exact Res.pure (congrArg Arena.garbage h1)
  | none =>
    unfold propagateLong
    refine Res.any fun _ => Res.any fun _ => Res.any fun _ => Res.bind (res_propagateLongLoop _ _) fun r h2 => ?_
    obtain ⟨p2, kept, r⟩ := r
    refine Res.any fun _ => Res.any fun _ => Res.any fun _ => Res.any fun _ => Res.pure ?_
    exact h2.trans (congrArg Arena.garbage h1)

theorem res_propagateLoop : ∀ (fuel : Nat) {p : PropState},
    Res (propagateLoop fuel p) (fun r => r.1.long.garbage = p.long.garbage)
  | 0, _ => Res.throw
  | fuel + 1, p => by
    unfold propagateLoop
    split
    · exact Res.pure rfl
    refine Res.bind res_propagateLiteral fun r h1 => ?_
    obtain ⟨p1, r⟩ := r
    cases r with
    | some c => exact Res.pure h1
    | none => exact Res.any fun _ => (res_propagateLoop fuel).mono fun _ h2 => h2.trans h1

theorem res_rebuild {b : Bool} : Res (enableWatchLists p b) (fun q => q.long = p.long) := by
  unfold enableWatchLists
  repeat first | exact Res.pure rfl | exact Res.throw | refine Res.any fun _ => ?_ | split

theorem res_propagate {ctx : Ctx} : Res (propagate ctx p) (fun r => r.2.1.long.garbage = p.long.garbage) := by
  unfold propagate
  refine Res.bind res_rebuild fun q hq => Res.bind (res_propagateLoop _) fun r h1 => ?_
  obtain ⟨p1, r⟩ := r
  rw [hq] at h1
  cases r with
  | some c => exact Res.pure h1
  | none => exact Res.any fun _ => Res.pure h1

namespace Analysis

theorem res_bumpLongClause {an : Analysis} :
    Res (bumpLongClause an p c) (fun r => r.2.long.garbage = p.long.garbage) := by
  unfold bumpLongClause
  exact Res.any fun _ => Res.any fun _ => Res.bind res_modHeader fun _ h => Res.pure h

theorem res_uipLoop : ∀ (k : Nat) {an : Analysis} {p : PropState} {cb : Callbacks},
    Res (uipLoop env k an p cb) (fun r => r.2.1.long.garbage = p.long.garbage)
  | 0, _, _, _ => Res.pure rfl
  | k + 1, an, p, cb => by
    unfold uipLoop
    refine Res.any fun flag => Res.any fun _ => ?_
    split
    · refine Res.any fun s => ?_
      split
      · exact Res.throw
      dsimp only
      split
      · exact Res.any fun _ => Res.pure rfl
      · refine Res.bind (P := fun r => r.2.long.garbage = p.long.garbage) ?_ fun r h1 => ?_
        · unfold bumpReason
          split
          · exact res_bumpLongClause
          · exact Res.pure rfl
        obtain ⟨an1, p1⟩ := r
        exact Res.any fun _ => Res.any fun _ => (res_uipLoop k).mono fun _ h2 => h2.trans h1
    · exact res_uipLoop k

theorem res_derive1uip {an : Analysis} {x : ConflictClause} {cb : Callbacks} :
    Res (derive1uip env an p x cb) (fun r => r.2.1.long.garbage = p.long.garbage) := by
  unfold derive1uip
  refine Res.bind (P := fun r => r.2.long.garbage = p.long.garbage) ?_ fun r h1 => ?_
  · cases x with
    | binary a b => exact Res.pure rfl
    | long c => exact res_bumpLongClause
  obtain ⟨an1, p1⟩ := r
  refine Res.any fun _ => Res.any fun r => Res.bind (res_uipLoop _) fun r h2 => ?_
  exact Res.any fun _ => Res.pure (h2.trans h1)

end Analysis

theorem res_addClauseVerbatim {ctx : Ctx} {h : LongHeader} {ls : List Lit} :
    Res (addClauseVerbatim ctx p h ls) (fun r => r.2.1.long.garbage = p.long.garbage) := by
  match ls with
  | [] => exact Res.pure rfl
  | [a] =>
    simp only [addClauseVerbatim]
    refine Res.any fun b => ?_
    split
    · exact Res.pure rfl
    · exact Res.bind res_assignUnit fun p1 h1 => Res.pure (by rw [h1])
  | [a, b] =>
    simp only [addClauseVerbatim]
    exact Res.any fun _ => Res.pure rfl
  | a :: b :: d :: ls =>
    simp only [addClauseVerbatim]
    refine Res.bind (P := fun r => ∀ x, r = some x → x.1.garbage = p.long.garbage) ?_ fun r hr => ?_
    · unfold Long.add Arena.addClause
      refine Res.any fun _ => ?_
      dsimp only
      split
      · exact Res.pure (by simp)
      · exact Res.pure (by simp)
    · match r with
      | none => exact Res.throw
      | some (long, r) => exact Res.any fun _ => Res.pure (hr _ rfl)

theorem res_backtrack {level : Nat} {cb : Callbacks} :
    Res (backtrackToLevel p level cb) (fun r => r.1.long = p.long) := by
  unfold backtrackToLevel
  repeat first | exact Res.pure rfl | exact Res.throw | refine Res.any fun _ => ?_ | split

theorem res_analyzeConflict {ctx : Ctx} {an : Analysis} {x : ConflictClause} {cb : Callbacks} :
    Res (Analysis.analyzeConflict env ctx an p x cb) (fun r => r.2.2.1.long.garbage = p.long.garbage) := by
  unfold Analysis.analyzeConflict
  refine Res.any fun _ => Res.bind Analysis.res_derive1uip fun r h1 => ?_
  obtain ⟨an1, p1, cb1⟩ := r
  refine Res.any fun r => ?_
  obtain ⟨an2, level⟩ := r
  refine Res.bind res_backtrack fun r h2 => ?_
  obtain ⟨p2, cb2⟩ := r
  refine Res.bind (P := fun r => r.2.2.long.garbage = p2.long.garbage) ?_ fun r h3 => Res.pure ?_
  · unfold Analysis.learnAndAssign
    refine Res.any fun _ => Res.any fun r => ?_
    obtain ⟨an3, h⟩ := r
    refine Res.bind res_addClauseVerbatim fun r h3 => ?_
    obtain ⟨ctx', p3, added⟩ := r
    cases added with
    | empty => exact Res.pure h3
    | unit _ => exact Res.pure h3
    | binary _ b => exact Res.any fun _ => Res.bind res_assign fun p4 h4 => Res.pure (by simp only; rw [h4]; exact h3)
    | long c => exact Res.any fun _ => Res.bind res_assign fun p4 h4 => Res.pure (by simp only; rw [h4]; exact h3)
  · exact h3.trans ((congrArg Arena.garbage h2).trans h1)

theorem res_assignDecision : Res (p.assignDecision l) (fun p' => p'.long = p.long) := by
  unfold PropState.assignDecision
  refine Res.any fun _ => Res.any fun _ => ?_
  exact (res_assignUnit).mono fun _ h => h

end

/-! ## Counting -/

/-- The work of garbage collection: the number of collections, the number of words copied, and the number of trail entries,
watch lists and watches visited. -/
abbrev GcWork := Nat × Nat × Nat

/-- `Arena.gcLoop`, with the number of words copied. -/
def Arena.gcLoopT (hl : Nat) : Nat → List Word → Option Nat → Nat → Nat → List Gap →
    M (Nat × List Word × Nat × Nat × List Gap)
  | 0, _, _, _, _, _ => throw .fuel
  | fuel + 1, buf, read, write, expected, gaps =>
    match read with
    | none => pure (0, buf, write, expected, gaps)
    | some clause => do
      let read' ← nextClause hl ⟨buf, 0⟩ (some clause)
      let len ← clauseLen hl ⟨buf, 0⟩ clause
      let storage := len + hl + 1
      debugM (clause == expected || decide (write ≤ clause))
      let gaps' := if clause ≠ expected then
        gaps ++ [⟨expected % 2 ^ 32, clause % 2 ^ 32, (clause - write) % 2 ^ 32⟩] else gaps
      let buf' ← copyWithin buf clause storage write
      let (t, r) ← gcLoopT hl fuel buf' read' (write + storage) (clause + storage) gaps'
      pure (storage + t, r)

/-- `Arena.collectGarbage`, with the number of words copied. -/
def Arena.collectGarbageT (hl : Nat) (a : Arena) : M (Nat × Arena × List Gap) := do
  let read ← nextClause hl a none
  let (t, buf, write, expected, gaps) ← gcLoopT hl (a.buffer.length + 1) a.buffer read 0 0 []
  let readOffset := buf.length
  debugM (readOffset == expected || decide (write ≤ readOffset))
  let gaps' := if readOffset ≠ expected then
    gaps ++ [⟨expected % 2 ^ 32, readOffset % 2 ^ 32, (readOffset - write) % 2 ^ 32⟩] else gaps
  pure (t, ⟨buf.take write, 0⟩, gaps')

/-- `Trail.updateSteps`, with the number of entries. -/
def Trail.updateStepsT (gaps : List Arena.Gap) : List Step → M (Nat × List Step)
  | [] => pure (0, [])
  | s :: ss => do
    let s' ← match s.reason with
      | .long c => do
        match ← Arena.gapsUpdate gaps c with
        | some c' => pure { s with reason := .long c' }
        | none => throw .panic
      | _ => pure s
    let (t, ss') ← updateStepsT gaps ss
    pure (1 + t, s' :: ss')

/-- `Watches.updateList`, with the number of watches. -/
def Watches.updateListT (gaps : List Arena.Gap) : List Watch → M (Nat × List Watch)
  | [] => pure (0, [])
  | w :: ws => do
    let r ← Arena.gapsUpdate gaps w.clause
    let (t, ws') ← updateListT gaps ws
    match r with
    | some c => pure (1 + t, { w with clause := c } :: ws')
    | none => pure (1 + t, ws')

/-- `Watches.updateAll`, with the number of lists and watches. -/
def Watches.updateAllT (gaps : List Arena.Gap) : List (List Watch) → M (Nat × List (List Watch))
  | [] => pure (0, [])
  | l :: ls => do
    let (t1, l') ← updateListT gaps l
    let (t2, ls') ← updateAllT gaps ls
    pure (1 + t1 + t2, l' :: ls')

/-- `collectGarbageNow`, with the work done. -/
def collectGarbageNowT (p : PropState) : M (GcWork × PropState) :=
  if p.long.buffer.length < 2 ^ 32 then do
    let (w, a, gaps) ← Arena.collectGarbageT Long.hl p.long
    let (t1, steps) ← Trail.updateStepsT gaps p.trail.steps
    debugM p.watches.enabled
    let (t2, byLit) ← Watches.updateAllT gaps p.watches.byLit
    pure ((1, w, t1 + t2), { p with
      long := a
      trail := { p.trail with steps := steps }
      watches := { p.watches with byLit := byLit } })
  else throw .tooBig

/-- `collectGarbage`, with the work done. -/
def collectGarbageT (p : PropState) : M (GcWork × PropState) :=
  if Arena.shouldCollectGarbage p.long then collectGarbageNowT p else pure (0, p)

section
variable {gaps : List Arena.Gap}

theorem Arena.gcLoopT_erase (hl : Nat) : ∀ (fuel : Nat) (buf : List Word) (read : Option Nat) (write expected : Nat)
    (gaps : List Arena.Gap),
    Except.map Prod.snd (gcLoopT hl fuel buf read write expected gaps) = gcLoop hl fuel buf read write expected gaps
  | 0, _, _, _, _, _ => rfl
  | fuel + 1, buf, read, write, expected, gaps => by
    unfold gcLoopT gcLoop
    cases read with
    | none => rfl
    | some c =>
      simp only [map_snd_bind]
      refine bind_congr fun _ => bind_congr fun _ => bind_congr fun _ => bind_congr fun _ => ?_
      rw [← gcLoopT_erase hl fuel]
      generalize gcLoopT hl fuel _ _ _ _ _ = x
      cases x <;> rfl

theorem Arena.collectGarbageT_erase (hl : Nat) (a : Arena) :
    Except.map Prod.snd (collectGarbageT hl a) = collectGarbage hl a := by
  unfold collectGarbageT collectGarbage
  simp only [map_snd_bind]
  refine bind_congr fun _ => ?_
  rw [← gcLoopT_erase, bind_map_snd]
  rfl

theorem Trail.updateStepsT_erase : ∀ (ss : List Step),
    Except.map Prod.snd (updateStepsT gaps ss) = updateSteps gaps ss
  | [] => rfl
  | s :: ss => by
    have key : ∀ x : Step, Except.map Prod.snd (do
        let (t, ss') ← updateStepsT gaps ss
        pure (1 + t, x :: ss')) = (do
        let ss' ← updateSteps gaps ss
        pure (x :: ss')) := by
      intro x
      rw [← updateStepsT_erase ss, bind_map_snd, map_snd_bind]
      rfl
    unfold updateStepsT updateSteps
    cases s.reason with
    | long c =>
      simp only [map_snd_bind]
      refine bind_congr fun x => ?_
      cases x with
      | some c => exact key _
      | none => rfl
    | _ => exact key s

theorem Watches.updateListT_erase : ∀ (ws : List Watch),
    Except.map Prod.snd (updateListT gaps ws) = updateList gaps ws
  | [] => rfl
  | w :: ws => by
    unfold updateListT updateList
    simp only [map_snd_bind]
    refine bind_congr fun r => ?_
    rw [← updateListT_erase ws, bind_map_snd]
    refine bind_congr fun x => ?_
    cases r <;> rfl

theorem Watches.updateAllT_erase : ∀ (ws : List (List Watch)),
    Except.map Prod.snd (updateAllT gaps ws) = updateAll gaps ws
  | [] => rfl
  | w :: ws => by
    unfold updateAllT updateAll
    simp only [map_snd_bind]
    rw [← updateListT_erase w, bind_map_snd]
    refine bind_congr fun r => ?_
    rw [← updateAllT_erase ws, bind_map_snd]
    rfl

theorem collectGarbageNowT_erase (p : PropState) : Except.map Prod.snd (collectGarbageNowT p) = collectGarbageNow p := by
  unfold collectGarbageNowT collectGarbageNow
  split
  · simp only [map_snd_bind]
    rw [← Arena.collectGarbageT_erase, bind_map_snd]
    refine bind_congr fun x => ?_
    rw [← Trail.updateStepsT_erase, bind_map_snd]
    refine bind_congr fun _ => bind_congr fun _ => ?_
    rw [← Watches.updateAllT_erase, bind_map_snd]
    rfl
  · rfl

theorem collectGarbageT_erase (p : PropState) : Except.map Prod.snd (collectGarbageT p) = collectGarbage p := by
  unfold collectGarbageT collectGarbage
  split
  · exact collectGarbageNowT_erase p
  · rfl

theorem Arena.gcLoopT_words (hl : Nat) : ∀ (fuel : Nat) {buf buf' : List Word} {read : Option Nat}
    {write write' expected expected' t : Nat} {gaps gaps' : List Arena.Gap}, write ≤ buf.length →
    gcLoopT hl fuel buf read write expected gaps = .ok (t, buf', write', expected', gaps') →
    write' = write + t ∧ write' ≤ buf'.length
  | 0, _, _, _, _, _, _, _, _, _, _, _, e => by cases e
  | fuel + 1, buf, buf', read, write, write', expected, expected', t, gaps, gaps', hw, e => by
    unfold gcLoopT at e
    cases read with
    | none => cases e; exact ⟨rfl, hw⟩
    | some c =>
      obtain ⟨_, _, e⟩ := bind_eq_ok.1 e
      obtain ⟨len, _, e⟩ := bind_eq_ok.1 e
      obtain ⟨_, _, e⟩ := bind_eq_ok.1 e
      obtain ⟨b, e1, e⟩ := bind_eq_ok.1 e
      obtain ⟨⟨t1, r⟩, e2, e⟩ := bind_eq_ok.1 e
      cases e
      unfold copyWithin at e1
      obtain ⟨_, h1, e1⟩ := bind_eq_ok.1 e1
      obtain ⟨_, h2, e1⟩ := bind_eq_ok.1 e1
      cases e1
      simp only [assertM] at h1 h2
      split at h1
      · split at h2
        · rename_i h3 h4
          simp only [decide_eq_true_eq] at h3 h4
          obtain ⟨g1, g2⟩ := gcLoopT_words hl fuel (by
            simp only [List.length_append, List.length_take, List.length_drop]
            omega) e2
          exact ⟨by omega, g2⟩
        · cases h2
      · cases h1

theorem Trail.updateStepsT_count : ∀ (ss : List Step) {t : Nat} {ss' : List Step},
    updateStepsT gaps ss = .ok (t, ss') → t = ss.length
  | [], t, ss', e => by cases e; rfl
  | s :: ss, t, ss', e => by
    have key : ∀ x : Step, (do
        let (t, ss') ← updateStepsT gaps ss
        pure (1 + t, x :: ss')) = .ok (t, ss') → t = (s :: ss).length := by
      intro x e
      obtain ⟨⟨t1, _⟩, e1, e⟩ := bind_eq_ok.1 e
      cases e
      have := updateStepsT_count ss e1
      simp only [List.length_cons]
      omega
    unfold updateStepsT at e
    simp only at e
    split at e
    · obtain ⟨x, _, e⟩ := bind_eq_ok.1 e
      cases x with
      | some c => exact key _ e
      | none => cases e
    · exact key _ e

theorem Watches.updateListT_count : ∀ (ws : List Watch) {t : Nat} {ws' : List Watch},
    updateListT gaps ws = .ok (t, ws') → t = ws.length
  | [], t, ws', e => by cases e; rfl
  | w :: ws, t, ws', e => by
    unfold updateListT at e
    obtain ⟨r, _, e⟩ := bind_eq_ok.1 e
    obtain ⟨⟨t1, _⟩, e1, e⟩ := bind_eq_ok.1 e
    have := updateListT_count ws e1
    simp only [List.length_cons]
    cases r <;> cases e <;> omega

theorem Watches.updateAllT_count : ∀ (ws : List (List Watch)) {t : Nat} {ws' : List (List Watch)},
    updateAllT gaps ws = .ok (t, ws') → t = ws.length + (ws.map List.length).sum
  | [], t, ws', e => by cases e; rfl
  | w :: ws, t, ws', e => by
    unfold updateAllT at e
    obtain ⟨⟨t1, _⟩, e1, e⟩ := bind_eq_ok.1 e
    obtain ⟨⟨t2, _⟩, e2, e⟩ := bind_eq_ok.1 e
    cases e
    have h1 := updateListT_count w e1
    have h2 := updateAllT_count ws e2
    simp only [List.length_cons, List.map_cons, List.sum_cons]
    omega

end

section
variable {env : Env} {F : List (List Lit)} {s s' s0 : Solver} {p p' : PropState} {n : Nat} {S : List LC}
  {N D : Nat} {w t : GcWork} {cs : List (List Lit)}

/-- The work of a collection. -/
theorem collectGarbageNowT_work (h : PInv n S p) (hc : Long.clauses p.long = .ok cs)
    (e : collectGarbageNowT p = .ok (t, p')) : collectGarbageNow p = .ok p' ∧ p'.long.garbage = 0 ∧
      p'.long.buffer.length = neededWords cs ∧
      t = (1, neededWords cs,
        p.trail.steps.length + (p.watches.byLit.length + (p.watches.byLit.map List.length).sum)) := by
  have e0 : collectGarbageNow p = .ok p' := by rw [← collectGarbageNowT_erase, e]; rfl
  obtain ⟨h1, h2⟩ := collectGarbageNow_long h e0
  obtain ⟨S', q⟩ := (collectGarbageNow_spec h).ok_elim e0
  have h3 := q.inv.rep.needed
  rw [hc, q.inv.rep.clauses] at h2
  rw [Except.ok.inj h2, h1, Nat.zero_add] at h3
  refine ⟨e0, h1, h3.symm, ?_⟩
  rw [h3]
  unfold collectGarbageNowT at e
  split at e
  · obtain ⟨⟨w, a, gaps⟩, e1, e⟩ := bind_eq_ok.1 e
    obtain ⟨⟨t1, ss⟩, e2, e⟩ := bind_eq_ok.1 e
    obtain ⟨_, _, e⟩ := bind_eq_ok.1 e
    obtain ⟨⟨t2, ws⟩, e3, e⟩ := bind_eq_ok.1 e
    cases e
    rw [Trail.updateStepsT_count _ e2, Watches.updateAllT_count _ e3]
    unfold Arena.collectGarbageT at e1
    obtain ⟨_, _, e1⟩ := bind_eq_ok.1 e1
    obtain ⟨⟨u, buf, write, ex, gs⟩, e4, e1⟩ := bind_eq_ok.1 e1
    obtain ⟨_, _, e1⟩ := bind_eq_ok.1 e1
    cases e1
    obtain ⟨g1, g2⟩ := Arena.gcLoopT_words _ _ (Nat.zero_le _) e4
    simp only [List.length_take]
    rw [Nat.min_eq_left g2, g1, Nat.zero_add]
  · cases e

theorem StepCase.garbage {ctx : Ctx} {search : Search} {r : Option Bool} (h : StepCase env F s ctx search r)
    (hu : s.search.prop.unsat = false) :
    ∃ p1, collectGarbage s.search.prop = .ok p1 ∧ search.prop.long.garbage = p1.long.garbage := by
  cases h with
  | already h => rw [hu] at h; cases h
  | fail hp => exact ⟨_, hp.gc, res_propagate _ hp.prop⟩
  | learn hp h0 e => exact ⟨_, hp.gc, (res_analyzeConflict _ e).trans (res_propagate _ hp.prop)⟩
  | decide hp _ _ e => exact ⟨_, hp.gc, by rw [res_assignDecision _ e]; exact res_propagate _ hp.prop⟩
  | sat hp => exact ⟨_, hp.gc, res_propagate _ hp.prop⟩

end

/-! ## Runs -/

/-- A run from a state, with the number of search steps (before unsatisfiability is known), the number of words of the
clauses that reductions removed, and the work of garbage collection. -/
inductive Solver.Collections (env : Env) (s0 : Solver) : Solver → Nat → Nat → GcWork → Prop
  | start : Collections env s0 s0 0 0 0
  | restart {s s' : Solver} {N D : Nat} {w : GcWork} : Collections env s0 s N D w → s.maybeRestart = .ok s' →
      Collections env s0 s' N D w
  | reduce {s s' : Solver} {N D : Nat} {w : GcWork} {cs cs' : List (List Lit)} : Collections env s0 s N D w →
      s.maybeReduce env = .ok s' → Long.clauses s.search.prop.long = .ok cs →
      Long.clauses s'.search.prop.long = .ok cs' →
      Collections env s0 s' N (D + (neededWords cs - neededWords cs')) w
  | done {s : Solver} {N D : Nat} {w : GcWork} {ctx : Ctx} {search : Search} {r : Option Bool} :
      Collections env s0 s N D w → s.search.prop.unsat = true →
      searchStep env s.ctx s.search = .ok (ctx, search, r) →
      Collections env s0 { s with ctx := ctx, search := search } N D w
  | step {s : Solver} {N D : Nat} {w t : GcWork} {p1 : PropState} {ctx : Ctx} {search : Search} {r : Option Bool} :
      Collections env s0 s N D w → s.search.prop.unsat = false → collectGarbageT s.search.prop = .ok (t, p1) →
      searchStep env s.ctx s.search = .ok (ctx, search, r) →
      Collections env s0 { s with ctx := ctx, search := search } (N + 1) D (w + t)

section
variable {env : Env} {F : List (List Lit)} {s s' s0 : Solver} {p p' : PropState} {n : Nat} {S : List LC}
  {N D : Nat} {w t : GcWork} {cs : List (List Lit)}

theorem Solver.Collections.reachable (h0 : Solver.Reachable env F s0) (h : Solver.Collections env s0 s N D w) :
    Solver.Reachable env F s := by
  induction h with
  | start => exact h0
  | restart _ e ih => exact ih.restart e
  | reduce _ e _ _ ih => exact ih.reduce e
  | done _ _ e ih => exact ih.step e
  | step _ _ _ e ih => exact ih.step e

/-- The counted collection does what the collection in a step does. -/
theorem C73_counted : collectGarbage p = .ok p' ↔ ∃ t, collectGarbageT p = .ok (t, p') := by
  rw [← collectGarbageT_erase]
  constructor
  · exact fun e => map_snd_eq_ok e
  · rintro ⟨t, e⟩; rw [e]; rfl

/-- Every run has these numbers. -/
theorem C73_numbers (h : Solver.Reachable env F s) :
    ∃ s0 N D w, Solver.Input env F s0 ∧ Solver.Collections env s0 s N D w := by
  induction h with
  | @input s h => exact ⟨s, 0, 0, 0, h, .start⟩
  | restart _ e ih => obtain ⟨s0, N, D, w, hi, ih⟩ := ih; exact ⟨s0, N, D, w, hi, ih.restart e⟩
  | @reduce s s' h e ih =>
    obtain ⟨s0, N, D, w, hi, ih⟩ := ih
    obtain ⟨L, S, h1⟩ := h.inv
    obtain ⟨L', S', h2⟩ := (h.reduce e).inv
    exact ⟨s0, N, _, w, hi, ih.reduce e h1.prop.rep.clauses h2.prop.rep.clauses⟩
  | @step s ctx search r h e ih =>
    obtain ⟨s0, N, D, w, hi, ih⟩ := ih
    by_cases hu : s.search.prop.unsat = true
    · exact ⟨s0, N, D, w, hi, ih.done hu e⟩
    · have hu : s.search.prop.unsat = false := by simpa using hu
      obtain ⟨p1, e1, _⟩ := (searchStep_cases h e).garbage hu
      obtain ⟨t, e1⟩ := C73_counted.1 e1
      exact ⟨s0, N + 1, D, _, hi, ih.step hu e1 e⟩

/-- The words needed for the clauses of a state with a long input clause. -/
theorem Solver.Reachable.needed_pos (h : Solver.Reachable env F s) {c : List Lit} (hc : c ∈ F) (h3 : 2 < c.length) :
    0 < s.words := by
  obtain ⟨L, S, hi⟩ := h.inv
  have h1 : (c : Multiset Lit) ∈ liveIrr S := by
    rw [hi.db.irr]
    refine Multiset.mem_filter.2 ⟨?_, by simpa using Nat.succ_le_of_lt h3⟩
    exact Multiset.mem_coe.2 (List.mem_map.2 ⟨c, hc, rfl⟩)
  obtain ⟨_, e, he, hl, _⟩ := card_of_live hi.prop.long (.inl h1)
  have h2 := hi.prop.rep.needed
  have h4 : e.lits ∈ (S.filter LC.live).map LC.lits :=
    List.mem_map.2 ⟨e, List.mem_filter.2 ⟨he, hl⟩, rfl⟩
  have h5 : e.lits.length + 3 ≤ neededWords ((S.filter LC.live).map LC.lits) :=
    List.single_le_sum (by simp) _ (List.mem_map.2 ⟨_, h4, rfl⟩)
  unfold Solver.words
  omega

theorem Solver.Input.garbage (h : Solver.Input env F s) : s.search.prop.long.garbage = 0 := by
  induction h with
  | new => rfl
  | proof _ ih => exact ih
  | @add F s s' c h hc e ih =>
    unfold Solver.addClause at e
    obtain ⟨s1, e1, e⟩ := bind_eq_ok.1 e
    obtain ⟨⟨ctx, p, r⟩, e2, e⟩ := bind_eq_ok.1 e
    cases e
    refine (res_addClauseVerbatim _ e2).trans ?_
    unfold Solver.ensureVars at e1
    split at e1
    · unfold Solver.resize at e1
      obtain ⟨_, _, e1⟩ := bind_eq_ok.1 e1
      cases e1
      exact ih
    · cases e1; exact ih

/-- What a step of the run does with the garbage. -/
theorem step_work (h : Solver.Reachable env F s) (hu : s.search.prop.unsat = false) {p1 : PropState}
    {ctx : Ctx} {search : Search} {r : Option Bool} (e1 : collectGarbageT s.search.prop = .ok (t, p1))
    (e : searchStep env s.ctx s.search = .ok (ctx, search, r)) :
    (s.search.prop.long.garbage * 2 < s.words ∧ t = 0 ∧
      search.prop.long.garbage = s.search.prop.long.garbage) ∨
    (s.words ≤ s.search.prop.long.garbage * 2 ∧ search.prop.long.garbage = 0 ∧
      t = (1, s.words - s.search.prop.long.garbage, s.search.prop.trail.steps.length +
        (formulaVars F * 2 + (s.search.prop.watches.byLit.map List.length).sum))) := by
  obtain ⟨q, g1, g2⟩ := (searchStep_cases h e).garbage hu
  cases (C73_counted.2 ⟨t, e1⟩).symm.trans g1
  obtain ⟨L, S, hi⟩ := h.inv
  unfold collectGarbageT at e1
  unfold Solver.words
  split at e1
  · rename_i hs
    simp only [Arena.shouldCollectGarbage, decide_eq_true_eq, ge_iff_le] at hs
    obtain ⟨_, h1, h2, h3⟩ := collectGarbageNowT_work hi.prop hi.prop.rep.clauses e1
    refine .inr ⟨hs, g2.trans h1, ?_⟩
    have := hi.prop.rep.needed
    rw [h3, hi.prop.sized.wat]
    congr 2
    omega
  · rename_i hs
    simp only [Arena.shouldCollectGarbage, decide_eq_true_eq, ge_iff_le, not_le] at hs
    cases e1
    exact .inl ⟨hs, rfl, g2⟩

theorem StepCase.reductions {ctx : Ctx} {search : Search} {r : Option Bool} (h : StepCase env F s ctx search r) :
    ctx.search.reductions = s.ctx.search.reductions := by
  cases h with
  | already => rfl
  | fail hp => simp [Ctx.conflict, hp.search]
  | learn hp h0 e =>
    obtain ⟨_, _, _, _, _, _, A⟩ := hp.analyze h0 e
    rw [A.search]
    simp [Ctx.conflict, hp.search]
  | decide hp => simp [Ctx.decision, hp.search]
  | sat hp => rw [hp.search]

theorem maybeRestart_long (e : s.maybeRestart = .ok s') : s'.search.prop.long = s.search.prop.long := by
  unfold Solver.maybeRestart at e
  split at e
  · simp only at e
    obtain ⟨⟨ctx, search⟩, e1, e⟩ := bind_eq_ok.1 e
    cases e
    unfold restart at e1
    simp only at e1
    split at e1
    · obtain ⟨⟨p, cb⟩, e2, e1⟩ := bind_eq_ok.1 e1
      cases e1
      exact res_backtrack _ e2
    · cases e1; rfl
  · cases e; rfl

/-- C73: if some input clause has three or more literals, there is at most one collection per reduction, and collections copy
no more words than reductions remove. -/
theorem C73_run_partial (h0 : Solver.Input env F s0) (hF : ∃ c ∈ F, 2 < c.length)
    (h : Solver.Collections env s0 s N D w) : w.1 ≤ s.ctx.search.reductions ∧ w.2.1 ≤ D := by
  suffices h : w.1 + min 1 s.search.prop.long.garbage ≤ s.ctx.search.reductions ∧
      w.2.1 + s.search.prop.long.garbage ≤ D by omega
  obtain ⟨c, hc, h3⟩ := hF
  induction h with
  | start =>
    rw [h0.garbage]
    simp
  | @restart s s' N D w hr e ih =>
    have hr := hr.reachable (.input h0)
    have hg := maybeRestart_long e
    have hr : s'.ctx.search.reductions = s.ctx.search.reductions := by
      rcases C55_restart hr e with ⟨_, rfl⟩ | ⟨_, _, _, _, _, h, _⟩
      · rfl
      · exact h
    rw [hg, hr]
    exact ih
  | @reduce s s' N D w cs cs' hr e h1 h2 ih =>
    have hr := hr.reachable (.input h0)
    obtain ⟨_, S, hi⟩ := hr.inv
    obtain ⟨_, S', hi'⟩ := (hr.reduce e).inv
    have k1 := hi.prop.rep.needed
    have k2 := hi'.prop.rep.needed
    rw [hi.prop.rep.clauses] at h1
    rw [hi'.prop.rep.clauses] at h2
    rw [Except.ok.inj h1] at k1
    rw [Except.ok.inj h2] at k2
    have k3 : s'.search.prop.long.buffer.length = s.search.prop.long.buffer.length := maybeReduce_words e
    rcases C55_reduce hr e with ⟨_, rfl⟩ | ⟨_, _, _, h, _⟩
    · omega
    · omega
  | @done s N D w ctx search r hr hu e ih =>
    have hs := searchStep_cases (hr.reachable (.input h0)) e
    cases hs with
    | already => exact ih
    | fail hp => rw [hp.unsat] at hu; cases hu
    | learn hp => rw [hp.unsat] at hu; cases hu
    | decide hp => rw [hp.unsat] at hu; cases hu
    | sat hp => rw [hp.unsat] at hu; cases hu
  | @step s N D w t p1 ctx search r hr hu e1 e ih =>
    have hr := hr.reachable (.input h0)
    have hpos := hr.needed_pos hc h3
    have hred : ctx.search.reductions = s.ctx.search.reductions :=
      (searchStep_cases hr e).reductions
    simp only
    rw [hred]
    rcases step_work hr hu e1 e with ⟨k1, rfl, k3⟩ | ⟨k1, k2, rfl⟩
    · rw [k3]
      exact ih
    · rw [k2]
      simp only [Prod.fst_add, Prod.snd_add]
      omega

/-- Without long clauses and conflicts the arena is empty. -/
theorem Solver.Collections.empty (h0 : Solver.Input env F s0) (hF : ∀ c ∈ F, c.length ≤ 2)
    (h : Solver.Collections env s0 s N D w) (hc : s.ctx.search.conflicts = 0) : s.words = 0 := by
  have key : ∀ {s : Solver}, Solver.Reachable env F s → s.ctx.search.conflicts = 0 →
      s.words = s.search.prop.long.garbage := by
    intro s h hc
    obtain ⟨L, S, hi⟩ := h.inv
    have h1 := (C64_bounds h).2.2.2.2.2.2.1
    have h2 : (S.filter LC.live) = [] := by
      refine List.eq_nil_iff_forall_not_mem.2 fun e he => ?_
      obtain ⟨he, hl⟩ := List.mem_filter.1 he
      cases hr : e.hdr.redundant with
      | true =>
        have : e.cl ∈ liveRed S := Multiset.mem_coe.2 (List.mem_map.2 ⟨e, List.mem_filter.2 ⟨he, by simp [hl, hr]⟩, rfl⟩)
        have h3 := hi.stats.redundant
        rw [← hi.db.red] at h3
        have := Multiset.card_pos_iff_exists_mem.2 ⟨_, this⟩
        omega
      | false =>
        have : e.cl ∈ liveIrr S := Multiset.mem_coe.2 (List.mem_map.2 ⟨e, List.mem_filter.2 ⟨he, by simp [hl, hr]⟩, rfl⟩)
        rw [hi.db.irr] at this
        obtain ⟨h4, h5⟩ := Multiset.mem_filter.1 this
        obtain ⟨c, h6, h7⟩ := List.mem_map.1 (Multiset.mem_coe.1 h4)
        have := hF c h6
        rw [← h7] at h5
        simp only [Multiset.coe_card] at h5
        omega
    have h3 := hi.prop.rep.needed
    rw [h2] at h3
    unfold Solver.words
    rw [← h3]
    rfl
  rw [key (h.reachable (.input h0)) hc]
  induction h with
  | start => exact h0.garbage
  | @restart s s' N D w hr e ih =>
    rw [maybeRestart_long e]
    refine ih ?_
    rcases C55_restart (hr.reachable (.input h0)) e with ⟨_, rfl⟩ | ⟨_, _, _, h, _⟩
    · exact hc
    · exact h.symm.trans hc
  | @reduce s s' N D w cs cs' hr e _ _ ih =>
    have hr := hr.reachable (.input h0)
    have hc' : s.ctx.search.conflicts = 0 := by
      rcases C55_reduce hr e with ⟨_, rfl⟩ | ⟨_, _, _, _, _, h, _⟩
      · exact hc
      · exact h.symm.trans hc
    rw [← key (hr.reduce e) hc, maybeReduce_words e, key hr hc']
    exact ih hc'
  | @done s N D w ctx search r hr hu e ih =>
    have hs := searchStep_cases (hr.reachable (.input h0)) e
    cases hs with
    | already => exact ih hc
    | fail hp => rw [hp.unsat] at hu; cases hu
    | learn hp => rw [hp.unsat] at hu; cases hu
    | decide hp => rw [hp.unsat] at hu; cases hu
    | sat hp => rw [hp.unsat] at hu; cases hu
  | @step s N D w t p1 ctx search r hr hu e1 e ih =>
    have hr := hr.reachable (.input h0)
    have h1 := (searchStep_cases hr e).stats.2
    simp only at hc
    have h2 := ih (by omega)
    rcases step_work hr hu e1 e with ⟨_, _, k3⟩ | ⟨_, k2, _⟩
    · exact k3.trans h2
    · exact k2

/-- C73, the finding: without clauses of three or more literals, as long as there is no conflict, every search step runs a
collection.  There is nothing to copy, but each collection visits all watch lists. -/
theorem C73_every_step (h0 : Solver.Input env F s0) (hF : ∀ c ∈ F, c.length ≤ 2)
    (h : Solver.Collections env s0 s N D w) (hc : s.ctx.search.conflicts = 0) :
    w.1 = N ∧ w.2.1 = 0 ∧ N * (formulaVars F * 2) ≤ w.2.2 := by
  induction h with
  | start => simp
  | @restart s s' N D w hr e ih =>
    refine ih ?_
    rcases C55_restart (hr.reachable (.input h0)) e with ⟨_, rfl⟩ | ⟨_, _, _, h, _⟩
    · exact hc
    · exact h.symm.trans hc
  | @reduce s s' N D w cs cs' hr e _ _ ih =>
    refine ih ?_
    rcases C55_reduce (hr.reachable (.input h0)) e with ⟨_, rfl⟩ | ⟨_, _, _, _, _, h, _⟩
    · exact hc
    · exact h.symm.trans hc
  | @done s N D w ctx search r hr hu e ih =>
    have := (searchStep_cases (hr.reachable (.input h0)) e).stats.2
    simp only at hc
    exact ih (by omega)
  | @step s N D w t p1 ctx search r hr hu e1 e ih =>
    have h1 := (searchStep_cases (hr.reachable (.input h0)) e).stats.2
    simp only at hc
    obtain ⟨i1, i2, i3⟩ := ih (by omega)
    have h2 := hr.empty h0 hF (by omega)
    rcases step_work (hr.reachable (.input h0)) hu e1 e with ⟨k1, _, _⟩ | ⟨k1, _, rfl⟩
    · omega
    · simp only [Prod.fst_add, Prod.snd_add]
      refine ⟨by omega, by omega, ?_⟩
      rw [Nat.add_mul]
      omega

/-- The iterations of `solve()` without an answer are search steps. -/
theorem C73_steps : ∀ (k : Nat) {s1 s : Solver} {N D : Nat} {w : GcWork}, Solver.Reachable env F s0 →
    Solver.Collections env s0 s1 N D w → s1.solve env k = .ok (s, none) →
    ∃ D' w', Solver.Collections env s0 s (N + k) D' w'
  | 0, s1, s, N, D, w, _, h, e => by cases e; exact ⟨D, w, h⟩
  | k + 1, s1, s, N, D, w, h0, h, e => by
    unfold Solver.solve at e
    obtain ⟨⟨s2, r⟩, e1, e⟩ := bind_eq_ok.1 e
    unfold Solver.scheduleStep at e1
    obtain ⟨sa, ea, e1⟩ := bind_eq_ok.1 e1
    obtain ⟨sb, eb, e1⟩ := bind_eq_ok.1 e1
    obtain ⟨⟨ctx, search, r'⟩, ec, e1⟩ := bind_eq_ok.1 e1
    cases e1
    cases r with
    | some b => cases e
    | none =>
      have ha := h.restart ea
      obtain ⟨_, S, hi⟩ := (ha.reachable h0).inv
      have hrb := (ha.reachable h0).reduce eb
      obtain ⟨_, S', hi'⟩ := hrb.inv
      have hb := ha.reduce eb hi.prop.rep.clauses hi'.prop.rep.clauses
      have hu : sb.search.prop.unsat = false := by
        by_contra hu
        have hu : sb.search.prop.unsat = true := by simpa using hu
        unfold searchStep at ec
        rw [if_pos hu] at ec
        cases ec
      obtain ⟨p1, e2, _⟩ := (searchStep_cases hrb ec).garbage hu
      obtain ⟨t, e2⟩ := C73_counted.1 e2
      obtain ⟨D', w', h'⟩ := C73_steps k h0 (hb.step hu e2 ec) e
      exact ⟨D', w', by rw [Nat.add_comm k 1, ← Nat.add_assoc]; exact h'⟩

end

namespace Example

theorem load_input {F : List (List Int)} {s : Solver} (hF : ok F = true) (h : load F = .ok s) :
    Solver.Input env (cnf F) s := by
  have := Solver.Input.addClauses _ (.proof (.new (env := env))) (ok_valid hF) h
  simpa using this

/-- Eight binary clauses over sixteen variables. -/
def pairs : List (List Int) :=
  [[1, 2], [3, 4], [5, 6], [7, 8], [9, 10], [11, 12], [13, 14], [15, 16]]

end Example

/-- C73 fails without the hypothesis about the formula: for eight binary clauses there are seven collections in seven steps
and one reduction; they visit more than two hundred watch lists. -/
theorem C73_false : ¬ ∀ (env : Env) (F : List (List Lit)) (s0 s : Solver) (N D : Nat) (w : GcWork),
    Solver.Input env F s0 → Solver.Collections env s0 s N D w → w.1 ≤ s.ctx.search.reductions := by
  intro hall
  have h : (do
      let s0 ← Example.load Example.pairs
      let (s, r) ← s0.solve Example.env 7
      pure (s.ctx.search.conflicts, s.ctx.search.reductions, r) : M (Nat × Nat × Option Bool)) = .ok (0, 1, none) := by
    decide +kernel
  obtain ⟨s0, h1, h⟩ := bind_eq_ok.1 h
  obtain ⟨⟨s, r⟩, h2, h⟩ := bind_eq_ok.1 h
  have h := Except.ok.inj h
  simp only [Prod.mk.injEq] at h
  obtain ⟨k1, k2, k3⟩ := h
  subst k3
  have hi := Example.load_input (by decide +kernel) h1
  obtain ⟨D, w, hw⟩ := C73_steps 7 (.input hi) .start h2
  have h3 := (C73_every_step hi (by decide +kernel) hw k1).1
  have h4 := hall _ _ _ _ _ _ _ hi hw
  omega

/-- A run with a collection. -/
theorem Example.collection : (do
      let s0 ← (Solver.default Example.envReduce).addClauses (Example.cnf (Example.php 6 5))
      let (s, r) ← s0.solve Example.envReduce 56
      let s1 ← s.maybeRestart
      let s2 ← s1.maybeReduce Example.envReduce
      let (t, _) ← collectGarbageT s2.search.prop
      let _ ← searchStep Example.envReduce s2.ctx s2.search
      pure ([s2.ctx.search.reductions, s2.search.prop.long.garbage, s2.words, t.1, t.2.1, t.2.2],
        r, s2.search.prop.unsat) :
        M (List Nat × Option Bool × Bool)) = .ok ([23, 150, 294, 1, 144, 122], none, false) := by
  decide +kernel

/-- The hypotheses of C73 are met by a run with 23 reductions that ends with a collection: 150 of 294 words are freed, 144
are copied. -/
theorem C73_example : ∃ (s0 s2 s3 : Solver) (D : Nat) (w : GcWork) (p1 : PropState) (r : Option Bool),
    Solver.Input Example.envReduce (Example.cnf (Example.php 6 5)) s0 ∧
    (∃ c ∈ Example.cnf (Example.php 6 5), 2 < c.length) ∧
    Solver.Collections Example.envReduce s0 s2 56 D w ∧ s2.ctx.search.reductions = 23 ∧
    s2.search.prop.unsat = false ∧ s2.search.prop.long.garbage = 150 ∧ s2.words = 294 ∧
    collectGarbageT s2.search.prop = .ok ((1, 144, 122), p1) ∧
    searchStep Example.envReduce s2.ctx s2.search = .ok (s3.ctx, s3.search, r) ∧
    Solver.Collections Example.envReduce s0 { s2 with ctx := s3.ctx, search := s3.search } 57 D (w + (1, 144, 122)) := by
  have h := Example.collection
  obtain ⟨s0, h1, h⟩ := bind_eq_ok.1 h
  obtain ⟨⟨s, r⟩, h2, h⟩ := bind_eq_ok.1 h
  obtain ⟨s1, h3, h⟩ := bind_eq_ok.1 h
  obtain ⟨s2, h4, h⟩ := bind_eq_ok.1 h
  obtain ⟨⟨⟨t1, t2, t3⟩, p1⟩, h5, h⟩ := bind_eq_ok.1 h
  obtain ⟨⟨ctx, search, r'⟩, h6, h⟩ := bind_eq_ok.1 h
  have h := Except.ok.inj h
  simp only [Prod.mk.injEq, List.cons.injEq, and_true] at h
  obtain ⟨⟨k1, k2, k3, rfl, rfl, rfl⟩, rfl, k7⟩ := h
  have hi : Solver.Input Example.envReduce (Example.cnf (Example.php 6 5)) s0 := by
    have := Solver.Input.addClauses _ (.new (env := Example.envReduce))
      (Example.ok_valid (F := Example.php 6 5) (by decide +kernel)) h1
    simpa using this
  obtain ⟨D, w, hw⟩ := C73_steps 56 (.input hi) .start h2
  have hw := hw.restart h3
  have hr := hw.reachable (.input hi)
  obtain ⟨_, _, i1⟩ := hr.inv
  obtain ⟨_, _, i2⟩ := (hr.reduce h4).inv
  have hw := hw.reduce h4 i1.prop.rep.clauses i2.prop.rep.clauses
  refine ⟨s0, s2, ⟨ctx, search, s2.schedule⟩, _, w, p1, r', hi, ?_, by simpa using hw, k1, k7, k2, k3, h5, h6, ?_⟩
  · decide +kernel
  · have := hw.step k7 h5 h6
    simpa using this

end Starlit
