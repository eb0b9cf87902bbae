import Verif.Props.AnalysisCost
import Verif.Props.Effort
import Verif.Props.GcCost

/-!
# C78: taking variables out of the decision heap is paid for by assignments that were taken back

`pop_decision_var` again, with the number of variables taken out of the heap and the number of
iterations of the loop of `pop_max`, and runs with the sums of these numbers.
-/

namespace Starlit

open Vsids

/-! ## Counting -/

/-- The loop of `pop_decision_var` (`/repo/starlit/src/search/vsids.rs:112-121`) with the number of
variables taken out of the heap and the number of iterations of the loop in `pop_max`. -/
def Vsids.popLoopT (values : PartialAssignment) : Nat → Heap Nat → M ((Nat × Nat) × Option Nat × Heap Nat)
  | 0, _ => throw .fuel
  | fuel + 1, h => do
    match ← h.popMaxT with
    | (k, none, h) => pure ((0, k), none, h)
    | (k, some x, h) => do
      if ← values.isAssigned x then do
        let (t, r) ← popLoopT values fuel h
        pure ((t.1 + 1, t.2 + k), r)
      else pure ((1, k), some x, h)

/-- `pop_decision_var` (`/repo/starlit/src/search/vsids.rs:112-121`). -/
def Vsids.popDecisionVarT (v : Vsids) (values : PartialAssignment) : M ((Nat × Nat) × Option Nat × Vsids) := do
  let (t, r, h) ← popLoopT values (v.activity.heap.length + 1) v.activity
  pure (t, r, { v with activity := h })

/-- The length of the longest common prefix. -/
def commonPrefix : List Step → List Step → Nat
  | a :: as, b :: bs => if a = b then commonPrefix as bs + 1 else 0
  | _, _ => 0

/-- The number of assignments on the trail `old` that are no longer on the trail `new`. -/
def takenBack (old new : List Step) : Nat := old.length - commonPrefix old new

/-- The runs from `s0`, with the number of variables taken out of the decision heap, the number of
iterations of the loop of `pop_max`, and the number of assignments that were taken back. -/
inductive Solver.Picks (env : Env) (s0 : Solver) : Solver → Nat → Nat → Nat → Prop
  | start : Picks env s0 s0 0 0 0
  | restart {s s' : Solver} {k t u : Nat} : Picks env s0 s k t u → s.maybeRestart = .ok s' →
      Picks env s0 s' k t (u + takenBack s.search.prop.trail.steps s'.search.prop.trail.steps)
  | reduce {s s' : Solver} {k t u : Nat} : Picks env s0 s k t u → s.maybeReduce env = .ok s' →
      Picks env s0 s' k t u
  | done {s : Solver} {k t u : Nat} {ctx : Ctx} {search : Search} {r : Option Bool} :
      Picks env s0 s k t u → s.search.prop.unsat = true →
      searchStep env s.ctx s.search = .ok (ctx, search, r) →
      Picks env s0 { s with ctx := ctx, search := search } k t u
  | conflict {s : Solver} {k t u : Nat} {p1 p : PropState} {ctx1 ctx : Ctx} {c : ConflictClause}
      {search : Search} {r : Option Bool} :
      Picks env s0 s k t u → s.search.prop.unsat = false →
      collectGarbage s.search.prop = .ok p1 → propagate s.ctx p1 = .ok (ctx1, p, some c) →
      searchStep env s.ctx s.search = .ok (ctx, search, r) →
      Picks env s0 { s with ctx := ctx, search := search } k t
        (u + takenBack p.trail.steps search.prop.trail.steps)
  | pick {s : Solver} {k t u k' t' : Nat} {p1 p : PropState} {ctx1 ctx : Ctx} {x : Option Nat} {v : Vsids}
      {search : Search} {r : Option Bool} :
      Picks env s0 s k t u → s.search.prop.unsat = false →
      collectGarbage s.search.prop = .ok p1 → propagate s.ctx p1 = .ok (ctx1, p, none) →
      s.search.cb.vsids.popDecisionVarT p.values = .ok ((k', t'), x, v) →
      searchStep env s.ctx s.search = .ok (ctx, search, r) →
      Picks env s0 { s with ctx := ctx, search := search } (k + k') (t + t') u

/-! ## The counted functions are those of the model -/

theorem Vsids.popLoopT_erase (values : PartialAssignment) : ∀ (fuel : Nat) (h : Heap Nat),
    Except.map Prod.snd (popLoopT values fuel h) = popLoop values fuel h
  | 0, _ => rfl
  | fuel + 1, h => by
    unfold popLoopT popLoop
    rw [← Heap.popMaxT_erase, bind_map_snd, map_snd_bind]
    congr 1; funext ⟨k, x, h1⟩
    cases x with
    | none => rfl
    | some x =>
      simp only [map_snd_bind]
      congr 1; funext b
      cases b with
      | false => rfl
      | true =>
        simp only [if_true, map_snd_bind]
        rw [← popLoopT_erase values fuel h1]
        cases popLoopT values fuel h1 <;> rfl

theorem Vsids.popDecisionVarT_erase (v : Vsids) (values : PartialAssignment) :
    Except.map Prod.snd (v.popDecisionVarT values) = v.popDecisionVar values := by
  unfold popDecisionVarT popDecisionVar
  rw [← popLoopT_erase, bind_map_snd, map_snd_bind]
  rfl

/-! ## The size of the heap -/

namespace Heap
variable {V : Type} [LinearOrder V]

theorem leavesLoopT_length (value : V) (fuel : Nat) : ∀ {h h' : Heap V} {pos t : Nat},
    leavesLoopT value fuel h pos = .ok (t, h') → h'.heap.length = h.heap.length := by
  induction fuel with
  | zero => intro h h' pos t e; cases e
  | succ fuel ih =>
    intro h h' pos t e
    unfold leavesLoopT at e
    obtain ⟨spos, _, e⟩ := bind_eq_ok.1 e
    split at e
    · cases e; rfl
    · obtain ⟨h1, e1, e⟩ := bind_eq_ok.1 e
      obtain ⟨⟨k, h2⟩, e2, e⟩ := bind_eq_ok.1 e
      cases e
      rw [ih e2, swap_length e1]

theorem popMaxT_length {h h' : Heap V} {t : Nat} {r : Option Nat} (e : h.popMaxT = .ok (t, r, h')) :
    (r = none → h'.heap.length = h.heap.length) ∧ (r ≠ none → h'.heap.length + 1 = h.heap.length) := by
  unfold popMaxT at e
  split at e
  · cases e; simp
  · rename_i index rest hh
    have hp : 0 < h.heap.length := by rw [hh]; simp
    simp only at e
    split at e
    · obtain ⟨h2, e2, e⟩ := bind_eq_ok.1 e
      cases e
      have h1 := popLast_length e2
      exact ⟨by simp, fun _ => by simp only; omega⟩
    · obtain ⟨h2, e2, e⟩ := bind_eq_ok.1 e
      obtain ⟨h3, e3, e⟩ := bind_eq_ok.1 e
      obtain ⟨⟨k, h4⟩, e4, e⟩ := bind_eq_ok.1 e
      cases e
      unfold moveTowardsLeavesT at e4
      obtain ⟨v, _, e4⟩ := bind_eq_ok.1 e4
      have h1 := leavesLoopT_length _ _ e4
      rw [popLast_length e3, swap_length e2] at h1
      exact ⟨by simp, fun _ => by simp only; omega⟩

theorem popMaxT_none {h h' : Heap V} {t : Nat} (e : h.popMaxT = .ok (t, none, h')) : t = 0 := by
  unfold popMaxT at e
  split at e
  · cases e; rfl
  · simp only at e
    split at e
    · obtain ⟨h2, e2, e⟩ := bind_eq_ok.1 e
      cases e
    · obtain ⟨h2, e2, e⟩ := bind_eq_ok.1 e
      obtain ⟨h3, e3, e⟩ := bind_eq_ok.1 e
      obtain ⟨⟨k, h4⟩, e4, e⟩ := bind_eq_ok.1 e
      cases e

theorem enqueueT_length_le {h h' : Heap V} {x t : Nat} (e : h.enqueueT x = .ok (t, h')) :
    h'.heap.length ≤ h.heap.length + 1 := by
  unfold enqueueT at e
  obtain ⟨pos, _, e⟩ := bind_eq_ok.1 e
  split at e
  · cases e; omega
  · obtain ⟨hp, _, e⟩ := bind_eq_ok.1 e
    have h1 := moveTowardsRootT_length e
    simp only [List.length_append, List.length_singleton] at h1
    omega

end Heap

/-- The counted result of a function whose result is known. -/
theorem of_erase {α β : Type} {m : M (α × β)} {m' : M β} {b : β} (h : Except.map Prod.snd m = m')
    (e : m' = .ok b) : ∃ a, m = .ok (a, b) := by
  rw [e] at h
  match m, h with
  | .ok (a, b'), h => exact ⟨a, by simp only [Except.map] at h; cases h; rfl⟩

/-- What the counted loop does to the size of the heap. -/
theorem popLoopT_le (values : PartialAssignment) (m : Nat) : ∀ (fuel : Nat) {h h' : Heap Nat} {k t : Nat}
    {r : Option Nat}, popLoopT values fuel h = .ok ((k, t), r, h') → h.heap.length ≤ m →
    k + h'.heap.length = h.heap.length ∧ t ≤ k * (Nat.log 2 m + 1)
  | 0, _, _, _, _, _, e, _ => by cases e
  | fuel + 1, h, h', k, t, r, e, hm => by
    unfold popLoopT at e
    obtain ⟨⟨k1, x, h1⟩, e1, e⟩ := bind_eq_ok.1 e
    have hl := Heap.popMaxT_length e1
    have hc := Heap.C70_popMax e1
    have hlog : Nat.log 2 h.heap.length ≤ Nat.log 2 m := Nat.log_mono_right hm
    cases x with
    | none =>
      have h0 := Heap.popMaxT_none e1
      cases e
      exact ⟨by have := hl.1 rfl; omega, by omega⟩
    | some x =>
      have hl := hl.2 (by simp)
      simp only at e
      obtain ⟨b, _, e⟩ := bind_eq_ok.1 e
      cases b with
      | false =>
        cases e
        exact ⟨by omega, by omega⟩
      | true =>
        simp only [if_true] at e
        obtain ⟨⟨⟨k2, t2⟩, r2, h2⟩, e2, e⟩ := bind_eq_ok.1 e
        cases e
        obtain ⟨i1, i2⟩ := popLoopT_le values m fuel e2 (by omega)
        refine ⟨by show k2 + 1 + _ = _; omega, ?_⟩
        show t2 + k1 ≤ (k2 + 1) * _
        have i2 : t2 ≤ k2 * (Nat.log 2 m + 1) := i2
        rw [Nat.add_mul, Nat.one_mul]
        omega

theorem popDecisionVarT_le {v v' : Vsids} {values : PartialAssignment} {k t m : Nat} {r : Option Nat}
    (e : v.popDecisionVarT values = .ok ((k, t), r, v')) (hm : v.activity.heap.length ≤ m) :
    k + v'.activity.heap.length = v.activity.heap.length ∧ t ≤ k * (Nat.log 2 m + 1) := by
  unfold popDecisionVarT at e
  obtain ⟨⟨⟨k1, t1⟩, r1, h1⟩, e1, e⟩ := bind_eq_ok.1 e
  cases e
  exact popLoopT_le values m _ e1 hm

section
variable {env : Env} {F : List (List Lit)} {s s' s0 : Solver} {p p' : PropState} {k t u : Nat}

theorem res_bumpVar {v : Vsids} {x : Nat} :
    Res (v.bumpVar env x) (fun v' => v'.activity.heap.length = v.activity.heap.length) := by
  unfold Vsids.bumpVar
  refine Res.any fun old => Res.bind (P := fun a => a.heap.length = v.activity.heap.length) ?_ fun a h => ?_
  · intro a e
    obtain ⟨t, e⟩ := of_erase (Heap.increaseT_erase _ _ _) e
    exact Heap.increaseT_length e
  · dsimp only
    split
    · exact Res.pure h
    · exact Res.pure h

theorem doDecay_length {v : Vsids} : (v.doDecay env).activity.heap.length = v.activity.heap.length := by
  unfold Vsids.doDecay
  dsimp only
  split <;> rfl

theorem res_undoLoop : ∀ (ss : List Step) {values : PartialAssignment} {cb : Callbacks},
    Res (undoLoop ss values cb)
      (fun r => r.2.vsids.activity.heap.length ≤ cb.vsids.activity.heap.length + ss.length)
  | [], _, _ => Res.pure (Nat.le_refl _)
  | s :: ss, values, cb => by
    unfold undoLoop
    refine Res.bind (P := fun c => c.vsids.activity.heap.length ≤ cb.vsids.activity.heap.length + 1) ?_
      fun c hc => Res.any fun vals => (res_undoLoop ss).mono fun r hr => ?_
    · unfold Callbacks.unassign
      refine Res.bind (P := fun a => a.heap.length ≤ cb.vsids.activity.heap.length + 1) ?_
        fun a ha => Res.any fun _ => Res.pure ha
      intro a e
      obtain ⟨t, e⟩ := of_erase (Heap.enqueueT_erase _ _) e
      exact Heap.enqueueT_length_le e
    · rw [List.length_cons]; omega

/-- Backtracking adds at most one variable to the heap for each assignment taken back. -/
theorem res_backtrack_heap {level : Nat} {cb : Callbacks} : Res (backtrackToLevel p level cb) (fun r =>
    ∃ target ≤ p.trail.steps.length, r.1.trail.steps = p.trail.steps.take target ∧
      r.2.vsids.activity.heap.length ≤ cb.vsids.activity.heap.length + (p.trail.steps.length - target)) := by
  intro r e
  unfold backtrackToLevel at e
  obtain ⟨_, _, e⟩ := bind_eq_ok.1 e
  obtain ⟨target, _, e⟩ := bind_eq_ok.1 e
  obtain ⟨_, ha, e⟩ := bind_eq_ok.1 e
  obtain ⟨⟨vals, cb1⟩, e1, e⟩ := bind_eq_ok.1 e
  cases e
  have ht : target ≤ p.trail.steps.length := by
    by_contra hn
    simp [assertM, hn] at ha
  have := res_undoLoop _ _ e1
  rw [List.length_drop] at this
  exact ⟨target, ht, rfl, this⟩

namespace Analysis

theorem res_addLiteral {an : Analysis} {tr : Trail} {l : Lit} {cb : Callbacks} : Res (addLiteral env an tr l cb)
    (fun r => r.2.vsids.activity.heap.length = cb.vsids.activity.heap.length) := by
  unfold addLiteral
  refine Res.any fun i => Res.any fun s => ?_
  split
  · exact Res.pure rfl
  · refine Res.any fun old => Res.any fun flags => ?_
    dsimp only
    split
    · exact Res.pure rfl
    · refine Res.bind res_bumpVar fun v hv => ?_
      split
      · exact Res.pure hv
      · exact Res.pure hv

theorem res_addLiterals {tr : Trail} : ∀ (ls : List Lit) {an : Analysis} {cb : Callbacks},
    Res (addLiterals env tr ls an cb) (fun r => r.2.vsids.activity.heap.length = cb.vsids.activity.heap.length)
  | [], _, _ => Res.pure rfl
  | l :: ls, an, cb => by
    unfold addLiterals
    refine Res.bind res_addLiteral fun r h => ?_
    obtain ⟨an1, cb1⟩ := r
    exact (res_addLiterals ls).mono fun _ h2 => h2.trans h

theorem res_bumpLongClause_trail {an : Analysis} {c : Nat} :
    Res (bumpLongClause an p c) (fun r => r.2.trail = p.trail) := by
  unfold bumpLongClause
  exact Res.any fun _ => Res.any fun _ => Res.any fun _ => Res.pure rfl

theorem res_uipLoop_heap : ∀ (k : Nat) {an : Analysis} {p : PropState} {cb : Callbacks},
    Res (uipLoop env k an p cb) (fun r => r.2.1.trail = p.trail ∧
      r.2.2.vsids.activity.heap.length = cb.vsids.activity.heap.length)
  | 0, _, _, _ => Res.pure ⟨rfl, rfl⟩
  | k + 1, an, p, cb => by
    unfold uipLoop
    refine Res.any fun flag => Res.any fun _ => ?_
    dsimp only
    split
    · refine Res.any fun s => ?_
      split
      · exact Res.throw
      split
      · exact Res.any fun _ => Res.pure ⟨rfl, rfl⟩
      · refine Res.bind (P := fun r => r.2.trail = p.trail) ?_ fun r h1 => ?_
        · unfold bumpReason
          split
          · exact res_bumpLongClause_trail
          · exact Res.pure rfl
        obtain ⟨an1, p1⟩ := r
        refine Res.any fun _ => Res.bind (res_addLiterals _) fun r h2 => ?_
        obtain ⟨an2, cb2⟩ := r
        exact (res_uipLoop_heap k).mono fun _ h3 => ⟨h3.1.trans h1, h3.2.trans h2⟩
    · exact res_uipLoop_heap k

theorem res_derive1uip_heap {an : Analysis} {x : ConflictClause} {cb : Callbacks} :
    Res (derive1uip env an p x cb) (fun r => r.2.1.trail = p.trail ∧
      r.2.2.vsids.activity.heap.length = cb.vsids.activity.heap.length) := by
  unfold derive1uip
  refine Res.bind (P := fun r => r.2.trail = p.trail) ?_ fun r h1 => ?_
  · cases x with
    | binary a b => exact Res.pure rfl
    | long c => exact res_bumpLongClause_trail
  obtain ⟨an1, p1⟩ := r
  refine Res.any fun _ => Res.bind (res_addLiterals _) fun r h2 => Res.bind (res_uipLoop_heap _) fun r' h3 => ?_
  exact Res.any fun _ => Res.pure ⟨h3.1.trans h1, h3.2.trans h2⟩

end Analysis

theorem res_assignUnit_steps {st : Step} :
    Res (p.assignUnit st) (fun p' => p'.trail.steps.length ≤ p.trail.steps.length + 1) := by
  unfold PropState.assignUnit
  split
  · refine Res.any fun _ => Res.any fun _ => Res.pure ?_
    simp
  · exact Res.throw

theorem res_assign_steps {st : Step} :
    Res (p.assign st) (fun p' => p'.trail.steps.length ≤ p.trail.steps.length + 1) := by
  unfold PropState.assign
  exact Res.any fun _ => Res.any fun _ => res_assignUnit_steps

/-- Learning a clause adds at most one step to the trail. -/
theorem res_learnAndAssign_steps {ctx : Ctx} {an : Analysis} : Res (an.learnAndAssign ctx p)
    (fun r => r.2.2.trail.steps.length ≤ p.trail.steps.length + 1) := by
  unfold Analysis.learnAndAssign
  refine Res.any fun _ => Res.any fun r => ?_
  obtain ⟨an1, hd⟩ := r
  dsimp only
  refine Res.bind (P := fun r => r.2.1.trail.steps.length ≤ p.trail.steps.length + 1 ∧
      ((∃ a b, r.2.2 = .binary a b) ∨ (∃ c, r.2.2 = .long c) → r.2.1.trail = p.trail)) ?_ fun r h => ?_
  · unfold addClauseVerbatim
    split
    · exact Res.pure ⟨Nat.le_succ _, fun _ => rfl⟩
    · refine Res.any fun b => ?_
      split
      · exact Res.pure ⟨Nat.le_succ _, fun _ => rfl⟩
      · exact Res.bind res_assignUnit_steps fun p1 h1 => Res.pure ⟨h1, by simp⟩
    · exact Res.any fun _ => Res.pure ⟨Nat.le_succ _, fun _ => rfl⟩
    · refine Res.any fun x => ?_
      split
      · exact Res.throw
      · exact Res.any fun _ => Res.pure ⟨Nat.le_succ _, fun _ => rfl⟩
  · obtain ⟨ctx1, p1, added⟩ := r
    cases added with
    | empty => exact Res.pure h.1
    | unit a => exact Res.pure h.1
    | binary a b =>
      refine Res.any fun _ => Res.bind res_assign_steps fun p2 h2 => Res.pure ?_
      rw [h.2 (.inl ⟨a, b, rfl⟩)] at h2; exact h2
    | long c =>
      refine Res.any fun _ => Res.bind res_assign_steps fun p2 h2 => Res.pure ?_
      rw [h.2 (.inr ⟨c, rfl⟩)] at h2; exact h2

/-- The analysis of a conflict adds at most one variable to the heap for each assignment it takes back. -/
theorem res_analyzeConflict_heap {ctx : Ctx} {an : Analysis} {x : ConflictClause} {cb : Callbacks} :
    Res (an.analyzeConflict env ctx p x cb) (fun r => ∃ target ≤ p.trail.steps.length,
      r.2.2.1.trail.steps.length ≤ target + 1 ∧
      r.2.2.2.vsids.activity.heap.length ≤ cb.vsids.activity.heap.length + (p.trail.steps.length - target)) := by
  unfold Analysis.analyzeConflict
  refine Res.any fun _ => Res.bind Analysis.res_derive1uip_heap fun r h1 => ?_
  obtain ⟨an1, p1, cb1⟩ := r
  dsimp only
  refine Res.any fun r => ?_
  obtain ⟨an2, level⟩ := r
  refine Res.bind res_backtrack_heap fun r h2 => ?_
  obtain ⟨p3, cb3⟩ := r
  obtain ⟨target, ht, hs, hh⟩ := h2
  refine Res.bind res_learnAndAssign_steps fun r h3 => ?_
  obtain ⟨ctx4, an4, p4⟩ := r
  simp only [doDecay_length] at *
  rw [h1.1] at ht hs hh
  refine Res.pure ⟨target, ht, ?_, ?_⟩
  · rw [hs, List.length_take] at h3
    exact h3.trans (by omega)
  · rw [h1.2] at hh; exact hh

/-! ## Assignments taken back -/

theorem commonPrefix_self : ∀ a : List Step, commonPrefix a a = a.length
  | [] => rfl
  | a :: as => by simp [commonPrefix, commonPrefix_self as]

theorem takenBack_self (a : List Step) : takenBack a a = 0 := by
  simp [takenBack, commonPrefix_self]

theorem commonPrefix_take : ∀ (a b : List Step) (k : Nat), k ≤ a.length →
    k ≤ commonPrefix a (a.take k ++ b)
  | _, _, 0, _ => Nat.zero_le _
  | [], _, k + 1, h => by simp at h
  | a :: as, b, k + 1, h => by
    simp only [List.take_succ_cons, List.cons_append, commonPrefix, if_true]
    have := commonPrefix_take as b k (by simpa using h)
    omega

theorem commonPrefix_le_right : ∀ a b : List Step, commonPrefix a b ≤ b.length
  | [], _ => by simp [commonPrefix]
  | _ :: _, [] => by simp [commonPrefix]
  | a :: as, b :: bs => by
    unfold commonPrefix
    split
    · have := commonPrefix_le_right as bs
      simp; omega
    · exact Nat.zero_le _

/-- Two lists that differ at a position agree at most up to it. -/
theorem commonPrefix_le : ∀ (a b : List Step) (k : Nat), a[k]? ≠ b[k]? → commonPrefix a b ≤ k
  | [], _, k, _ => by simp [commonPrefix]
  | _ :: _, [], k, _ => by simp [commonPrefix]
  | a :: as, b :: bs, k, h => by
    unfold commonPrefix
    split
    · rename_i hab
      cases k with
      | zero => simp [hab] at h
      | succ k =>
        have := commonPrefix_le as bs k (by simpa using h)
        omega
    · exact Nat.zero_le _

/-- What a part of a run does to the heap and to the trail: `k` variables were taken out, `u` assignments were
taken back. -/
structure PickStep (n : Nat) (s s' : Solver) (k u : Nat) : Prop where
  heap : k + s'.search.cb.vsids.activity.heap.length ≤ s.search.cb.vsids.activity.heap.length + u
  back : u + n * (s.ctx.search.conflicts + s.ctx.search.restarts) ≤
    n * (s'.ctx.search.conflicts + s'.ctx.search.restarts)

theorem Solver.Reachable.pick_restart (h : Solver.Reachable env F s) (e : s.maybeRestart = .ok s') :
    PickStep (formulaVars F) s s' 0 (takenBack s.search.prop.trail.steps s'.search.prop.trail.steps) := by
  obtain ⟨L, S, hi⟩ := h.inv
  obtain ⟨s1, e1, _, hr⟩ := maybeRestart_spec hi
  cases e.symm.trans e1
  rcases hr with ⟨_, rfl⟩ | ⟨h1, h2, h3⟩
  · rw [takenBack_self]; exact ⟨by omega, by omega⟩
  · obtain ⟨ctx', t, e2, _, hc, hl, _, hb⟩ := restart_spec hi
    have e3 := h2
    rw [e2] at h2
    simp only [Except.ok.injEq, Prod.mk.injEq] at h2
    obtain ⟨rfl, rfl⟩ := h2
    have hst : formulaVars F * (s'.ctx.search.conflicts + s'.ctx.search.restarts) =
        formulaVars F * (s.ctx.search.conflicts + s.ctx.search.restarts) + formulaVars F := by
      rw [hc]; simp only; rw [← Nat.add_assoc, Nat.mul_add _ _ 1, Nat.mul_one]
    rcases hb with ⟨_, hs⟩ | ⟨target, ht, hb⟩
    · rw [hs, takenBack_self]
      exact ⟨by rw [hs]; omega, by omega⟩
    · have hle := hi.prop.trail.length_le (hi.prop.trail.nodup_above (Nat.le_refl 1) ht)
      have hst2 : s'.search.prop.trail.steps = s.search.prop.trail.steps.take target := by
        rw [hb.trail]; rfl
      have hpos : target ≤ s.search.prop.trail.steps.length := by
        obtain ⟨x, hx, _⟩ := hi.prop.trail.decs 1 target (Nat.le_refl 1) ht
        exact Nat.le_of_lt (List.getElem?_eq_some_iff.1 hx).1
      have c1 := commonPrefix_take s.search.prop.trail.steps [] target hpos
      rw [List.append_nil, ← hst2] at c1
      have c2 := commonPrefix_le_right s.search.prop.trail.steps s'.search.prop.trail.steps
      unfold Starlit.restart at e3
      by_cases h0 : s.search.prop.trail.decisionLevel > 0
      · simp only [if_pos h0] at e3
        obtain ⟨⟨p3, cb3⟩, eb, e3⟩ := bind_eq_ok.1 e3
        simp only [pure_eq, Except.ok.injEq, Prod.mk.injEq] at e3
        obtain ⟨tb, hb1, hb2, hb3⟩ := res_backtrack_heap _ eb
        have e4 : s'.search.prop = p3 := by rw [← e3.2]
        have e5 : s'.search.cb = cb3 := by rw [← e3.2]
        simp only at hb2 hb3
        rw [← e4] at hb2
        rw [← e5] at hb3
        have hl2 := congrArg List.length hb2
        rw [List.length_take] at hl2
        unfold takenBack
        exact ⟨by omega, by omega⟩
      · have := (List.getElem?_eq_some_iff.1 ht).1
        unfold Trail.decisionLevel at h0
        omega

theorem Solver.Reachable.pick_reduce (h : Solver.Reachable env F s) (e : s.maybeReduce env = .ok s') :
    PickStep (formulaVars F) s s' 0 0 := by
  obtain ⟨L, S, hi⟩ := h.inv
  obtain ⟨s1, e1, _, hr⟩ := maybeReduce_spec hi
  cases e.symm.trans e1
  rcases hr with ⟨_, rfl⟩ | ⟨h1, h2, h3⟩
  · exact ⟨by omega, by omega⟩
  · obtain ⟨ctx', t, L', D, S', e2, _, q, hcb, _⟩ := reduce_inv hi
    rw [h2] at e2
    simp only [Except.ok.injEq, Prod.mk.injEq] at e2
    have hs := q.del.search
    refine ⟨by rw [e2.2, hcb]; omega, ?_⟩
    rw [e2.1, hs]; simp

theorem Solver.Reachable.pick_conflict (h : Solver.Reachable env F s) (hu : s.search.prop.unsat = false)
    {p1 : PropState} {ctx1 ctx : Ctx} {c : ConflictClause} {search : Search} {r : Option Bool}
    (e1 : collectGarbage s.search.prop = .ok p1) (e2 : propagate s.ctx p1 = .ok (ctx1, p, some c))
    (e : searchStep env s.ctx s.search = .ok (ctx, search, r)) :
    PickStep (formulaVars F) s { s with ctx := ctx, search := search } 0
      (takenBack p.trail.steps search.prop.trail.steps) := by
  have hp : Solver.Propagating env F s p1 ctx1 p (some c) := ⟨h, hu, e1, e2⟩
  unfold searchStep at e
  rw [if_neg (by simp [hu]), e1, bind_ok, e2, bind_ok] at e
  simp only at e
  have hm : formulaVars F * (s.ctx.search.conflicts + 1 + s.ctx.search.restarts) =
      formulaVars F * (s.ctx.search.conflicts + s.ctx.search.restarts) + formulaVars F := by
    rw [Nat.add_right_comm, Nat.mul_add _ _ 1, Nat.mul_one]
  by_cases h0 : p.trail.decisionLevel = 0
  · rw [if_pos h0] at e
    cases e
    rw [takenBack_self]
    refine ⟨by simp, ?_⟩
    simp only [hp.search]
    omega
  · rw [if_neg h0] at e
    obtain ⟨⟨ctx', an, p', cb⟩, e3, e⟩ := bind_eq_ok.1 e
    cases e
    obtain ⟨tb, hb1, hb2, hb3⟩ := res_analyzeConflict_heap _ e3
    obtain ⟨S3, S', C, lvl, target, hi3, A⟩ := hp.analyze h0 e3
    have hle := hi3.trail.length_le (hi3.trail.nodup_above (by omega) A.cutpos)
    obtain ⟨a, rest, rr, _, hr, ht, _⟩ := A.trail
    obtain ⟨x, hx, hxr, _⟩ := hi3.trail.decs (lvl + 1) target (by omega) A.cutpos
    have hpos : target < p.trail.steps.length := (List.getElem?_eq_some_iff.1 hx).1
    have hst : p'.trail.steps = p.trail.steps.take target ++ [⟨a, lvl, rr⟩] := by rw [ht]; rfl
    have c1 := commonPrefix_take p.trail.steps [⟨a, lvl, rr⟩] target (by omega)
    have c2 : commonPrefix p.trail.steps (p.trail.steps.take target ++ [⟨a, lvl, rr⟩]) ≤ target := by
      apply commonPrefix_le
      rw [hx, List.getElem?_append_right (by rw [List.length_take]; omega), List.length_take,
        Nat.min_eq_left (by omega), Nat.sub_self]
      intro hh
      simp only [List.getElem?_cons_zero, Option.some.injEq] at hh
      rw [hh] at hxr
      exact hr hxr
    have hl2 := congrArg List.length hst
    rw [List.length_append, List.length_take, List.length_singleton] at hl2
    rw [← hst] at c1 c2
    simp only at hb2 hb3
    unfold takenBack
    refine ⟨?_, ?_⟩
    · simp only; omega
    · simp only [A.search, hp.search]
      omega

theorem Solver.Reachable.pick_pick (h : Solver.Reachable env F s) (hu : s.search.prop.unsat = false)
    {p1 : PropState} {ctx1 ctx : Ctx} {x : Option Nat} {v : Vsids} {search : Search} {r : Option Bool}
    (e1 : collectGarbage s.search.prop = .ok p1) (e2 : propagate s.ctx p1 = .ok (ctx1, p, none))
    (e3 : s.search.cb.vsids.popDecisionVarT p.values = .ok ((k, t), x, v))
    (e : searchStep env s.ctx s.search = .ok (ctx, search, r)) :
    PickStep (formulaVars F) s { s with ctx := ctx, search := search } k 0 ∧
      t ≤ k * (Nat.log 2 (formulaVars F) + 1) := by
  have hp : Solver.Propagating env F s p1 ctx1 p none := ⟨h, hu, e1, e2⟩
  obtain ⟨L, S, hi⟩ := h.inv
  have hw := hi.cb.wf.length_le
  rw [hi.cb.len] at hw
  obtain ⟨k1, k2⟩ := popDecisionVarT_le e3 hw
  have e4 := Vsids.popDecisionVarT_erase s.search.cb.vsids p.values
  rw [e3] at e4
  simp only [Except.map] at e4
  unfold searchStep at e
  rw [if_neg (by simp [hu]), e1, bind_ok, e2, bind_ok] at e
  simp only at e
  rw [← e4, bind_ok] at e
  refine ⟨?_, k2⟩
  cases x with
  | none =>
    cases e
    refine ⟨by simp only; omega, ?_⟩
    simp only [hp.search]; omega
  | some x =>
    simp only at e
    obtain ⟨l, _, e⟩ := bind_eq_ok.1 e
    obtain ⟨p', _, e⟩ := bind_eq_ok.1 e
    cases e
    refine ⟨by simp only; omega, ?_⟩
    simp only [hp.search]; omega

/-! ## The claims -/

/-- C78: counting changes nothing, and every run has its counts: `pop_decision_var` with the counts is
`pop_decision_var`, and every reachable state is reached from an input by a run with counts. -/
theorem C78_counted :
    (∀ (v : Vsids) (values : PartialAssignment),
      Except.map Prod.snd (v.popDecisionVarT values) = v.popDecisionVar values) ∧
    (Solver.Reachable env F s → ∃ s0 k t u, Solver.Input env F s0 ∧ Solver.Picks env s0 s k t u) := by
  refine ⟨Vsids.popDecisionVarT_erase, fun h => ?_⟩
  induction h with
  | @input s h => exact ⟨s, 0, 0, 0, h, .start⟩
  | restart h e ih =>
    obtain ⟨s0, k, t, u, h0, hp⟩ := ih
    exact ⟨s0, _, _, _, h0, hp.restart e⟩
  | reduce h e ih =>
    obtain ⟨s0, k, t, u, h0, hp⟩ := ih
    exact ⟨s0, _, _, _, h0, hp.reduce e⟩
  | @step s ctx search r h e ih =>
    obtain ⟨s0, k, t, u, h0, hp⟩ := ih
    cases hu : s.search.prop.unsat with
    | true => exact ⟨s0, _, _, _, h0, hp.done hu e⟩
    | false =>
      have e' := e
      unfold searchStep at e'
      rw [if_neg (by simp [hu])] at e'
      obtain ⟨p1, e1, e'⟩ := bind_eq_ok.1 e'
      obtain ⟨⟨ctx1, p, rc⟩, e2, e'⟩ := bind_eq_ok.1 e'
      cases rc with
      | some c => exact ⟨s0, _, _, _, h0, hp.conflict hu e1 e2 e⟩
      | none =>
        simp only at e'
        obtain ⟨⟨x, v⟩, e3, _⟩ := bind_eq_ok.1 e'
        obtain ⟨⟨k', t'⟩, e4⟩ := of_erase (Vsids.popDecisionVarT_erase _ _) e3
        exact ⟨s0, _, _, _, h0, hp.pick hu e1 e2 e4 e⟩

theorem Solver.Picks.reachable (h0 : Solver.Reachable env F s0) (h : Solver.Picks env s0 s k t u) :
    Solver.Reachable env F s := by
  induction h with
  | start => exact h0
  | restart _ e ih => exact ih.restart e
  | reduce _ e ih => exact ih.reduce e
  | done _ _ e ih => exact ih.step e
  | conflict _ _ _ _ e ih => exact ih.step e
  | pick _ _ _ _ _ e ih => exact ih.step e

/-- C78: in every part of every run, the variables taken out of the decision heap are at most those that were
in the heap at the start, and one for each assignment that was taken back since; what is left in the heap
counts as well.  The loops of `pop_max` make at most `log₂ n + 1` iterations for each of them.  Each conflict and
each restart takes back at most `n` assignments. -/
theorem C78_run (h0 : Solver.Reachable env F s0) (h : Solver.Picks env s0 s k t u) :
    k + s.search.cb.vsids.activity.heap.length ≤ s0.search.cb.vsids.activity.heap.length + u ∧
    t ≤ k * (Nat.log 2 (formulaVars F) + 1) ∧
    u + formulaVars F * (s0.ctx.search.conflicts + s0.ctx.search.restarts) ≤
      formulaVars F * (s.ctx.search.conflicts + s.ctx.search.restarts) := by
  induction h with
  | start => exact ⟨by omega, by simp, by omega⟩
  | restart hp e ih =>
    obtain ⟨a, b⟩ := (hp.reachable h0).pick_restart e
    exact ⟨by omega, ih.2.1, by omega⟩
  | reduce hp e ih =>
    obtain ⟨a, b⟩ := (hp.reachable h0).pick_reduce e
    exact ⟨by omega, ih.2.1, by omega⟩
  | done hp hu e ih =>
    unfold searchStep at e
    rw [if_pos hu] at e
    cases e
    exact ih
  | conflict hp hu e1 e2 e ih =>
    obtain ⟨a, b⟩ := (hp.reachable h0).pick_conflict hu e1 e2 e
    exact ⟨by omega, ih.2.1, by omega⟩
  | pick hp hu e1 e2 e3 e ih =>
    obtain ⟨⟨a, b⟩, c⟩ := (hp.reachable h0).pick_pick hu e1 e2 e3 e
    refine ⟨by omega, ?_, by omega⟩
    rw [Nat.add_mul]
    omega

/-- C78: from an input on, at most `n` variables are taken out of the decision heap per conflict and restart, and
`n` more. -/
theorem C78_bound (h0 : Solver.Input env F s0) (h : Solver.Picks env s0 s k t u) :
    k ≤ formulaVars F * (s.ctx.search.conflicts + s.ctx.search.restarts + 1) ∧
    t ≤ formulaVars F * (s.ctx.search.conflicts + s.ctx.search.restarts + 1) *
      (Nat.log 2 (formulaVars F) + 1) := by
  obtain ⟨a, b, c⟩ := C78_run (.input h0) h
  obtain ⟨L, S, hi⟩ := (Solver.Reachable.input h0).inv
  have hw := hi.cb.wf.length_le
  rw [hi.cb.len] at hw
  have hk : k ≤ formulaVars F * (s.ctx.search.conflicts + s.ctx.search.restarts + 1) := by
    rw [Nat.mul_add _ _ 1, Nat.mul_one]; omega
  exact ⟨hk, b.trans (Nat.mul_le_mul_right _ hk)⟩

end

/-! ## Example -/

/-- An iteration of `solve()` with the counts. -/
def Solver.stepPicks (env : Env) (s : Solver) : M (Solver × Nat × Nat × Nat) := do
  let s1 ← s.maybeRestart
  let s2 ← s1.maybeReduce env
  let u := takenBack s.search.prop.trail.steps s1.search.prop.trail.steps
  let (ctx, search, _) ← searchStep env s2.ctx s2.search
  let s' := { s2 with ctx := ctx, search := search }
  if s2.search.prop.unsat then pure (s', 0, 0, u)
  else do
    let p1 ← collectGarbage s2.search.prop
    match ← propagate s2.ctx p1 with
    | (_, p, some _) => pure (s', 0, 0, u + takenBack p.trail.steps search.prop.trail.steps)
    | (_, p, none) => do
      let (t, _) ← s2.search.cb.vsids.popDecisionVarT p.values
      pure (s', t.1, t.2, u)

/-- Some iterations. -/
def Solver.stepsPicks (env : Env) : Nat → Solver → Nat → Nat → Nat → M (Solver × Nat × Nat × Nat)
  | 0, s, k, t, u => pure (s, k, t, u)
  | i + 1, s, k, t, u => do
    let (s', k', t', u') ← s.stepPicks env
    stepsPicks env i s' (k + k') (t + t') (u + u')

theorem Solver.stepPicks_picks {env : Env} {s0 s s' : Solver} {k t u k' t' u' : Nat}
    (h : Solver.Picks env s0 s k t u) (e : s.stepPicks env = .ok (s', k', t', u')) :
    Solver.Picks env s0 s' (k + k') (t + t') (u + u') := by
  unfold stepPicks at e
  obtain ⟨s1, e1, e⟩ := bind_eq_ok.1 e
  obtain ⟨s2, e2, e⟩ := bind_eq_ok.1 e
  obtain ⟨⟨ctx, search, r⟩, e3, e⟩ := bind_eq_ok.1 e
  have h2 := (h.restart e1).reduce e2
  simp only at e
  split at e
  · rename_i hu
    cases e
    exact h2.done hu e3
  · rename_i hu
    have hu : s2.search.prop.unsat = false := by simpa using hu
    obtain ⟨p1, e4, e⟩ := bind_eq_ok.1 e
    obtain ⟨⟨ctx1, p, rc⟩, e5, e⟩ := bind_eq_ok.1 e
    cases rc with
    | some c =>
      cases e
      rw [← Nat.add_assoc]
      exact h2.conflict hu e4 e5 e3
    | none =>
      simp only at e
      obtain ⟨⟨⟨a, b⟩, x, v⟩, e6, e⟩ := bind_eq_ok.1 e
      cases e
      exact h2.pick hu e4 e5 e6 e3

theorem Solver.stepsPicks_picks {env : Env} {s0 : Solver} : ∀ (i : Nat) {s s' : Solver} {k t u k' t' u' : Nat},
    Solver.Picks env s0 s k t u → s.stepsPicks env i k t u = .ok (s', k', t', u') →
    Solver.Picks env s0 s' k' t' u'
  | 0, _, _, _, _, _, _, _, _, h, e => by cases e; exact h
  | i + 1, _, _, _, _, _, _, _, _, h, e => by
    unfold stepsPicks at e
    obtain ⟨⟨s1, k1, t1, u1⟩, e1, e⟩ := bind_eq_ok.1 e
    exact stepsPicks_picks i (stepPicks_picks h e1) e

theorem picks_php : (do
    let s ← (Solver.default Example.envReduce).writeProof.addClauses (Example.cnf (Example.php 5 4))
    let (s', k, t, u) ← s.stepsPicks Example.envReduce 34 0 0 0
    pure (s.search.cb.vsids.activity.heap.length, s'.search.cb.vsids.activity.heap.length, s'.ctx.search, k, t, u) :
      M (Nat × Nat × SearchStats × Nat × Nat × Nat)) = .ok (20, 17, ⟨20, 14, 1, 15⟩, 27, 65, 164) := by
  decide +kernel

/-- A run of 34 iterations on the pigeon hole formula for five pigeons, with 14 conflicts and a restart.  Of
20 variables in the heap and 164 assignments taken back, 27 times a variable was taken out of the heap, with
65 iterations of the loop in `pop_max`. -/
theorem C78_example : ∃ s s', Solver.Input Example.envReduce (Example.cnf (Example.php 5 4)) s ∧
    Solver.Picks Example.envReduce s s' 27 65 164 ∧ formulaVars (Example.cnf (Example.php 5 4)) = 20 ∧
    s.search.cb.vsids.activity.heap.length = 20 ∧ s'.search.cb.vsids.activity.heap.length = 17 ∧
    s'.ctx.search = ⟨20, 14, 1, 15⟩ := by
  obtain ⟨s, h1, h2⟩ := bind_eq_ok.1 picks_php
  obtain ⟨⟨s', k, t, u⟩, h3, h2⟩ := bind_eq_ok.1 h2
  have h2 := Except.ok.inj h2
  simp only [Prod.mk.injEq] at h2
  obtain ⟨a1, a2, a3, rfl, rfl, rfl⟩ := h2
  have hi := Solver.Input.addClauses _ (.proof (.new (env := Example.envReduce)))
    (Example.ok_valid (F := Example.php 5 4) (by decide +kernel)) h1
  exact ⟨s, s', by simpa using hi, Solver.stepsPicks_picks _ .start h3, by decide +kernel, a1, a2, a3⟩

end Starlit
