import Verif.Solver.Step

/-!
# Staying within the limits of the clause arena and of the trail

`Wp` accepts the errors `arenaFull` and `tooBig`.  `Fit` is its counterpart, which excludes exactly these
two.
-/

namespace Starlit

/-- `m` neither fills the arena nor leaves the range of the model; if it succeeds, `Q` holds. -/
def Fit {α : Type} (m : M α) (Q : α → Prop) : Prop :=
  match m with
  | .ok a => Q a
  | .error .arenaFull => False
  | .error .tooBig => False
  | .error _ => True

section
variable {α β : Type} {m : M α} {f : α → M β}

theorem Fit.mono {P Q : α → Prop} (h : Fit m P) (hi : ∀ a, P a → Q a) : Fit m Q := by
  cases m with
  | ok a => exact hi a h
  | error e => cases e <;> exact h

theorem Fit.bind {P : α → Prop} {Q : β → Prop} (h : Fit m P) (hi : ∀ a, P a → Fit (f a) Q) :
    Fit (m >>= f) Q := by
  cases m with
  | ok a => exact hi a h
  | error e => cases e <;> exact h

theorem Fit.ok_elim {Q : α → Prop} (h : Fit m Q) {a : α} (e : m = .ok a) : Q a := by
  rw [e] at h; exact h

theorem fit_pure {Q : α → Prop} {a : α} (h : Q a) : Fit (pure a) Q := h

theorem Wp.fit {P Q : α → Prop} (h : Wp m P) (h' : Fit m Q) : ∃ a, m = .ok a ∧ P a ∧ Q a := by
  cases m with
  | ok a => exact ⟨a, rfl, h, h'⟩
  | error e => cases e <;> first | exact absurd h id | exact absurd h' id

theorem fit_idx {v : List α} {i : Nat} : Fit (idx v i) (fun x => v[i]? = some x) := by
  unfold idx
  cases h : v[i]? with
  | some x => exact rfl
  | none => exact trivial

theorem fit_upd {v : List α} {i : Nat} {x : α} : Fit (upd v i x) (fun v' => i < v.length ∧ v' = v.set i x) := by
  unfold upd
  by_cases h : i < v.length
  · rw [if_pos h]; exact ⟨h, rfl⟩
  · rw [if_neg h]; exact trivial

theorem fit_assertM {c : Bool} : Fit (assertM c) (fun _ => c = true) := by
  cases c <;> simp [assertM, Fit, pure_eq, throw_eq]

theorem fit_debugM {c : Bool} : Fit (debugM c) (fun _ => c = true) := by
  cases c <;> simp [debugM, Fit, pure_eq, throw_eq]

theorem fit_any {P : α → Prop} (h : Fit m P) : Fit m (fun _ => True) := h.mono fun _ _ => trivial

end

/-! ## Clause arena -/

section
variable {a : Arena} {c : Nat}

theorem fit_sliceU {buf : List Word} {s l : Nat} : Fit (sliceU buf s l) (fun _ => True) := by
  unfold sliceU; split <;> exact trivial

theorem fit_writeU {buf : List Word} {s : Nat} {ws : List Word} :
    Fit (writeU buf s ws) (fun b => b.length = buf.length) := by
  unfold writeU
  split
  · rename_i h
    refine fit_pure ?_
    simp only [List.length_append, List.length_take, List.length_drop]
    omega
  · exact trivial

theorem fit_clauseLen {hl : Nat} : Fit (Arena.clauseLen hl a c) (fun _ => True) := by
  unfold Arena.clauseLen
  refine Fit.bind fit_idx fun w _ => ?_
  dsimp only
  split <;> exact trivial

theorem fit_litsU {hl len : Nat} : Fit (Arena.litsUncheckedWithLen hl a c len) (fun _ => True) := by
  unfold Arena.litsUncheckedWithLen
  exact Fit.bind fit_sliceU fun _ _ => fit_pure trivial

theorem fit_lits : Fit (Long.lits a c) (fun _ => True) := by
  unfold Long.lits Arena.lits
  exact Fit.bind fit_clauseLen fun _ _ => fit_litsU

theorem fit_headerAndLits : Fit (Long.headerAndLits a c) (fun _ => True) := by
  unfold Long.headerAndLits Arena.headerAndLits
  refine Fit.bind (P := fun _ => True) ?_ fun _ _ => fit_pure trivial
  refine Fit.bind fit_clauseLen fun _ _ => ?_
  refine Fit.bind (P := fun _ => True) (by unfold Arena.headerUnchecked; exact fit_sliceU) fun _ _ => ?_
  exact Fit.bind fit_litsU fun _ _ => fit_pure trivial

theorem fit_modHeader {f : LongHeader → LongHeader} :
    Fit (Long.modHeader a c f) (fun a' => a'.buffer.length = a.buffer.length) := by
  unfold Long.modHeader Arena.modifyHeader
  refine Fit.bind fit_clauseLen fun _ _ => ?_
  refine Fit.bind (P := fun _ => True) (by unfold Arena.headerUnchecked; exact fit_sliceU) fun _ _ => ?_
  unfold Arena.writeHeaderUnchecked
  exact Fit.bind fit_writeU fun _ h => fit_pure h

theorem fit_setLits {ls : List Lit} :
    Fit (Long.setLits a c ls) (fun a' => a'.buffer.length = a.buffer.length) := by
  unfold Long.setLits Arena.modifyLits
  refine Fit.bind fit_clauseLen fun _ _ => ?_
  refine Fit.bind fit_litsU fun _ _ => ?_
  unfold Arena.writeLits
  exact Fit.bind fit_writeU fun _ h => fit_pure h

theorem fit_delete : Fit (Long.delete a c) (fun a' => a'.buffer.length = a.buffer.length) := by
  unfold Long.delete Arena.deleteClause
  refine Fit.bind fit_clauseLen fun len _ => ?_
  dsimp only
  split
  · refine Fit.bind fit_writeU fun b h => ?_
    exact Fit.bind fit_writeU fun b' h' => fit_pure (h'.trans h)
  · exact fit_pure rfl

end

/-! ## Assignments -/

section
variable {p p' : PropState}

theorem fit_isTrue {v : PartialAssignment} {l : Lit} : Fit (v.isTrue l) (fun _ => True) := by
  unfold PartialAssignment.isTrue
  exact Fit.bind fit_idx fun _ _ => fit_pure trivial

theorem fit_isFalse {v : PartialAssignment} {l : Lit} : Fit (v.isFalse l) (fun _ => True) := by
  unfold PartialAssignment.isFalse
  exact Fit.bind fit_idx fun _ _ => fit_pure trivial

/-- The number of variables without a value. -/
def PartialAssignment.free (v : PartialAssignment) : Nat :=
  ((Finset.range v.assigned.length).filter
    (fun i => v.assigned[i]? = some (unassignedByte i))).card

theorem PartialAssignment.free_le (v : PartialAssignment) : v.free ≤ v.assigned.length := by
  have := Finset.card_filter_le (Finset.range v.assigned.length)
    (fun i => v.assigned[i]? = some (unassignedByte i))
  rwa [Finset.card_range] at this

theorem code8_ne_unassigned (l : Lit) : l.code8 ≠ unassignedByte l.index := by
  rw [code8_eq, unassignedByte]
  have h := byte_table (BitVec.ofNat 8 (l.index * 2)) (ofNat8_even _)
  intro e
  split at e
  · exact h.2.2.1 e.symm
  · exact h.2.1 (by rw [← e]; simp)

theorem PartialAssignment.free_assign {v : PartialAssignment} {l : Lit}
    (h : v.assigned[l.index]? = some (unassignedByte l.index)) :
    (⟨v.assigned.set l.index l.code8⟩ : PartialAssignment).free + 1 ≤ v.free := by
  refine Finset.card_lt_card ?_
  refine Finset.ssubset_iff_subset_ne.2 ⟨?_, ?_⟩
  · intro i hi
    simp only [Finset.mem_filter, Finset.mem_range, List.length_set] at hi ⊢
    refine ⟨hi.1, ?_⟩
    by_cases e : l.index = i
    · subst e; exact h
    · rw [List.getElem?_set_ne e] at hi; exact hi.2
  · intro e
    have hl := (List.getElem?_eq_some_iff.1 h).1
    have h1 : l.index ∈ (Finset.range v.assigned.length).filter
        (fun i => v.assigned[i]? = some (unassignedByte i)) := by
      simp only [Finset.mem_filter, Finset.mem_range]
      exact ⟨hl, h⟩
    rw [← e] at h1
    simp only [Finset.mem_filter] at h1
    have h2 := h1.2
    rw [List.getElem?_set_self hl] at h2
    exact code8_ne_unassigned l (Option.some.inj h2)

/-- Trail entries and variables that may still get one. -/
def PropState.load (p : PropState) : Nat := p.trail.steps.length + p.values.free

/-- The arena has its size and the trail only grows by variables without a value. -/
def KeepSize (p p' : PropState) : Prop :=
  p'.long.buffer.length = p.long.buffer.length ∧ p'.load ≤ p.load

theorem KeepSize.refl (p : PropState) : KeepSize p p := ⟨rfl, Nat.le_refl _⟩

theorem KeepSize.trans {p p1 p2 : PropState} (h : KeepSize p p1) (h' : KeepSize p1 p2) : KeepSize p p2 :=
  ⟨h'.1.trans h.1, Nat.le_trans h'.2 h.2⟩

theorem fit_assign {s : Step} (h : p.load ≤ UNASSIGNED) : Fit (p.assign s) (KeepSize p) := by
  unfold PropState.assign
  refine Fit.bind (P := fun b => b = false → p.values.assigned[s.lit.index]? =
      some (unassignedByte s.lit.index)) ?_ fun b hb => ?_
  · unfold PartialAssignment.isAssigned
    refine Fit.bind fit_idx fun w hw => fit_pure fun e => ?_
    rw [hw, show w = unassignedByte s.lit.index by simpa using e]
  refine Fit.bind fit_debugM fun _ hd => ?_
  have hun := hb (by simpa using hd)
  have hfree := PartialAssignment.free_assign hun
  unfold PropState.load at h
  unfold PropState.assignUnit
  rw [if_pos (by omega)]
  refine Fit.bind fit_upd fun ti _ => ?_
  unfold PartialAssignment.assign
  refine Fit.bind (P := fun v => v = (⟨p.values.assigned.set s.lit.index s.lit.code8⟩ : PartialAssignment))
    (Fit.bind fit_upd fun v hv => fit_pure (by rw [hv.2])) fun v hv => fit_pure ⟨rfl, ?_⟩
  subst hv
  simp only [PropState.load, List.length_append, List.length_singleton]
  omega

/-! ## Propagation -/

theorem fit_propagateBinary {l : Lit} : ∀ (rest : List Lit) {p : PropState}, p.load ≤ UNASSIGNED →
    Fit (propagateBinary l rest p) (fun r => KeepSize p r.1)
  | [], p, _ => .refl p
  | o :: rest, p, h => by
    unfold propagateBinary
    refine Fit.bind fit_isTrue fun b _ => ?_
    split
    · exact fit_propagateBinary rest h
    refine Fit.bind fit_isFalse fun b _ => ?_
    split
    · exact fit_pure (.refl p)
    refine Fit.bind (fit_assign h) fun p1 h1 => ?_
    exact (fit_propagateBinary rest (Nat.le_trans h1.2 h)).mono fun _ h2 => h1.trans h2

theorem fit_push {w : Watches} {l : Lit} {x : Watch} : Fit (w.push l x) (fun _ => True) := by
  unfold Watches.push
  refine Fit.bind fit_debugM fun _ _ => ?_
  refine Fit.bind fit_idx fun _ _ => ?_
  exact Fit.bind fit_upd fun _ _ => fit_pure trivial

theorem fit_searchLit {v : PartialAssignment} {ls : List Lit} {len : Nat} : ∀ (k pos : Nat),
    Fit (searchLit v ls len k pos) (fun _ => True)
  | 0, _ => trivial
  | k + 1, pos => by
    unfold searchLit
    refine Fit.bind fit_idx fun _ _ => ?_
    refine Fit.bind fit_isFalse fun b _ => ?_
    split
    · exact fit_searchLit k _
    refine Fit.bind fit_isTrue fun b _ => ?_
    split <;> exact fit_pure trivial

theorem fit_visitWatch {l : Lit} {w : Watch} (h : p.load ≤ UNASSIGNED) :
    Fit (visitWatch l w p) (fun r => KeepSize p r.1) := by
  unfold visitWatch
  refine Fit.bind fit_isTrue fun b _ => ?_
  split
  · exact fit_pure (.refl p)
  refine Fit.bind fit_headerAndLits fun r _ => ?_
  obtain ⟨hd, ls⟩ := r
  dsimp only
  split
  · exact fit_pure (.refl p)
  refine Fit.bind fit_idx fun l0 _ => ?_
  refine Fit.bind fit_idx fun l1 _ => ?_
  refine Fit.bind fit_debugM fun _ _ => ?_
  refine Fit.bind fit_isTrue fun b _ => ?_
  split
  · exact fit_pure (.refl p)
  refine Fit.bind (fit_searchLit _ _) fun r _ => ?_
  cases r with
  | isTrue x pos =>
    exact Fit.bind fit_modHeader fun a ha => fit_pure ⟨ha, Nat.le_refl _⟩
  | unassigned x pos =>
    refine Fit.bind fit_push fun ws _ => ?_
    refine Fit.bind fit_modHeader fun a ha => ?_
    refine Fit.bind fit_upd fun _ _ => ?_
    refine Fit.bind fit_upd fun _ _ => ?_
    refine Fit.bind fit_upd fun _ _ => ?_
    exact Fit.bind fit_setLits fun a' ha' => fit_pure ⟨ha'.trans ha, Nat.le_refl _⟩
  | none pos =>
    refine Fit.bind fit_modHeader fun a ha => ?_
    refine Fit.bind fit_isFalse fun b _ => ?_
    split
    · exact fit_pure ⟨ha, Nat.le_refl _⟩
    refine Fit.bind fit_upd fun _ _ => ?_
    refine Fit.bind fit_upd fun _ _ => ?_
    refine Fit.bind fit_setLits fun a' ha' => ?_
    refine Fit.bind (fit_assign (by exact h)) fun p1 h1 => fit_pure ?_
    exact KeepSize.trans (p1 := { p with long := a' }) ⟨ha'.trans ha, Nat.le_refl _⟩ h1

theorem fit_propagateLongLoop {l : Lit} : ∀ (ws kept : List Watch) {p : PropState},
    p.load ≤ UNASSIGNED → Fit (propagateLongLoop l ws kept p) (fun r => KeepSize p r.1)
  | [], _, p, _ => .refl p
  | w :: ws, kept, p, h => by
    unfold propagateLongLoop
    refine Fit.bind (fit_visitWatch h) fun r h1 => ?_
    obtain ⟨p1, r⟩ := r
    have h' := Nat.le_trans h1.2 h
    cases r with
    | keep w => exact (fit_propagateLongLoop ws _ h').mono fun _ h2 => h1.trans h2
    | remove => exact (fit_propagateLongLoop ws _ h').mono fun _ h2 => h1.trans h2
    | conflict w => exact fit_pure h1

theorem fit_propagateLong {l : Lit} (h : p.load ≤ UNASSIGNED) :
    Fit (propagateLong p l) (fun r => KeepSize p r.1) := by
  unfold propagateLong
  refine Fit.bind fit_debugM fun _ _ => ?_
  refine Fit.bind fit_idx fun _ _ => ?_
  refine Fit.bind fit_upd fun byLit _ => ?_
  refine Fit.bind (fit_propagateLongLoop _ _ (by exact h)) fun r h1 => ?_
  obtain ⟨p1, kept, r⟩ := r
  dsimp only
  refine Fit.bind fit_debugM fun _ _ => ?_
  refine Fit.bind fit_idx fun _ _ => ?_
  refine Fit.bind fit_debugM fun _ _ => ?_
  exact Fit.bind fit_upd fun _ _ => fit_pure h1

theorem fit_propagateLiteral {l : Lit} (h : p.load ≤ UNASSIGNED) :
    Fit (propagateLiteral p l) (fun r => KeepSize p r.1) := by
  unfold propagateLiteral
  refine Fit.bind fit_idx fun _ _ => ?_
  refine Fit.bind (fit_propagateBinary _ h) fun r h1 => ?_
  obtain ⟨p1, r⟩ := r
  cases r with
  | some c => exact fit_pure h1
  | none => exact (fit_propagateLong (Nat.le_trans h1.2 h)).mono fun _ h2 => h1.trans h2

theorem fit_propagateLoop : ∀ (fuel : Nat) {p : PropState}, p.load ≤ UNASSIGNED →
    Fit (propagateLoop fuel p) (fun r => KeepSize p r.1)
  | 0, _, _ => trivial
  | fuel + 1, p, h => by
    unfold propagateLoop
    split
    · exact fit_pure (.refl p)
    refine Fit.bind (fit_propagateLiteral h) fun r h1 => ?_
    obtain ⟨p1, r⟩ := r
    cases r with
    | some c => exact fit_pure h1
    | none =>
      refine Fit.bind fit_debugM fun _ _ => ?_
      exact (fit_propagateLoop fuel (p := { p1 with trail := { p1.trail with
        propagated := p1.trail.propagated + 1 } }) (Nat.le_trans h1.2 h)).mono fun _ h2 =>
        KeepSize.trans h1 h2

theorem fit_propagate {ctx : Ctx} (he : p.watches.enabled = true) (h : p.load ≤ UNASSIGNED) :
    Fit (propagate ctx p) (fun r => KeepSize p r.2.1) := by
  unfold propagate
  refine Fit.bind (P := fun q => q = p) ?_ fun q hq => ?_
  · unfold enableWatchLists
    rw [if_pos he]
    exact fit_pure rfl
  subst hq
  refine Fit.bind (fit_propagateLoop _ h) fun r h1 => ?_
  obtain ⟨p1, r⟩ := r
  cases r with
  | some c => exact fit_pure h1
  | none => exact Fit.bind fit_debugM fun _ _ => fit_pure h1

/-! ## Conflict analysis: the size of the arena -/

theorem fit_indexOf {t : Trail} {v : Nat} : Fit (t.indexOf v) (fun _ => True) := by
  unfold Trail.indexOf
  refine Fit.bind fit_idx fun _ _ => ?_
  exact Fit.bind fit_debugM fun _ _ => fit_pure trivial

theorem fit_stepForVar {t : Trail} {v : Nat} : Fit (t.stepForVar v) (fun _ => True) := by
  unfold Trail.stepForVar
  exact Fit.bind fit_indexOf fun _ _ => fit_any fit_idx

theorem fit_glueMark {t : Trail} : ∀ (ls : List Lit) (tmp : List Bool) (g : Nat),
    Fit (glueMark t ls tmp g) (fun _ => True)
  | [], _, _ => trivial
  | l :: ls, tmp, g => by
    unfold glueMark
    refine Fit.bind fit_stepForVar fun _ _ => ?_
    refine Fit.bind fit_idx fun _ _ => ?_
    exact Fit.bind fit_upd fun _ _ => fit_glueMark ls _ _

theorem fit_glueClear {t : Trail} : ∀ (ls : List Lit) (tmp : List Bool),
    Fit (glueClear t ls tmp) (fun _ => True)
  | [], _ => trivial
  | l :: ls, tmp => by
    unfold glueClear
    refine Fit.bind fit_stepForVar fun _ _ => ?_
    exact Fit.bind fit_upd fun _ _ => fit_glueClear ls _

theorem fit_computeGlue {t : Trail} {ls : List Lit} {tmp : List Bool} :
    Fit (computeGlue t ls tmp) (fun _ => True) := by
  unfold computeGlue
  refine Fit.bind (fit_glueMark _ _ _) fun _ _ => ?_
  exact Fit.bind (fit_glueClear _ _) fun _ _ => fit_pure trivial

theorem bumpLongClause_size {an an' : Analysis} {c : Nat}
    (e : Analysis.bumpLongClause an p c = .ok (an', p')) :
    p'.long.buffer.length = p.long.buffer.length := by
  unfold Analysis.bumpLongClause at e
  obtain ⟨_, _, e⟩ := bind_eq_ok.1 e
  obtain ⟨_, _, e⟩ := bind_eq_ok.1 e
  obtain ⟨a, e1, e⟩ := bind_eq_ok.1 e
  cases e
  exact fit_modHeader.ok_elim e1

theorem bumpReason_size {an an' : Analysis} {r : Reason}
    (e : Analysis.bumpReason an p r = .ok (an', p')) :
    p'.long.buffer.length = p.long.buffer.length := by
  cases r with
  | long c => exact bumpLongClause_size e
  | _ => cases e; rfl

theorem uipLoop_size {env : Env} : ∀ (k : Nat) {an an' : Analysis} {p p' : PropState} {cb cb' : Callbacks},
    Analysis.uipLoop env k an p cb = .ok (an', p', cb') →
    p'.long.buffer.length = p.long.buffer.length
  | 0, _, _, _, _, _, _, e => by cases e; rfl
  | k + 1, an, an', p, p', cb, cb', e => by
    unfold Analysis.uipLoop at e
    obtain ⟨flag, _, e⟩ := bind_eq_ok.1 e
    obtain ⟨_, _, e⟩ := bind_eq_ok.1 e
    split at e
    · obtain ⟨_, _, e⟩ := bind_eq_ok.1 e
      split at e
      · cases e
      · dsimp only at e
        split at e
        · obtain ⟨_, _, e⟩ := bind_eq_ok.1 e
          cases e; rfl
        · obtain ⟨⟨an1, p1⟩, e1, e⟩ := bind_eq_ok.1 e
          obtain ⟨_, _, e⟩ := bind_eq_ok.1 e
          obtain ⟨_, _, e⟩ := bind_eq_ok.1 e
          exact (uipLoop_size k e).trans (bumpReason_size e1)
    · exact uipLoop_size k e

theorem derive1uip_size {env : Env} {an an' : Analysis} {c : ConflictClause} {cb cb' : Callbacks}
    (e : Analysis.derive1uip env an p c cb = .ok (an', p', cb')) :
    p'.long.buffer.length = p.long.buffer.length := by
  unfold Analysis.derive1uip at e
  obtain ⟨⟨an1, p1⟩, e1, e⟩ := bind_eq_ok.1 e
  obtain ⟨_, _, e⟩ := bind_eq_ok.1 e
  obtain ⟨_, _, e⟩ := bind_eq_ok.1 e
  obtain ⟨⟨an2, p2, cb2⟩, e2, e⟩ := bind_eq_ok.1 e
  obtain ⟨_, _, e⟩ := bind_eq_ok.1 e
  cases e
  refine (uipLoop_size _ e2).trans ?_
  cases c with
  | binary a b => cases e1; rfl
  | long c => exact bumpLongClause_size e1

/-! ## Learning -/

theorem fit_assignUnit {s : Step} (h : p.trail.steps.length < UNASSIGNED) :
    Fit (p.assignUnit s) (fun p' => p'.long = p.long) := by
  unfold PropState.assignUnit
  rw [if_pos h]
  refine Fit.bind fit_upd fun ti _ => ?_
  unfold PartialAssignment.assign
  exact Fit.bind (P := fun _ => True) (Fit.bind fit_upd fun v hv => fit_pure trivial)
    fun v hv => fit_pure rfl

theorem fit_isAssigned {v : PartialAssignment} {x : Nat} : Fit (v.isAssigned x) (fun _ => True) := by
  unfold PartialAssignment.isAssigned
  exact Fit.bind fit_idx fun _ _ => fit_pure trivial

theorem fit_assign' {s : Step} (h : p.trail.steps.length < UNASSIGNED) :
    Fit (p.assign s) (fun p' => p'.long = p.long) := by
  unfold PropState.assign
  refine Fit.bind fit_isAssigned fun _ _ => ?_
  exact Fit.bind fit_debugM fun _ _ => fit_assignUnit h

theorem fit_binaryAdd {bin : List (List Lit)} {a b : Lit} : Fit (binaryAdd bin a b) (fun _ => True) := by
  unfold binaryAdd
  refine Fit.bind fit_idx fun _ _ => ?_
  refine Fit.bind fit_upd fun _ _ => ?_
  refine Fit.bind fit_idx fun _ _ => ?_
  exact fit_any fit_upd

theorem fit_watchClause {w : Watches} {c : Nat} {a b : Lit} : Fit (w.watchClause c a b) (fun _ => True) := by
  unfold Watches.watchClause
  split
  · exact Fit.bind fit_push fun _ _ => fit_push
  · exact fit_pure trivial

/-- The words added for a clause. -/
def longWords (c : List Lit) : Nat := if 2 < c.length then c.length + 3 else 0

/-- Adding a clause succeeds if the arena has less than `2^32` words, and enlarges it by the size of a long
clause; only a unit clause enlarges the trail. -/
theorem fit_addClauseVerbatim {ctx : Ctx} {h : LongHeader} {c : List Lit}
    (hs : p.trail.steps.length < UNASSIGNED) (hb : p.long.buffer.length < 2 ^ 32)
    (hc : c.length < 2 ^ 31) : Fit (addClauseVerbatim ctx p h c) (fun r =>
      r.2.1.long.buffer.length = p.long.buffer.length + longWords c ∧
      ((∀ a, r.2.2 ≠ .unit a) → r.2.1.trail = p.trail)) := by
  match c with
  | [] => exact fit_pure ⟨rfl, fun _ => rfl⟩
  | [a] =>
    simp only [addClauseVerbatim]
    refine Fit.bind fit_isFalse fun b _ => ?_
    split
    · exact fit_pure ⟨rfl, fun _ => rfl⟩
    · exact Fit.bind (fit_assignUnit hs) fun p1 h1 => fit_pure ⟨by rw [h1]; rfl, fun h => absurd rfl (h a)⟩
  | [a, b] =>
    simp only [addClauseVerbatim]
    exact Fit.bind fit_binaryAdd fun _ _ => fit_pure ⟨rfl, fun _ => rfl⟩
  | a :: b :: d :: ls =>
    simp only [addClauseVerbatim]
    have hm : HEADER_MASK.toNat = 2 ^ 31 - 1 := by decide
    have e : Long.add p.long h (a :: b :: d :: ls) = .ok (some
        ({ p.long with buffer := p.long.buffer ++ h.words ++ [Arena.lenWord (a :: b :: d :: ls).length] ++
          (a :: b :: d :: ls).map Lit.code32 }, p.long.buffer.length % 2 ^ 32)) := by
      unfold Long.add Arena.addClause
      simp only [List.isEmpty_cons, Bool.not_false, assertM, if_true, pure_eq, bind_ok]
      rw [if_neg (by omega)]
    rw [e, bind_ok]
    refine Fit.bind fit_watchClause fun w _ => fit_pure ⟨?_, fun _ => rfl⟩
    simp [longWords, LongHeader.words]

theorem fit_debugFalse {v : PartialAssignment} : ∀ (ls : List Lit),
    Fit (Analysis.debugFalse v ls) (fun _ => True)
  | [] => trivial
  | l :: ls => by
    unfold Analysis.debugFalse
    refine Fit.bind fit_isFalse fun _ _ => ?_
    exact Fit.bind fit_debugM fun _ _ => fit_debugFalse ls

theorem fit_debugLearned {v : PartialAssignment} {ls : List Lit} :
    Fit (Analysis.debugLearned v ls) (fun _ => True) := by
  match ls with
  | [] => trivial
  | [a] =>
    simp only [Analysis.debugLearned]
    exact Fit.bind fit_isAssigned fun _ _ => fit_any fit_debugM
  | a :: b :: ls =>
    simp only [Analysis.debugLearned]
    exact fit_debugFalse _

theorem fit_learnedHeader {an : Analysis} :
    Fit (an.learnedHeader p) (fun r => r.1.derivedClause = an.derivedClause) := by
  unfold Analysis.learnedHeader
  split
  · exact Fit.bind fit_computeGlue fun _ _ => fit_pure rfl
  · exact fit_pure rfl

theorem fit_learnAndAssign {ctx : Ctx} {an : Analysis}
    (hs : p.trail.steps.length < UNASSIGNED) (hb : p.long.buffer.length < 2 ^ 32)
    (hc : an.derivedClause.length < 2 ^ 31) : Fit (an.learnAndAssign ctx p) (fun r =>
      r.2.2.long.buffer.length = p.long.buffer.length + longWords an.derivedClause) := by
  unfold Analysis.learnAndAssign
  refine Fit.bind fit_debugLearned fun _ _ => ?_
  refine Fit.bind fit_learnedHeader fun r hr => ?_
  obtain ⟨an', h⟩ := r
  dsimp only at hr ⊢
  rw [← hr] at hc ⊢
  refine Fit.bind (fit_addClauseVerbatim hs hb hc) fun r hr => ?_
  obtain ⟨ctx', p', added⟩ := r
  obtain ⟨h1, h2⟩ := hr
  cases added with
  | empty => exact fit_pure h1
  | unit a => exact fit_pure h1
  | binary a b =>
    have h2 := h2 (by simp)
    refine Fit.bind fit_idx fun _ _ => ?_
    refine Fit.bind (fit_assign' (by rw [h2]; exact hs)) fun p2 h3 => fit_pure ?_
    rw [h3]; exact h1
  | long c =>
    have h2 := h2 (by simp)
    refine Fit.bind fit_idx fun _ _ => ?_
    refine Fit.bind (fit_assign' (by rw [h2]; exact hs)) fun p2 h3 => fit_pure ?_
    rw [h3]; exact h1

/-! ## Garbage collection -/

theorem fit_searchLoop {gaps : List Arena.Gap} {id : Nat} : ∀ (fuel l r : Nat),
    Fit (Arena.searchLoop gaps id fuel l r) (fun _ => True)
  | 0, _, _ => trivial
  | fuel + 1, l, r => by
    unfold Arena.searchLoop
    split
    · refine Fit.bind fit_idx fun _ _ => ?_
      split <;> exact fit_searchLoop fuel _ _
    · exact fit_pure trivial

theorem fit_gapsUpdate {gaps : List Arena.Gap} {c : Nat} : Fit (Arena.gapsUpdate gaps c) (fun _ => True) := by
  unfold Arena.gapsUpdate
  refine Fit.bind (fit_searchLoop _ _ _) fun i _ => ?_
  split
  · refine Fit.bind fit_debugM fun _ _ => ?_
    split
    · exact fit_pure trivial
    · exact Fit.bind fit_debugM fun _ _ => fit_pure trivial
  · exact fit_pure trivial

theorem fit_updateSteps {gaps : List Arena.Gap} : ∀ (ss : List Step),
    Fit (Trail.updateSteps gaps ss) (fun ss' => ss'.length = ss.length)
  | [] => fit_pure rfl
  | s :: ss => by
    unfold Trail.updateSteps
    have jp : ∀ s' : Step, Fit (do
        let ss' ← Trail.updateSteps gaps ss
        pure (s' :: ss')) (fun ss' => ss'.length = (s :: ss).length) := fun s' =>
      Fit.bind (fit_updateSteps ss) fun _ h => fit_pure (by simp [h])
    dsimp only
    split
    · refine Fit.bind fit_gapsUpdate fun r _ => ?_
      cases r with
      | some c => exact jp _
      | none => exact trivial
    · exact jp _

theorem fit_updateList {gaps : List Arena.Gap} : ∀ (ws : List Watch),
    Fit (Watches.updateList gaps ws) (fun _ => True)
  | [] => fit_pure trivial
  | w :: ws => by
    unfold Watches.updateList
    refine Fit.bind fit_gapsUpdate fun r _ => ?_
    refine Fit.bind (fit_updateList ws) fun _ _ => ?_
    cases r <;> exact trivial

theorem fit_updateAll {gaps : List Arena.Gap} : ∀ (ws : List (List Watch)),
    Fit (Watches.updateAll gaps ws) (fun _ => True)
  | [] => fit_pure trivial
  | w :: ws => by
    unfold Watches.updateAll
    refine Fit.bind (fit_updateList w) fun r _ => ?_
    exact Fit.bind (fit_updateAll ws) fun _ _ => fit_pure trivial

/-- Garbage collection succeeds if the arena has less than `2^32` words, and does not enlarge it. -/
theorem fit_collectGarbage {n : Nat} {S : List LC} (h : PInv n S p) (hb : p.long.buffer.length < 2 ^ 32) :
    Fit (collectGarbage p) (fun p' => p'.long.buffer.length ≤ p.long.buffer.length ∧ p'.load = p.load) := by
  unfold collectGarbage
  split
  · unfold collectGarbageNow
    rw [if_pos hb]
    obtain ⟨a', gaps, e1, ρ, hg, hl, hrep, hlen, hz⟩ := h.rep.gc_ok hb
    rw [e1, bind_ok]
    refine Fit.bind (fit_updateSteps _) fun ss hss => ?_
    refine Fit.bind fit_debugM fun _ _ => ?_
    refine Fit.bind (fit_updateAll _) fun ws _ => fit_pure ⟨?_, ?_⟩
    · exact hlen
    · simp only [PropState.load, hss]
  · exact fit_pure ⟨Nat.le_refl _, rfl⟩

end

end Starlit
