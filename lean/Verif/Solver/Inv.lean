import Verif.Solver.LongView
import Verif.HeapLemmas

/-!
# Invariants of the propagation state
-/

namespace Starlit

/-- Sizes of the tables for `n` variables. -/
structure Sized (n : Nat) (p : PropState) : Prop where
  values : p.values.assigned.length = n
  tix : p.trail.trailIndex.length = n
  bin : p.binary.length = n * 2
  wat : p.watches.byLit.length = n * 2
  n_le : n ≤ MAX_INDEX + 1

/-- The trail and the partial assignment. -/
structure TrailInv (n : Nat) (values : PartialAssignment) (t : Trail) : Prop where
  vwf : values.WF
  idx_lt : ∀ s ∈ t.steps, s.lit.index < n
  val_iff : ∀ l, values.val l = some true ↔ ∃ s ∈ t.steps, s.lit = l
  tix : ∀ (i : Nat) (s : Step), t.steps[i]? = some s → ∃ (j : Nat) (s' : Step), t.trailIndex[s.lit.index]? = some j ∧
    t.steps[j]? = some s' ∧ s'.lit = s.lit ∧ i ≤ j ∧ (i = j ∨ (s.level = 0 ∧ s'.level = 0))
  dec0 : t.decisions[0]? = some 0
  level_le : ∀ (i : Nat) (s : Step), t.steps[i]? = some s → s.level ≤ t.decisionLevel
  level : ∀ (i : Nat) (s : Step), t.steps[i]? = some s → ∀ (k d : Nat), 1 ≤ k → t.decisions[k]? = some d →
    (k ≤ s.level ↔ d ≤ i)
  decs : ∀ (k d : Nat), 1 ≤ k → t.decisions[k]? = some d →
    ∃ s, t.steps[d]? = some s ∧ s.reason = .decision ∧ s.level = k
  prop_le : t.propagated ≤ t.steps.length
  prop_level : ∀ (i : Nat) (s : Step), t.propagated ≤ i → t.steps[i]? = some s → s.level = t.decisionLevel

/-- The literal was assigned true before position `i` of the trail. -/
def Before (steps : List Step) (i : Nat) (l : Lit) : Prop :=
  ∃ (j : Nat) (t : Step), j < i ∧ steps[j]? = some t ∧ t.lit = l

/-- What the reason of the step at position `i` stands for. -/
def ReasonOK (bin : List (List Lit)) (S : List LC) (t : Trail) (i : Nat) (s : Step) : Prop :=
  match s.reason with
  | .decision => 1 ≤ s.level ∧ t.decisions[s.level]? = some i
  | .unit => s.level = 0
  | .binary o => (∃ bs, bin[s.lit.code]? = some bs ∧ o ∈ bs) ∧ Before t.steps i o.neg
  | .long c => ∃ e ∈ S, e.ref = c ∧ ∃ rest, e.lits = s.lit :: rest ∧
      ∀ o ∈ rest, Before t.steps i o.neg

/-- All reasons. -/
def ReasonInv (bin : List (List Lit)) (S : List LC) (t : Trail) : Prop :=
  ∀ (i : Nat) (s : Step), t.steps[i]? = some s → ReasonOK bin S t i s

/-- Stored long clauses. -/
structure LongOK (n : Nat) (S : List LC) : Prop where
  len : ∀ e ∈ S, e.live → 3 ≤ e.lits.length ∧ e.hdr.searchPos + 2 < e.lits.length
  idx : ∀ e ∈ S, ∀ l ∈ e.lits, l.index < n

/-- The watch lists mirror the first two literals of the clauses. -/
structure WatchStruct (S : List LC) (byLit : List (List Watch)) : Prop where
  mem : ∀ (l : Lit) ws, byLit[l.code]? = some ws → ∀ w ∈ ws, ∃ e ∈ S, e.ref = w.clause ∧
    (e.live → l ∈ e.lits.take 2 ∧ w.blocking ∈ e.lits.erase l)
  count : ∀ (l : Lit) ws, byLit[l.code]? = some ws → ∀ e ∈ S, e.live →
    ws.countP (fun w => w.clause = e.ref) = (e.lits.take 2).count l

/-- All blocking literals are known. -/
def BlkOK (n : Nat) (byLit : List (List Watch)) : Prop :=
  ∀ ws ∈ byLit, ∀ w ∈ ws, w.blocking.index < n

/-- A clause with a watched literal that was falsified and processed is satisfied at the same or a
lower level. -/
def WatchSat (S : List LC) (steps : List Step) (k : Nat) : Prop :=
  ∀ e ∈ S, e.live → ∀ w ∈ e.lits.take 2, ∀ (i : Nat) (s : Step), i < k → steps[i]? = some s → s.lit = w.neg →
    ∃ t ∈ steps, t.lit ∈ e.lits ∧ t.level ≤ s.level

/-- The binary clause lists. -/
structure BinStruct (n : Nat) (bin : List (List Lit)) : Prop where
  idx : ∀ (a : Lit) bs, bin[a.code]? = some bs → ∀ b ∈ bs, b.index < n
  symm : ∀ (a b : Lit) as bs, bin[a.code]? = some bs → bin[b.code]? = some as →
    bs.count b = as.count a

/-- A binary clause with a processed false literal is satisfied by the other. -/
def BinSat (bin : List (List Lit)) (steps : List Step) (k : Nat) : Prop :=
  ∀ (a : Lit) bs, bin[a.code]? = some bs → ∀ b ∈ bs, ∀ (i : Nat) (s : Step), i < k → steps[i]? = some s →
    s.lit = a.neg → ∃ t ∈ steps, t.lit = b ∧ t.level ≤ s.level

/-- Invariant of the propagation state. -/
structure PInv (n : Nat) (S : List LC) (p : PropState) : Prop where
  sized : Sized n p
  trail : TrailInv n p.values p.trail
  reasons : ReasonInv p.binary S p.trail
  rep : LRep p.long S
  long : LongOK n S
  ws : WatchStruct S p.watches.byLit
  blk : BlkOK n p.watches.byLit
  wsat : WatchSat S p.trail.steps p.trail.propagated
  bs : BinStruct n p.binary
  bsat : BinSat p.binary p.trail.steps p.trail.propagated
  enabled : p.watches.enabled = true
  small : p.trail.steps.length ≤ UNASSIGNED

/-- Two clauses that differ in the order of the literals and the header only. -/
structure LC.Sim (e e' : LC) : Prop where
  ref : e'.ref = e.ref
  lits : e'.lits.Perm e.lits
  red : e'.hdr.redundant = e.hdr.redundant
  prot : e'.hdr.prot = e.hdr.prot

/-- The same clauses up to order of literals and headers. -/
def SSim (S S' : List LC) : Prop := List.Forall₂ LC.Sim S S'

/-! ## Basic consequences -/

theorem LC.Sim.refl (e : LC) : LC.Sim e e := ⟨rfl, .refl _, rfl, rfl⟩

theorem LC.Sim.trans {a b c : LC} (h : LC.Sim a b) (h' : LC.Sim b c) : LC.Sim a c :=
  ⟨h'.ref.trans h.ref, h'.lits.trans h.lits, h'.red.trans h.red, h'.prot.trans h.prot⟩

theorem LC.Sim.live {a b : LC} (h : LC.Sim a b) : b.live = a.live := by
  have := h.lits.length_eq
  unfold LC.live
  cases ha : a.lits <;> cases hb : b.lits <;> simp_all

theorem SSim.refl (S : List LC) : SSim S S := by
  induction S with
  | nil => exact .nil
  | cons e S ih => exact .cons (.refl e) ih

theorem SSim.trans {S T U : List LC} (h : SSim S T) (h' : SSim T U) : SSim S U := by
  induction h generalizing U with
  | nil => cases h'; exact .nil
  | cons a _ ih => cases h' with | cons b h' => exact .cons (a.trans b) (ih h')

theorem SSim.symm_mem {S S' : List LC} (h : SSim S S') {e : LC} (he : e ∈ S) :
    ∃ e' ∈ S', LC.Sim e e' := by
  induction h with
  | nil => simp at he
  | cons a _ ih =>
    rcases List.mem_cons.1 he with rfl | he
    · exact ⟨_, by simp, a⟩
    · obtain ⟨e', h1, h2⟩ := ih he
      exact ⟨e', by simp [h1], h2⟩

theorem SSim.mem {S S' : List LC} (h : SSim S S') {e' : LC} (he : e' ∈ S') :
    ∃ e ∈ S, LC.Sim e e' := by
  induction h with
  | nil => simp at he
  | cons a _ ih =>
    rcases List.mem_cons.1 he with rfl | he
    · exact ⟨_, by simp, a⟩
    · obtain ⟨e', h1, h2⟩ := ih he
      exact ⟨e', by simp [h1], h2⟩

theorem SSim.mod {S : List LC} {r : Nat} {f : LC → LC}
    (hf : ∀ e ∈ S, e.ref = r → LC.Sim e (f e)) : SSim S (modS S r f) := by
  induction S with
  | nil => exact .nil
  | cons e S ih =>
    refine .cons ?_ (ih (fun x hx => hf x (by simp [hx])))
    show LC.Sim e (if e.ref = r then f e else e)
    by_cases h : e.ref = r
    · rw [if_pos h]; exact hf e (by simp) h
    · rw [if_neg h]; exact .refl e

namespace TrailInv
variable {n : Nat} {values : PartialAssignment} {t : Trail}

theorem val_false_iff (h : TrailInv n values t) (l : Lit) :
    values.val l = some false ↔ ∃ s ∈ t.steps, s.lit = l.neg := by
  rw [← h.val_iff, PartialAssignment.val_neg h.vwf]
  cases values.val l with
  | none => simp
  | some b => cases b <;> simp

theorem not_both (h : TrailInv n values t) {s s' : Step} (hs : s ∈ t.steps) (hs' : s' ∈ t.steps) :
    s.lit ≠ s'.lit.neg := by
  intro e
  have h1 := (h.val_iff s'.lit).2 ⟨s', hs', rfl⟩
  have h2 := (h.val_false_iff s'.lit).2 ⟨s, hs, e⟩
  rw [h1] at h2; simp at h2

/-- The levels do not decrease along the trail. -/
theorem level_mono (h : TrailInv n values t) {i j : Nat} {s s' : Step} (hi : t.steps[i]? = some s)
    (hj : t.steps[j]? = some s') (hij : i ≤ j) : s.level ≤ s'.level := by
  by_cases h0 : s.level = 0
  · omega
  have hle := h.level_le i s hi
  have hd : 0 < t.decisions.length := by
    have := h.dec0
    by_contra hc
    simp at hc; simp [hc] at this
  have hk : s.level < t.decisions.length := by unfold Trail.decisionLevel at hle; omega
  have hd := List.getElem?_eq_getElem hk
  have h1 := (h.level i s hi s.level _ (by omega) hd).1 (Nat.le_refl _)
  exact (h.level j s' hj s.level _ (by omega) hd).2 (by omega)

/-- Above level zero every literal occurs once, at the recorded index. -/
theorem tix_pos (h : TrailInv n values t) {i : Nat} {s : Step} (hi : t.steps[i]? = some s)
    (hl : s.level ≠ 0) : t.trailIndex[s.lit.index]? = some i := by
  obtain ⟨j, s', h1, h2, h3, h4, h5⟩ := h.tix i s hi
  rcases h5 with rfl | h5
  · exact h1
  · exact absurd h5.1 hl

/-- The step found through the index of an assigned variable. -/
theorem step_of_mem (h : TrailInv n values t) {s : Step} (hs : s ∈ t.steps) :
    ∃ (j : Nat) (s' : Step), t.trailIndex[s.lit.index]? = some j ∧ t.steps[j]? = some s' ∧ s'.lit = s.lit ∧
      s'.level = s.level := by
  obtain ⟨i, hi⟩ := List.mem_iff_getElem?.1 hs
  obtain ⟨j, s', h1, h2, h3, h4, h5⟩ := h.tix i s hi
  refine ⟨j, s', h1, h2, h3, ?_⟩
  rcases h5 with rfl | h5
  · rw [hi] at h2; injection h2 with h2; rw [h2]
  · omega

theorem decisions_pos (h : TrailInv n values t) : 0 < t.decisions.length := by
  have := h.dec0
  by_contra hc
  simp at hc; simp [hc] at this

end TrailInv

/-- Two steps of the same literal have the same level. -/
theorem TrailInv.level_unique {n : Nat} {values : PartialAssignment} {t : Trail}
    (h : TrailInv n values t) {s s' : Step} (hs : s ∈ t.steps) (hs' : s' ∈ t.steps)
    (e : s.lit = s'.lit) : s.level = s'.level := by
  obtain ⟨j, u, h1, h2, h3, h4⟩ := h.step_of_mem hs
  obtain ⟨j', u', h1', h2', h3', h4'⟩ := h.step_of_mem hs'
  rw [e, h1'] at h1
  injection h1 with h1
  subst h1
  rw [h2] at h2'
  injection h2' with h2'
  subst h2'
  omega

/-! ## Assigning a literal -/

theorem getElem?_snoc {α : Type} {l : List α} {a b : α} {i : Nat} :
    (l ++ [a])[i]? = some b ↔ l[i]? = some b ∨ (i = l.length ∧ a = b) := by
  rcases Nat.lt_trichotomy i l.length with h | h | h
  · rw [List.getElem?_append_left h]
    constructor
    · exact .inl
    · rintro (h1 | h1)
      · exact h1
      · omega
  · subst h
    simp
  · rw [List.getElem?_eq_none (by simp; omega), List.getElem?_eq_none (by omega)]
    simp; omega

/-- The trail after `assign_raw`. -/
def Trail.push (t : Trail) (s : Step) : Trail :=
  { t with trailIndex := t.trailIndex.set s.lit.index t.steps.length, steps := t.steps ++ [s] }

/-- The assignment after `assign_raw`. -/
def PartialAssignment.push (v : PartialAssignment) (l : Lit) : PartialAssignment :=
  ⟨v.assigned.set l.index l.code8⟩

theorem assignUnit_eq {n : Nat} {p : PropState} {s : Step} (hs : Sized n p) (hl : s.lit.index < n) :
    p.assignUnit s = if p.trail.steps.length < UNASSIGNED then
      .ok { p with values := p.values.push s.lit, trail := p.trail.push s } else .error .tooBig := by
  unfold PropState.assignUnit
  by_cases h : p.trail.steps.length < UNASSIGNED
  · rw [if_pos h, if_pos h]
    unfold PartialAssignment.assign
    rw [upd_ok (by rw [hs.tix]; exact hl), upd_ok (by rw [hs.values]; exact hl)]
    rfl
  · rw [if_neg h, if_neg h]; rfl

theorem assign_eq {n : Nat} {p : PropState} {s : Step} (hs : Sized n p) (hl : s.lit.index < n)
    (hw : p.values.WF) (hun : p.values.val s.lit = none) :
    p.assign s = if p.trail.steps.length < UNASSIGNED then
      .ok { p with values := p.values.push s.lit, trail := p.trail.push s } else .error .tooBig := by
  unfold PropState.assign
  rw [PartialAssignment.isAssigned_eq hw (by rw [hs.values]; exact hl), bind_ok,
    debugM_ok (by simp [hun]), bind_ok, assignUnit_eq hs hl]

theorem Sized.push {n : Nat} {p : PropState} (hs : Sized n p) (s : Step) :
    Sized n { p with values := p.values.push s.lit, trail := p.trail.push s } :=
  ⟨by simp [PartialAssignment.push, hs.values], by simp [Trail.push, hs.tix], hs.bin, hs.wat,
    hs.n_le⟩

/-- Appending a step that is not a decision. -/
theorem TrailInv.push {n : Nat} {values : PartialAssignment} {t : Trail} (h : TrailInv n values t)
    {s : Step} (hv : values.assigned.length = n) (ht : t.trailIndex.length = n)
    (hl : s.lit.index < n) (hlev : s.level = t.decisionLevel)
    (hun : values.val s.lit = none ∨ (t.decisionLevel = 0 ∧ values.val s.lit = some true)) :
    TrailInv n (values.push s.lit) (t.push s) := by
  have hnf : values.val s.lit ≠ some false := by rcases hun with e | ⟨_, e⟩ <;> simp [e]
  refine ⟨PartialAssignment.WF_assign h.vwf, ?_, ?_, ?_, h.dec0, ?_, ?_, ?_, ?_, ?_⟩
  · intro x hx
    simp only [Trail.push, List.mem_append, List.mem_singleton] at hx
    rcases hx with hx | rfl
    · exact h.idx_lt x hx
    · exact hl
  · intro l
    simp only [Trail.push, PartialAssignment.push, List.mem_append, List.mem_singleton]
    rw [PartialAssignment.val_assign (by omega)]
    by_cases h1 : l = s.lit
    · subst h1; simp only [if_true, true_iff]; exact ⟨s, .inr rfl, rfl⟩
    · rw [if_neg h1]
      by_cases h2 : l = s.lit.neg
      · rw [if_pos h2]
        simp only [Option.some.injEq, Bool.false_eq_true, false_iff, not_exists, not_and]
        rintro x (hx | rfl) e
        · exact hnf ((h.val_false_iff s.lit).2 ⟨x, hx, by rw [e, h2]⟩)
        · exact h1 e.symm
      · rw [if_neg h2, h.val_iff]
        constructor
        · rintro ⟨x, hx, e⟩; exact ⟨x, .inl hx, e⟩
        · rintro ⟨x, hx | rfl, e⟩
          · exact ⟨x, hx, e⟩
          · exact absurd e.symm h1
  · intro i x hx
    simp only [Trail.push] at hx ⊢
    rw [getElem?_snoc] at hx
    rcases hx with hx | ⟨rfl, rfl⟩
    · by_cases he : x.lit.index = s.lit.index
      · -- same variable: a duplicate at level zero
        have hxm : x ∈ t.steps := List.mem_iff_getElem?.2 ⟨i, hx⟩
        have hx1 : x.lit = s.lit := by
          rcases Lit.eq_or_eq_neg he with e | e
          · exact e
          · exact absurd ((h.val_false_iff s.lit).2 ⟨x, hxm, e⟩) hnf
        have ht1 : values.val s.lit = some true := (h.val_iff _).2 ⟨x, hxm, hx1⟩
        have hd : t.decisionLevel = 0 := by
          rcases hun with e | ⟨e, _⟩
          · rw [e] at ht1; simp at ht1
          · exact e
        have hi : i < t.steps.length := (List.getElem?_eq_some_iff.1 hx).1
        refine ⟨t.steps.length, s, ?_, by simp, hx1.symm, by omega, .inr ⟨?_, by omega⟩⟩
        · rw [he, List.getElem?_set_self (by omega)]
        · have := h.level_le i x hx; omega
      · obtain ⟨j, s', h1, h2, h3, h4, h5⟩ := h.tix i x hx
        refine ⟨j, s', ?_, ?_, h3, h4, h5⟩
        · rw [List.getElem?_set_ne (fun e => he e.symm)]; exact h1
        · exact getElem?_snoc.2 (.inl h2)
    · refine ⟨t.steps.length, s, ?_, by simp, rfl, Nat.le_refl _, .inl rfl⟩
      rw [List.getElem?_set_self (by omega)]
  · intro i x hx
    simp only [Trail.push] at hx ⊢
    rw [getElem?_snoc] at hx
    rcases hx with hx | ⟨rfl, rfl⟩
    · exact h.level_le i x hx
    · exact Nat.le_of_eq hlev
  · intro i x hx k d hk hd
    simp only [Trail.push] at hx hd
    rw [getElem?_snoc] at hx
    rcases hx with hx | ⟨rfl, rfl⟩
    · exact h.level i x hx k d hk hd
    · obtain ⟨y, hy, _, _⟩ := h.decs k d hk hd
      have h1 : d < t.steps.length := (List.getElem?_eq_some_iff.1 hy).1
      have h2 : k < t.decisions.length := (List.getElem?_eq_some_iff.1 hd).1
      rw [hlev, Trail.decisionLevel]
      omega
  · intro k d hk hd
    obtain ⟨y, hy, e1, e2⟩ := h.decs k d hk hd
    exact ⟨y, getElem?_snoc.2 (.inl hy), e1, e2⟩
  · simp only [Trail.push, List.length_append, List.length_singleton]
    have := h.prop_le; omega
  · intro i x hi hx
    simp only [Trail.push] at hx hi
    rw [getElem?_snoc] at hx
    rcases hx with hx | ⟨rfl, rfl⟩
    · exact h.prop_level i x hi hx
    · exact hlev

/-- Opening a level with a decision, when everything is propagated. -/
theorem TrailInv.pushDecision {n : Nat} {values : PartialAssignment} {t : Trail}
    (h : TrailInv n values t) {l : Lit} (hv : values.assigned.length = n)
    (ht : t.trailIndex.length = n) (hl : l.index < n) (hp : t.propagated = t.steps.length)
    (hun : values.val l = none) :
    TrailInv n (values.push l)
      ({ t with decisions := t.decisions ++ [t.steps.length] }.push
        ⟨l, t.decisions.length, .decision⟩) := by
  have hpos := h.decisions_pos
  have hlev : ∀ (x : Step) (i : Nat), t.steps[i]? = some x → x.level < t.decisions.length := by
    intro x i hx; have := h.level_le i x hx; unfold Trail.decisionLevel at this; omega
  refine ⟨PartialAssignment.WF_assign h.vwf, ?_, ?_, ?_, ?_, ?_, ?_, ?_, ?_, ?_⟩
  · intro x hx
    simp only [Trail.push, List.mem_append, List.mem_singleton] at hx
    rcases hx with hx | rfl
    · exact h.idx_lt x hx
    · exact hl
  · intro m
    simp only [Trail.push, PartialAssignment.push, List.mem_append, List.mem_singleton]
    rw [PartialAssignment.val_assign (by omega)]
    by_cases h1 : m = l
    · subst h1; simp only [if_true, true_iff]; exact ⟨_, .inr rfl, rfl⟩
    · rw [if_neg h1]
      by_cases h2 : m = l.neg
      · rw [if_pos h2]
        simp only [Option.some.injEq, Bool.false_eq_true, false_iff, not_exists, not_and]
        rintro x (hx | rfl) e
        · have := (h.val_false_iff l).2 ⟨x, hx, by rw [e, h2]⟩
          rw [hun] at this; simp at this
        · exact h1 e.symm
      · rw [if_neg h2, h.val_iff]
        constructor
        · rintro ⟨x, hx, e⟩; exact ⟨x, .inl hx, e⟩
        · rintro ⟨x, hx | rfl, e⟩
          · exact ⟨x, hx, e⟩
          · exact absurd e.symm h1
  · intro i x hx
    simp only [Trail.push] at hx ⊢
    rw [getElem?_snoc] at hx
    rcases hx with hx | ⟨rfl, rfl⟩
    · have he : x.lit.index ≠ l.index := by
        intro he
        have hxm : x ∈ t.steps := List.mem_iff_getElem?.2 ⟨i, hx⟩
        rcases Lit.eq_or_eq_neg he with e | e
        · have := (h.val_iff l).2 ⟨x, hxm, e⟩
          rw [hun] at this; simp at this
        · have := (h.val_false_iff l).2 ⟨x, hxm, e⟩
          rw [hun] at this; simp at this
      obtain ⟨j, s', h1, h2, h3, h4, h5⟩ := h.tix i x hx
      refine ⟨j, s', ?_, ?_, h3, h4, h5⟩
      · rw [List.getElem?_set_ne (fun e => he e.symm)]; exact h1
      · exact getElem?_snoc.2 (.inl h2)
    · refine ⟨t.steps.length, _, ?_, by simp, rfl, Nat.le_refl _, .inl rfl⟩
      rw [List.getElem?_set_self (by omega)]
  · simp only [Trail.push]
    exact getElem?_snoc.2 (.inl h.dec0)
  · intro i x hx
    simp only [Trail.push, Trail.decisionLevel, List.length_append, List.length_singleton] at hx ⊢
    rw [getElem?_snoc] at hx
    rcases hx with hx | ⟨rfl, rfl⟩
    · have := hlev x i hx; omega
    · simp
  · intro i x hx k d hk hd
    simp only [Trail.push] at hx hd
    rw [getElem?_snoc] at hx hd
    rcases hx with hx | ⟨rfl, rfl⟩
    · rcases hd with hd | ⟨rfl, rfl⟩
      · exact h.level i x hx k d hk hd
      · have := hlev x i hx
        have hi : i < t.steps.length := (List.getElem?_eq_some_iff.1 hx).1
        omega
    · rcases hd with hd | ⟨rfl, rfl⟩
      · obtain ⟨y, hy, _, _⟩ := h.decs k d hk hd
        have h1 : d < t.steps.length := (List.getElem?_eq_some_iff.1 hy).1
        have h2 : k < t.decisions.length := (List.getElem?_eq_some_iff.1 hd).1
        simp only; omega
      · simp
  · intro k d hk hd
    simp only [Trail.push] at hd ⊢
    rw [getElem?_snoc] at hd
    rcases hd with hd | ⟨rfl, rfl⟩
    · obtain ⟨y, hy, e1, e2⟩ := h.decs k d hk hd
      exact ⟨y, getElem?_snoc.2 (.inl hy), e1, e2⟩
    · exact ⟨_, getElem?_snoc.2 (.inr ⟨rfl, rfl⟩), rfl, rfl⟩
  · simp only [Trail.push, List.length_append, List.length_singleton]
    have := h.prop_le; omega
  · intro i x hi hx
    simp only [Trail.push, Trail.decisionLevel, List.length_append, List.length_singleton] at hx hi ⊢
    rw [getElem?_snoc] at hx
    rcases hx with hx | ⟨rfl, rfl⟩
    · have : i < t.steps.length := (List.getElem?_eq_some_iff.1 hx).1
      omega
    · simp

end Starlit
