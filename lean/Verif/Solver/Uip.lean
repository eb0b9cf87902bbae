import Verif.Solver.Db
import Verif.Solver.Glue
import Verif.Solver.Vsids

/-!
# Derivation of the 1-UIP clause
-/

namespace Starlit

/-- Flagged trail indices of the current level. -/
def curSet (t : Trail) (flags : List Bool) : Finset Nat :=
  (Finset.range t.steps.length).filter (fun i => flags[i]? = some true ∧
    (t.steps[i]?.map Step.level) = some t.decisionLevel)

theorem mem_curSet {t : Trail} {flags : List Bool} {i : Nat} :
    i ∈ curSet t flags ↔ flags[i]? = some true ∧
      ∃ s, t.steps[i]? = some s ∧ s.level = t.decisionLevel := by
  unfold curSet
  rw [Finset.mem_filter, Finset.mem_range]
  constructor
  · rintro ⟨_, h1, h2⟩
    cases hs : t.steps[i]? with
    | none => rw [hs] at h2; simp at h2
    | some s => rw [hs] at h2; simp at h2; exact ⟨h1, s, rfl, h2⟩
  · rintro ⟨h1, s, h2, h3⟩
    exact ⟨(List.getElem?_eq_some_iff.1 h2).1, h1, by rw [h2]; simp [h3]⟩

/-- State of the derivation: the flagged literals, all at trail indices below `k`, and the pending
literals together lead to a conflict by unit propagation. -/
structure UipInv (D : DB) (t : Trail) (k : Nat) (pend : List Lit) (an : Analysis) : Prop where
  flen : t.steps.length ≤ an.currentClauseLits.length
  glen : t.decisionLevel < an.glueLevelFlags.length
  glue : AllFalse an.glueLevelFlags
  low : ∀ i, an.currentClauseLits[i]? = some true → i < k ∧ ∃ s, t.steps[i]? = some s ∧ s.level ≠ 0
  der : ∀ l ∈ an.derivedClause, ∃ (i : Nat) (s : Step), t.steps[i]? = some s ∧ s.lit = l.neg ∧
    s.level ≠ t.decisionLevel ∧ s.level ≠ 0 ∧ an.currentClauseLits[i]? = some true
  nodup : an.derivedClause.Nodup
  der' : ∀ (i : Nat) (s : Step), an.currentClauseLits[i]? = some true → t.steps[i]? = some s →
    s.level ≠ t.decisionLevel → s.lit.neg ∈ an.derivedClause
  count : an.currentLevelLitCount = (curSet t an.currentClauseLits).card
  closure : ∀ A : Lit → Prop, (∀ (i : Nat) (s : Step), an.currentClauseLits[i]? = some true →
    t.steps[i]? = some s → Implied D A s.lit) → (∀ l ∈ pend, Implied D A l.neg) → UpConflict D A

section
variable {env : Env} {n : Nat} {values : PartialAssignment} {t : Trail} {D : DB}

/-- A flagged literal of the pending clause. -/
def Flagged (t : Trail) (flags : List Bool) (l : Lit) : Prop :=
  ∀ (i : Nat) (s : Step), t.steps[i]? = some s → s.lit = l.neg → s.level ≠ 0 → flags[i]? = some true

theorem addLiteral_spec (ht : TrailInv n values t)
    (h0 : ∀ s ∈ t.steps, s.level = 0 → ∀ A, Implied D A s.lit) {k : Nat} {l : Lit} {ls : List Lit}
    {an : Analysis} {cb : Callbacks} (h : UipInv D t k (l :: ls) an) (hcb : CbInv env n cb)
    (hb : Before t.steps k l.neg) :
    ∃ an' cb', an.addLiteral env t l cb = .ok (an', cb') ∧ UipInv D t k ls an' ∧
      CbKeep env n cb cb' ∧ an'.minimize = an.minimize ∧
      (∀ i : Nat, an.currentClauseLits[i]? = some true → an'.currentClauseLits[i]? = some true) ∧
      Flagged t an'.currentClauseLits l := by
  obtain ⟨i0, s0, hi0, hs0, e0⟩ := hb
  have hm0 : s0 ∈ t.steps := List.mem_iff_getElem?.2 ⟨i0, hs0⟩
  obtain ⟨i, s, h1, h2, h3, h4⟩ := ht.step_of_mem hm0
  have hidx : s0.lit.index = l.index := by rw [e0, Lit.index_neg]
  rw [hidx] at h1
  have hsl : s.lit = l.neg := h3.trans e0
  have hm : s ∈ t.steps := List.mem_iff_getElem?.2 ⟨i, h2⟩
  have hln : l.index < n := by rw [← hidx]; exact ht.idx_lt _ hm0
  unfold Analysis.addLiteral
  rw [Trail.indexOf_ok h1 h2 (by rw [hsl, Lit.index_neg]), bind_ok, idx_ok h2, bind_ok]
  by_cases hz : s.level = 0
  · rw [if_pos hz]
    refine ⟨an, cb, rfl, ⟨h.flen, h.glen, h.glue, h.low, h.der, h.nodup, h.der', h.count, ?_⟩,
      .refl hcb, rfl, fun _ h => h, ?_⟩
    · intro A hA hp
      refine h.closure A hA ?_
      intro x hx
      rcases List.mem_cons.1 hx with rfl | hx
      · rw [← hsl]; exact h0 s hm hz A
      · exact hp x hx
    · intro j x hj hxl hx0
      have := ht.level_unique (List.mem_iff_getElem?.2 ⟨j, hj⟩) hm (hxl.trans hsl.symm)
      omega
  rw [if_neg hz]
  have hi : i = i0 := by
    have := ht.tix_pos hs0 (by omega)
    rw [hidx, h1] at this
    injection this
  have hik : i < k := by omega
  have hil : i < an.currentClauseLits.length :=
    Nat.lt_of_lt_of_le (List.getElem?_eq_some_iff.1 h2).1 h.flen
  have hold := List.getElem?_eq_getElem hil
  generalize an.currentClauseLits[i] = old at hold
  rw [idx_ok hold, bind_ok, upd_ok hil, bind_ok]
  have hmem : ∀ j, (an.currentClauseLits.set i true)[j]? = some true ↔
      j = i ∨ an.currentClauseLits[j]? = some true := fun j => getElem?_set_true hil
  have hclo : ∀ A : Lit → Prop, (∀ (j : Nat) (x : Step),
      (an.currentClauseLits.set i true)[j]? = some true → t.steps[j]? = some x →
      Implied D A x.lit) → (∀ l ∈ ls, Implied D A l.neg) → UpConflict D A := by
    intro A hA hp
    refine h.closure A (fun j x hj hx => hA j x ((hmem j).2 (.inr hj)) hx) ?_
    intro x hx
    rcases List.mem_cons.1 hx with rfl | hx
    · rw [← hsl]; exact hA i s ((hmem i).2 (.inl rfl)) h2
    · exact hp x hx
  have hfl : Flagged t (an.currentClauseLits.set i true) l := by
    intro j x hj hxl hx0
    have := ht.tix_pos hj hx0
    rw [hxl, Lit.index_neg, h1] at this
    injection this with this
    exact (hmem j).2 (.inl this.symm)
  have hmono : ∀ j, an.currentClauseLits[j]? = some true →
      (an.currentClauseLits.set i true)[j]? = some true := fun j hj => (hmem j).2 (.inr hj)
  have hlow : ∀ j, (an.currentClauseLits.set i true)[j]? = some true → j < k ∧
      ∃ s, t.steps[j]? = some s ∧ s.level ≠ 0 := by
    intro j hj
    rcases (hmem j).1 hj with rfl | hj
    · exact ⟨hik, s, h2, hz⟩
    · exact h.low j hj
  have hder : ∀ l ∈ an.derivedClause, ∃ (j : Nat) (s : Step), t.steps[j]? = some s ∧
      s.lit = l.neg ∧ s.level ≠ t.decisionLevel ∧ s.level ≠ 0 ∧
      (an.currentClauseLits.set i true)[j]? = some true := by
    intro x hx
    obtain ⟨j, y, a1, a2, a3, a4, a5⟩ := h.der x hx
    exact ⟨j, y, a1, a2, a3, a4, hmono j a5⟩
  cases old with
  | true =>
    have hset : an.currentClauseLits.set i true = an.currentClauseLits := by
      apply List.ext_getElem?
      intro j
      by_cases hj : i = j
      · subst hj; rw [List.getElem?_set_self hil, hold]
      · rw [List.getElem?_set_ne hj]
    refine ⟨_, cb, rfl, ?_, .refl hcb, rfl, hmono, hfl⟩
    exact ⟨by simpa using h.flen, h.glen, h.glue, hlow, hder, h.nodup,
      by simp only [hset]; exact h.der', by simp only [hset]; exact h.count, hclo⟩
  | false =>
    obtain ⟨v', hv', hk⟩ := bumpVar_spec hcb hln
    simp only [Bool.false_eq_true, if_false]
    rw [hv', bind_ok]
    by_cases hlev : s.level = t.decisionLevel
    · rw [if_pos hlev]
      refine ⟨_, _, rfl, ?_, hk, rfl, hmono, hfl⟩
      refine ⟨by simpa using h.flen, h.glen, h.glue, hlow, hder, h.nodup, ?_, ?_, hclo⟩
      · intro j x hj hx hne
        rcases (hmem j).1 hj with rfl | hj
        · rw [h2] at hx; cases hx; exact absurd hlev hne
        · exact h.der' j x hj hx hne
      · have : curSet t (an.currentClauseLits.set i true) =
            insert i (curSet t an.currentClauseLits) := by
          ext j
          rw [Finset.mem_insert, mem_curSet, mem_curSet, hmem]
          constructor
          · rintro ⟨rfl | hj, hx⟩
            · exact .inl rfl
            · exact .inr ⟨hj, hx⟩
          · rintro (rfl | ⟨hj, hx⟩)
            · exact ⟨.inl rfl, s, h2, hlev⟩
            · exact ⟨.inr hj, hx⟩
        simp only [this]
        rw [Finset.card_insert_of_notMem, h.count]
        rw [mem_curSet, hold]; simp
    · rw [if_neg hlev]
      refine ⟨_, _, rfl, ?_, hk, rfl, hmono, hfl⟩
      refine ⟨by simpa using h.flen, h.glen, h.glue, hlow, ?_, ?_, ?_, ?_, hclo⟩
      · intro x hx
        simp only [List.mem_append, List.mem_singleton] at hx
        rcases hx with hx | rfl
        · exact hder x hx
        · exact ⟨i, s, h2, hsl, hlev, hz, (hmem i).2 (.inl rfl)⟩
      · refine List.nodup_append.2 ⟨h.nodup, by simp, ?_⟩
        intro x hx y hy
        simp at hy
        subst hy
        rintro rfl
        obtain ⟨j, y, a1, a2, a3, a4, a5⟩ := h.der x hx
        have := ht.tix_pos a1 a4
        rw [a2, Lit.index_neg, h1] at this
        injection this with this
        subst this
        rw [hold] at a5; simp at a5
      · intro j x hj hx hne
        simp only [List.mem_append, List.mem_singleton]
        rcases (hmem j).1 hj with rfl | hj
        · rw [h2] at hx; cases hx; right; rw [hsl, Lit.neg_neg]
        · left; exact h.der' j x hj hx hne
      · have : curSet t (an.currentClauseLits.set i true) = curSet t an.currentClauseLits := by
          ext j
          rw [mem_curSet, mem_curSet, hmem]
          constructor
          · rintro ⟨rfl | hj, x, hx, hxl⟩
            · rw [h2] at hx; cases hx; exact absurd hxl hlev
            · exact ⟨hj, x, hx, hxl⟩
          · rintro ⟨hj, hx⟩; exact ⟨.inr hj, hx⟩
        simp only [this]; exact h.count

theorem addLiterals_spec (ht : TrailInv n values t)
    (h0 : ∀ s ∈ t.steps, s.level = 0 → ∀ A, Implied D A s.lit) {k : Nat} (ls : List Lit) :
    ∀ {an : Analysis} {cb : Callbacks}, UipInv D t k ls an → CbInv env n cb →
    (∀ l ∈ ls, Before t.steps k l.neg) →
    ∃ an' cb', Analysis.addLiterals env t ls an cb = .ok (an', cb') ∧ UipInv D t k [] an' ∧
      CbKeep env n cb cb' ∧ an'.minimize = an.minimize ∧
      (∀ i : Nat, an.currentClauseLits[i]? = some true → an'.currentClauseLits[i]? = some true) ∧
      ∀ l ∈ ls, Flagged t an'.currentClauseLits l := by
  induction ls with
  | nil => intro an cb h hcb _; exact ⟨an, cb, rfl, h, .refl hcb, rfl, fun _ h => h, by simp⟩
  | cons l ls ih =>
    intro an cb h hcb hb
    obtain ⟨an1, cb1, e1, h1, k1, m1, f1, g1⟩ := addLiteral_spec ht h0 h hcb (hb l (by simp))
    obtain ⟨an2, cb2, e2, h2, k2, m2, f2, g2⟩ := ih h1 k1.inv (fun x hx => hb x (by simp [hx]))
    refine ⟨an2, cb2, ?_, h2, k1.trans k2, m2.trans m1, fun i hi => f2 i (f1 i hi), ?_⟩
    · simp only [Analysis.addLiterals, e1, bind_ok]; exact e2
    · intro x hx
      rcases List.mem_cons.1 hx with rfl | hx
      · intro i s a b c; exact f2 i (g1 i s a b c)
      · exact g2 x hx

end

/-! ## Bumping clauses -/

theorem LongHeader.WF.setGlue {h : LongHeader} (hw : h.WF) (g : Nat) : (h.setGlue g).WF :=
  ((C21_header_fields h).2.2.2.2.2 hw).2.2.1 g

theorem LongHeader.WF.setUsed {h : LongHeader} (hw : h.WF) (g : Nat) : (h.setUsed g).WF :=
  ((C21_header_fields h).2.2.2.2.2 hw).2.2.2.1 g

theorem LongHeader.WF.setProt {h : LongHeader} (hw : h.WF) (g : Bool) : (h.setProt g).WF :=
  ((C21_header_fields h).2.2.2.2.2 hw).2.1 g

/-- The header of a clause that was used in a conflict. -/
def LongHeader.bumped (h : LongHeader) (g : Nat) : LongHeader :=
  (h.setGlue g).setUsed ((h.setGlue g).used + 1)

/-- The clauses with these references were used in a conflict. -/
def bumpS (steps : List Step) (S : List LC) (B : List Nat) : List LC :=
  S.map (fun e => if e.ref ∈ B then { e with hdr := e.hdr.bumped (numLevels steps e.lits) } else e)

theorem bumpS_nil (steps : List Step) (S : List LC) : bumpS steps S [] = S := by
  unfold bumpS; simp

/-- The reference of a long reason. -/
def Reason.refs : Reason → List Nat
  | .long c => [c]
  | _ => []

/-- The reference of a long conflict. -/
def ConflictClause.refs : ConflictClause → List Nat
  | .long c => [c]
  | .binary _ _ => []

theorem bumpLongClause_spec {n : Nat} {S : List LC} {p : PropState} {an : Analysis}
    (h : PInv n S p) (hg : AllFalse an.glueLevelFlags)
    (hl : p.trail.decisionLevel < an.glueLevelFlags.length) {e : LC} (he : e ∈ S)
    (has : ∀ l ∈ e.lits, ∃ s ∈ p.trail.steps, s.lit.index = l.index) :
    ∃ tmp a', an.bumpLongClause p e.ref = .ok ({ an with glueLevelFlags := tmp },
        { p with long := a' }) ∧ AllFalse tmp ∧ tmp.length = an.glueLevelFlags.length ∧
      ∃ S', SSim S S' ∧ S' = bumpS p.trail.steps S [e.ref] ∧ PInv n S' { p with long := a' } := by
  obtain ⟨tmp, e1, l1, f1⟩ := h.trail.computeGlue hg hl has
  let f : LongHeader → LongHeader := fun h => h.bumped (numLevels p.trail.steps e.lits)
  obtain ⟨a', e2, S', hs, hS, hp⟩ := h.modHeader he (f := f)
    (((h.rep.hdrWF he).setGlue _).setUsed _)
    (fun hlive => (h.long.len e he hlive).2)
    (by simp only [f, LongHeader.bumped]; rw [LongHeader.redundant_setUsed, LongHeader.redundant_setGlue])
    (by simp only [f, LongHeader.bumped]; rw [LongHeader.prot_setUsed, LongHeader.prot_setGlue])
  refine ⟨tmp, a', ?_, f1, l1, S', hs, ?_, hp⟩
  swap
  · rw [hS]
    unfold modS bumpS
    apply List.map_congr_left
    intro x hx
    simp only [List.mem_singleton]
    split
    · rename_i hr
      rw [h.rep.unique hx he hr]
    · rfl
  unfold Analysis.bumpLongClause
  rw [h.rep.headerAndLits_ok he, bind_ok]
  simp only
  rw [e1, bind_ok]
  simp only
  rw [show Long.modHeader p.long e.ref (fun h => (h.setGlue (numLevels p.trail.steps e.lits)).setUsed
    ((h.setGlue (numLevels p.trail.steps e.lits)).used + 1)) = _ from e2, bind_ok]
  rfl

/-! ## The loop -/

/-- Conflict analysis only changes headers of clauses. -/
structure OnlyHeaders (n : Nat) (S : List LC) (p : PropState) (S' : List LC) (p' : PropState) :
    Prop where
  sim : SSim S S'
  inv : PInv n S' p'
  eq : ∃ a, p' = { p with long := a }

theorem OnlyHeaders.refl {n : Nat} {S : List LC} {p : PropState} (h : PInv n S p) :
    OnlyHeaders n S p S p := ⟨.refl S, h, p.long, rfl⟩

theorem OnlyHeaders.trans {n : Nat} {S S' S'' : List LC} {p p' p'' : PropState}
    (h : OnlyHeaders n S p S' p') (h' : OnlyHeaders n S' p' S'' p'') : OnlyHeaders n S p S'' p'' := by
  obtain ⟨a, rfl⟩ := h.eq
  obtain ⟨b, rfl⟩ := h'.eq
  exact ⟨h.sim.trans h'.sim, h'.inv, b, rfl⟩

theorem ConflictOK.sim {S S' : List LC} {p p' : PropState} {c : ConflictClause}
    (h : ConflictOK S p c) (hs : SSim S S') (hb : p'.binary = p.binary)
    (ht : p'.trail = p.trail) : ConflictOK S' p' c := by
  cases c with
  | binary a b => simpa only [ConflictOK, hb, ht] using h
  | long c =>
    obtain ⟨e, he, rfl, hl, h1, h2⟩ := h
    obtain ⟨e', he', hsim⟩ := hs.symm_mem he
    refine ⟨e', he', hsim.ref, by rw [hsim.live]; exact hl, ?_, ?_⟩
    · intro l hx; rw [ht]; exact h1 l (hsim.lits.mem_iff.1 hx)
    · obtain ⟨l, hx, h3⟩ := h2
      rw [ht]
      exact ⟨l, hsim.lits.mem_iff.2 hx, h3⟩

theorem bumpConflict_spec {n : Nat} {S : List LC} {p : PropState} {an : Analysis}
    (h : PInv n S p) (hg : AllFalse an.glueLevelFlags)
    (hl : p.trail.decisionLevel < an.glueLevelFlags.length) {c : ConflictClause}
    (hc : ConflictOK S p c) :
    ∃ tmp p', an.bumpConflict p c = .ok ({ an with glueLevelFlags := tmp }, p') ∧ AllFalse tmp ∧
      tmp.length = an.glueLevelFlags.length ∧ ∃ S', OnlyHeaders n S p S' p' ∧
        S' = bumpS p.trail.steps S c.refs := by
  cases c with
  | binary a b => exact ⟨an.glueLevelFlags, p, rfl, hg, rfl, S, .refl h, (bumpS_nil _ _).symm⟩
  | long c =>
    obtain ⟨e, he, rfl, hlive, h1, h2⟩ := hc
    obtain ⟨tmp, a', e1, f1, l1, S', hs, hS, hp⟩ := bumpLongClause_spec (an := an) h hg hl he (by
      intro l hx
      obtain ⟨s, hs, e⟩ := h1 l hx
      exact ⟨s, hs, by rw [e, Lit.index_neg]⟩)
    exact ⟨tmp, _, e1, f1, l1, S', ⟨hs, hp, a', rfl⟩, hS⟩

theorem bumpReason_spec {n : Nat} {S : List LC} {p : PropState} {an : Analysis}
    (h : PInv n S p) (hg : AllFalse an.glueLevelFlags)
    (hl : p.trail.decisionLevel < an.glueLevelFlags.length) {i : Nat} {s : Step}
    (hs : p.trail.steps[i]? = some s) :
    ∃ tmp p', an.bumpReason p s.reason = .ok ({ an with glueLevelFlags := tmp }, p') ∧
      AllFalse tmp ∧ tmp.length = an.glueLevelFlags.length ∧ ∃ S', OnlyHeaders n S p S' p' ∧
        S' = bumpS p.trail.steps S s.reason.refs := by
  have hr := h.reasons i s hs
  unfold ReasonOK at hr
  cases hx : s.reason with
  | decision => exact ⟨an.glueLevelFlags, p, rfl, hg, rfl, S, .refl h, (bumpS_nil _ _).symm⟩
  | unit => exact ⟨an.glueLevelFlags, p, rfl, hg, rfl, S, .refl h, (bumpS_nil _ _).symm⟩
  | binary o => exact ⟨an.glueLevelFlags, p, rfl, hg, rfl, S, .refl h, (bumpS_nil _ _).symm⟩
  | long c =>
    rw [hx] at hr
    obtain ⟨e, he, rfl, rest, h1, h2⟩ := hr
    obtain ⟨tmp, a', e1, f1, l1, S', hs, hS, hp⟩ := bumpLongClause_spec (an := an) h hg hl he (by
      intro l hx
      rw [h1] at hx
      rcases List.mem_cons.1 hx with rfl | hx
      · exact ⟨s, List.mem_iff_getElem?.2 ⟨i, hs⟩, rfl⟩
      · obtain ⟨j, y, _, hy, e⟩ := h2 l hx
        exact ⟨y, List.mem_iff_getElem?.2 ⟨j, hy⟩, by rw [e, Lit.index_neg]⟩)
    exact ⟨tmp, _, e1, f1, l1, S', ⟨hs, hp, a', rfl⟩, hS⟩

/-- `clear_flags`. -/
theorem clearFlags_spec {t : Trail} (ls : List Lit) : ∀ (flags : List Bool),
    (∀ l ∈ ls, ∃ i, t.indexOf l.index = .ok i ∧ i < flags.length) →
    ∃ flags', Analysis.clearFlags t ls flags = .ok flags' ∧ flags'.length = flags.length ∧
      ∀ k : Nat, flags'[k]? = some true ↔ flags[k]? = some true ∧
        ∀ l ∈ ls, t.trailIndex[l.index]? ≠ some k := by
  induction ls with
  | nil => intro flags _; exact ⟨flags, rfl, rfl, by simp⟩
  | cons l ls ih =>
    intro flags hl
    obtain ⟨i, h0, h2⟩ := hl l (by simp)
    have h1 := Trail.indexOf_eq_ok h0
    obtain ⟨f', e, l', m⟩ := ih (flags.set i false) (by
      intro x hx
      obtain ⟨j, a, b⟩ := hl x (by simp [hx])
      exact ⟨j, a, by simpa using b⟩)
    refine ⟨f', ?_, by simpa using l', ?_⟩
    · simp only [Analysis.clearFlags]
      rw [h0, bind_ok, upd_ok h2, bind_ok, e]
    · intro k
      rw [m, getElem?_set_false]
      simp only [List.mem_cons, forall_eq_or_imp, h1, ne_eq, Option.some.injEq]
      constructor
      · rintro ⟨⟨a, b⟩, c⟩; exact ⟨b, fun e => a e.symm, c⟩
      · rintro ⟨a, b, c⟩; exact ⟨⟨fun e => b e.symm, a⟩, c⟩

/-- The result of `derive_1uip_clause`: a clause with exactly one literal of the current level, the
last one, whose negation leads to a conflict by unit propagation. -/
structure UipClause (D : DB) (t : Trail) (c : List Lit) : Prop where
  split : ∃ (R : List Lit) (k : Nat) (u : Step), c = R ++ [u.lit.neg] ∧ t.steps[k]? = some u ∧
    u.level = t.decisionLevel ∧ R.Nodup ∧
    ∀ l ∈ R, ∃ (i : Nat) (s : Step), t.steps[i]? = some s ∧ s.lit = l.neg ∧ s.level ≠ 0 ∧
      s.level < t.decisionLevel
  rup : RUP D (c : Multiset Lit)

/-- The analysis buffers are clean. -/
structure AnClean (t : Trail) (an : Analysis) : Prop where
  flags : AllFalse an.currentClauseLits
  flen : t.steps.length ≤ an.currentClauseLits.length
  glue : AllFalse an.glueLevelFlags
  glen : t.decisionLevel < an.glueLevelFlags.length
  count : an.currentLevelLitCount = 0

theorem uipLoop_spec {env : Env} {n : Nat} {F L : DB} (k : Nat) :
    ∀ {S : List LC} {p : PropState} {an : Analysis} {cb : Callbacks}, PInv n S p →
    DBInv F L S p.binary p.trail.steps p.unsat → UipInv (F + L) p.trail k [] an →
    CbInv env n cb → 1 ≤ an.currentLevelLitCount → k ≤ p.trail.steps.length →
    ∃ an' p' cb' S', Analysis.uipLoop env k an p cb = .ok (an', p', cb') ∧
      OnlyHeaders n S p S' p' ∧ CbKeep env n cb cb' ∧ AnClean p.trail an' ∧
      an'.minimize = an.minimize ∧ UipClause (F + L) p.trail an'.derivedClause := by
  induction k with
  | zero =>
    intro S p an cb h d u hcb hc hk
    rw [u.count, Nat.succ_le_iff, Finset.card_pos] at hc
    obtain ⟨i, hi⟩ := hc
    have := (u.low i (mem_curSet.1 hi).1).1
    omega
  | succ k ih =>
    intro S p an cb h d u hcb hc hk
    have hks : k < p.trail.steps.length := by omega
    have hkf : k < an.currentClauseLits.length := Nat.lt_of_lt_of_le hks u.flen
    have hs := List.getElem?_eq_getElem hks
    generalize p.trail.steps[k] = s at hs
    have hf := List.getElem?_eq_getElem hkf
    generalize an.currentClauseLits[k] = flag at hf
    have hmem : ∀ j, (an.currentClauseLits.set k false)[j]? = some true ↔
        j ≠ k ∧ an.currentClauseLits[j]? = some true := fun j => getElem?_set_false
    have hlow : ∀ j, (an.currentClauseLits.set k false)[j]? = some true → j < k ∧
        ∃ s, p.trail.steps[j]? = some s ∧ s.level ≠ 0 := by
      intro j hj
      obtain ⟨a, b⟩ := (hmem j).1 hj
      obtain ⟨c, d⟩ := u.low j b
      exact ⟨by omega, d⟩
    unfold Analysis.uipLoop
    rw [idx_ok hf, bind_ok, upd_ok hkf, bind_ok]
    cases flag with
    | false =>
      simp only [Bool.false_eq_true, if_false]
      have hset : an.currentClauseLits.set k false = an.currentClauseLits := by
        apply List.ext_getElem?
        intro j
        by_cases hj : k = j
        · subst hj; rw [List.getElem?_set_self hkf, hf]
        · rw [List.getElem?_set_ne hj]
      rw [hset] at hlow ⊢
      exact ih h d ⟨u.flen, u.glen, u.glue, hlow, u.der, u.nodup, u.der', u.count, u.closure⟩ hcb hc
        (by omega)
    | true =>
      simp only [if_true]
      rw [idx_ok hs, bind_ok]
      -- the literal is of the current level
      have hslev : s.level = p.trail.decisionLevel := by
        have hc' := hc
        rw [u.count, Nat.succ_le_iff, Finset.card_pos] at hc'
        obtain ⟨i, hi⟩ := hc'
        obtain ⟨hi1, x, hx, hxl⟩ := mem_curSet.1 hi
        have hik := (u.low i hi1).1
        have h1 := h.trail.level_mono hx hs (by omega)
        have h2 := h.trail.level_le k s hs
        omega
      have hs0 : s.level ≠ 0 := by
        obtain ⟨_, x, hx, hx0⟩ := u.low k hf
        rw [hs] at hx; cases hx; exact hx0
      have hcard : (curSet p.trail (an.currentClauseLits.set k false)).card + 1 =
          (curSet p.trail an.currentClauseLits).card := by
        have : curSet p.trail an.currentClauseLits =
            insert k (curSet p.trail (an.currentClauseLits.set k false)) := by
          ext j
          rw [Finset.mem_insert, mem_curSet, mem_curSet, hmem]
          constructor
          · rintro ⟨a, b⟩
            by_cases hj : j = k
            · exact .inl hj
            · exact .inr ⟨⟨hj, a⟩, b⟩
          · rintro (rfl | ⟨⟨_, a⟩, b⟩)
            · exact ⟨hf, s, hs, hslev⟩
            · exact ⟨a, b⟩
        rw [this, Finset.card_insert_of_notMem]
        rw [mem_curSet, hmem]; simp
      rw [if_neg (by omega)]
      by_cases hlast : an.currentLevelLitCount - 1 = 0
      · rw [if_pos hlast]
        have hempty : ∀ j, j ∉ curSet p.trail (an.currentClauseLits.set k false) := by
          intro j hj
          have := Finset.card_pos.2 ⟨j, hj⟩
          rw [u.count] at hlast
          omega
        have htix : ∀ l ∈ an.derivedClause, ∃ i, p.trail.indexOf l.index = .ok i ∧
            i < (an.currentClauseLits.set k false).length := by
          intro l hl
          obtain ⟨i, x, a1, a2, a3, a4, a5⟩ := u.der l hl
          refine ⟨i, ?_, ?_⟩
          · have := h.trail.tix_pos a1 a4
            rw [a2, Lit.index_neg] at this
            exact Trail.indexOf_ok this a1 (by rw [a2, Lit.index_neg])
          · rw [List.length_set]
            exact (List.getElem?_eq_some_iff.1 a5).1
        obtain ⟨f', e1, l1, m1⟩ := clearFlags_spec an.derivedClause
          (an.currentClauseLits.set k false) htix
        rw [e1, bind_ok]
        refine ⟨_, p, cb, S, rfl, .refl h, .refl hcb, ⟨?_, ?_, u.glue, u.glen, hlast⟩, rfl, ?_⟩
        · intro j hj
          obtain ⟨a, b⟩ := (m1 j).1 hj
          obtain ⟨_, x, hx, hx0⟩ := hlow j a
          have hne : x.level ≠ p.trail.decisionLevel := by
            intro e
            exact hempty j (mem_curSet.2 ⟨a, x, hx, e⟩)
          have hd := u.der' j x ((hmem j).1 a).2 hx hne
          refine b _ hd ?_
          rw [Lit.index_neg]
          exact h.trail.tix_pos hx hx0
        · simp only [l1, List.length_set]; exact u.flen
        · refine ⟨⟨an.derivedClause, k, s, rfl, hs, hslev, u.nodup, ?_⟩, ?_⟩
          · intro l hl
            obtain ⟨i, x, a1, a2, a3, a4, a5⟩ := u.der l hl
            have := h.trail.level_le i x a1
            exact ⟨i, x, a1, a2, a4, by omega⟩
          · refine u.closure _ ?_ (by simp)
            intro i x hi hx
            refine .asm ?_
            simp only [Multiset.mem_coe, List.mem_append, List.mem_singleton]
            by_cases hik : i = k
            · subst hik
              rw [hs] at hx; cases hx
              exact .inr rfl
            · left
              refine u.der' i x hi hx ?_
              intro e
              exact hempty i (mem_curSet.2 ⟨(hmem i).2 ⟨hik, hi⟩, x, hx, e⟩)
      · rw [if_neg hlast]
        -- there is another literal of the current level, so this is not the decision
        have hnd : s.reason ≠ .decision := by
          intro hdec
          have hr := h.reasons k s hs
          unfold ReasonOK at hr
          rw [hdec] at hr
          have hpos : 0 < (curSet p.trail (an.currentClauseLits.set k false)).card := by
            rw [u.count] at hlast; omega
          obtain ⟨j, hj⟩ := Finset.card_pos.1 hpos
          obtain ⟨a, x, hx, hxl⟩ := mem_curSet.1 hj
          have := (h.trail.level j x hx s.level k hr.1 hr.2).1 (by omega)
          have := (hlow j a).1
          omega
        obtain ⟨tmp, p1, e1, f1, l1, S1, o1, _⟩ := bumpReason_spec
          (an := { an with
            currentClauseLits := an.currentClauseLits.set k false
            currentLevelLitCount := an.currentLevelLitCount - 1 }) h u.glue u.glen hs
        rw [e1, bind_ok]
        simp only
        obtain ⟨a1, rfl⟩ := o1.eq
        obtain ⟨rs, e2, b2, _⟩ := o1.inv.reason (i := k) (s := s) hs
        rw [e2, bind_ok]
        have d1 : DBInv F L S1 p.binary p.trail.steps p.unsat := d.sim o1.sim
        have u1 : UipInv (F + L) p.trail k rs
            { an with
              currentClauseLits := an.currentClauseLits.set k false
              currentLevelLitCount := an.currentLevelLitCount - 1
              glueLevelFlags := tmp } := by
          refine ⟨by simpa using u.flen, by simp only [l1]; exact u.glen, f1, hlow, ?_, u.nodup, ?_,
            ?_, ?_⟩
          · intro l hl
            obtain ⟨i, x, a1, a2, a3, a4, a5⟩ := u.der l hl
            refine ⟨i, x, a1, a2, a3, a4, (hmem i).2 ⟨?_, a5⟩⟩
            rintro rfl
            rw [hs] at a1; cases a1; exact a3 hslev
          · intro i x hi hx hne
            exact u.der' i x ((hmem i).1 hi).2 hx hne
          · simp only; rw [u.count]; omega
          · intro A hA hp
            refine u.closure A ?_ (by simp)
            intro i x hi hx
            by_cases hik : i = k
            · subst hik
              rw [hs] at hx; cases hx
              exact o1.inv.implied_step d1 hs hnd e2 hp
            · exact hA i x ((hmem i).2 ⟨hik, hi⟩) hx
        obtain ⟨an2, cb2, e3, u2, k2, m2, g2, _⟩ := addLiterals_spec (env := env) h.trail
          (fun s hs h0 A => h.implied0 d hs h0 A) rs u1 hcb b2
        rw [e3, bind_ok]
        simp only
        have hc2 : 1 ≤ an2.currentLevelLitCount := by
          rw [u2.count, Nat.succ_le_iff, Finset.card_pos]
          have hpos : 0 < (curSet p.trail (an.currentClauseLits.set k false)).card := by
            rw [u.count] at hlast; omega
          obtain ⟨j, hj⟩ := Finset.card_pos.1 hpos
          obtain ⟨a, b⟩ := mem_curSet.1 hj
          exact ⟨j, mem_curSet.2 ⟨g2 j a, b⟩⟩
        obtain ⟨an3, p3, cb3, S3, e4, o3, k3, c3, m3, q3⟩ := ih o1.inv d1 u2 k2.inv hc2
          (by simp only; omega)
        exact ⟨an3, p3, cb3, S3, e4, o1.trans o3, k2.trans k3, c3, m3.trans m2, q3⟩

/-- The buffers of the analysis between calls. -/
structure AnIdle (an : Analysis) : Prop where
  flags : AllFalse an.currentClauseLits
  glue : AllFalse an.glueLevelFlags
  count : an.currentLevelLitCount = 0

theorem derive1uip_spec {env : Env} {n : Nat} {F L : DB} {S : List LC} {p : PropState}
    {an : Analysis} {cb : Callbacks} {c : ConflictClause} (h : PInv n S p)
    (d : DBInv F L S p.binary p.trail.steps p.unsat) (ha : AnIdle an) (hcb : CbInv env n cb)
    (hc : ConflictOK S p c) (hl : p.trail.decisionLevel ≠ 0) :
    ∃ an' p' cb' S', Analysis.derive1uip env an p c cb = .ok (an', p', cb') ∧
      OnlyHeaders n S p S' p' ∧ CbKeep env n cb cb' ∧ AnClean p.trail an' ∧
      an'.minimize = an.minimize ∧ UipClause (F + L) p.trail an'.derivedClause := by
  unfold Analysis.derive1uip
  simp only
  have hg1 := ha.glue.resize (max an.glueLevelFlags.length (p.trail.decisionLevel + 1))
  have hf1 := ha.flags.resize (max an.currentClauseLits.length p.trail.steps.length)
  obtain ⟨tmp, p1, e1, f1, l1, S1, o1, _⟩ := bumpConflict_spec
    (an := { an with derivedClause := [] }.updateTrailLen p.trail) h hg1
    (by simp only [Analysis.updateTrailLen, Heap.resizeList_length]; omega) hc
  rw [e1, bind_ok]
  simp only
  obtain ⟨a1, rfl⟩ := o1.eq
  have d1 : DBInv F L S1 p.binary p.trail.steps p.unsat := d.sim o1.sim
  have hc1 : ConflictOK S1 { p with long := a1 } c := hc.sim o1.sim rfl rfl
  obtain ⟨ls, e2, b2, ⟨l, hl1, s, hs1, hs2, hs3⟩, hD⟩ := o1.inv.conflict d1 hc1
  rw [e2, bind_ok]
  have u1 : UipInv (F + L) p.trail p.trail.steps.length ls
      { ({ an with derivedClause := [] } : Analysis).updateTrailLen p.trail with glueLevelFlags := tmp } := by
    refine ⟨?_, ?_, f1, ?_, by simp [Analysis.updateTrailLen], by simp [Analysis.updateTrailLen],
      ?_, ?_, ?_⟩
    · simp only [Analysis.updateTrailLen, Heap.resizeList_length]; omega
    · simp only [l1, Analysis.updateTrailLen, Heap.resizeList_length]; omega
    · intro i hi; exact absurd hi (hf1 i)
    · intro i x hi; exact absurd hi (hf1 i)
    · simp only [Analysis.updateTrailLen, ha.count]
      symm
      rw [Finset.card_eq_zero]
      ext i
      simp only [Finset.notMem_empty, iff_false]
      intro hi
      exact hf1 i (mem_curSet.1 hi).1
    · intro A _ hp
      exact ⟨_, hD, by simpa using hp⟩
  obtain ⟨an2, cb2, e3, u2, k2, m2, g2, q2⟩ := addLiterals_spec (env := env) h.trail
    (fun s hs h0 A => h.implied0 d hs h0 A) ls u1 hcb (by
      intro x hx
      obtain ⟨y, hy, e⟩ := b2 x hx
      obtain ⟨i, hi⟩ := List.mem_iff_getElem?.1 hy
      exact ⟨i, y, (List.getElem?_eq_some_iff.1 hi).1, hi, e⟩)
  rw [e3, bind_ok]
  simp only
  have hc2 : 1 ≤ an2.currentLevelLitCount := by
    rw [u2.count, Nat.succ_le_iff, Finset.card_pos]
    obtain ⟨i, hi⟩ := List.mem_iff_getElem?.1 hs1
    exact ⟨i, mem_curSet.2 ⟨q2 l hl1 i s hi hs2 (by rw [hs3]; exact hl), s, hi, hs3⟩⟩
  obtain ⟨an3, p3, cb3, S3, e4, o3, k3, c3, m3, q3⟩ := uipLoop_spec (env := env)
    p.trail.steps.length o1.inv d1 u2 k2.inv hc2 (Nat.le_refl _)
  rw [e4, bind_ok]
  simp only
  refine ⟨an3, p3, cb3, S3, ?_, o1.trans o3, k2.trans k3, c3, m3.trans m2, q3⟩
  rw [c3.count]
  rfl

end Starlit
