import Mathlib.Algebra.BigOperators.Fin
import Verif.Props.Sizes
import Verif.Props.Memory
import Verif.Props.Range

/-!
# C94: the memory of the solver

The lengths of all vectors of the state add up to at most a multiple of the number of variables, of the unit clauses and of
the words that the stored clauses need: nothing is left behind by conflict analysis, backtracking or deleted clauses.
-/

namespace Starlit

/-! ## The buffers of conflict analysis -/

theorem len_upd {α : Type} {v : List α} {i : Nat} {x : α} : Res (upd v i x) (fun v' => v'.length = v.length) := by
  unfold upd
  split
  · exact Res.pure (by simp)
  · exact Res.throw

theorem len_glueMark {t : Trail} : ∀ (ls : List Lit) {tmp : List Bool} {glue : Nat},
    Res (glueMark t ls tmp glue) (fun r => r.1.length = tmp.length)
  | [], _, _ => Res.pure rfl
  | _ :: ls, _, _ => by
    unfold glueMark
    exact Res.any fun _ => Res.any fun _ => Res.bind len_upd fun _ h => (len_glueMark ls).mono fun _ h' => h'.trans h

theorem len_glueClear {t : Trail} : ∀ (ls : List Lit) {tmp : List Bool},
    Res (glueClear t ls tmp) (fun r => r.length = tmp.length)
  | [], _ => Res.pure rfl
  | _ :: ls, _ => by
    unfold glueClear
    exact Res.any fun _ => Res.bind len_upd fun _ h => (len_glueClear ls).mono fun _ h' => h'.trans h

theorem len_computeGlue {t : Trail} {ls : List Lit} {tmp : List Bool} :
    Res (computeGlue t ls tmp) (fun r => r.2.length = tmp.length) := by
  unfold computeGlue
  exact Res.bind (len_glueMark ls) fun _ h => Res.bind (len_glueClear ls) fun _ h' => Res.pure (h'.trans h)

namespace Minimize

/-- The buffers have the same lengths. -/
def Keeps (m m' : Minimize) : Prop :=
  m'.firstOnLevel.length = m.firstOnLevel.length ∧ m'.cache.length = m.cache.length

theorem Keeps.refl {m : Minimize} : Keeps m m := ⟨rfl, rfl⟩

theorem Keeps.trans {m m' m'' : Minimize} (h : Keeps m m') (h' : Keeps m' m'') : Keeps m m'' :=
  ⟨h'.1.trans h.1, h'.2.trans h.2⟩

variable {m : Minimize} {p : PropState}

theorem keeps_setCache {i : Nat} {b : Bool} : Res (m.setCache i b) (Keeps m) := by
  unfold setCache
  exact Res.bind len_upd fun _ h => Res.pure ⟨rfl, h⟩

theorem keeps_failStack : ∀ (st : List (Nat × List Lit)) {m : Minimize}, Res (m.failStack st) (Keeps m)
  | [], _ => Res.pure .refl
  | (_, _) :: st, _ => by
    unfold failStack
    exact Res.bind keeps_setCache fun _ h => (keeps_failStack st).mono fun _ h' => h.trans h'

theorem keeps_iterLoop : ∀ (fuel : Nat) {m : Minimize} {st : List (Nat × List Lit)} {i : Nat} {ls : List Lit},
    Res (iterLoop p fuel m st i ls) (fun r => Keeps m r.1)
  | 0, _, _, _, _ => Res.throw
  | fuel + 1, m, st, i, [] => by
    unfold iterLoop
    refine Res.bind keeps_setCache fun m1 h => ?_
    split
    · exact Res.pure h
    · exact (keeps_iterLoop fuel).mono fun _ h' => h.trans h'
  | fuel + 1, m, st, i, l :: ls => by
    unfold iterLoop
    refine Res.any fun j => Res.any fun r => ?_
    split
    · exact keeps_iterLoop fuel
    · exact Res.bind keeps_setCache fun _ h => Res.bind (keeps_failStack _) fun _ h' => Res.pure (h.trans h')
    · refine Res.any fun _ => Res.any fun _ => Res.any fun r => ?_
      split
      · exact Res.bind keeps_setCache fun _ h => Res.bind keeps_setCache fun _ h1 =>
          Res.bind (keeps_failStack _) fun _ h' => Res.pure ((h.trans h1).trans h')
      · exact Res.bind keeps_setCache fun _ h => (keeps_iterLoop fuel).mono fun _ h' => h.trans h'
      · exact keeps_iterLoop fuel

theorem keeps_allRedundant {t : Trail} {f : Minimize → Nat → M (Minimize × Bool)}
    (hf : ∀ m i, Res (f m i) (fun r => Keeps m r.1)) : ∀ (ls : List Lit) {m : Minimize},
    Res (allRedundant t f ls m) (fun r => Keeps m r.1)
  | [], _ => Res.pure .refl
  | _ :: ls, m => by
    unfold allRedundant
    refine Res.any fun i => Res.bind (hf m i) fun r h => ?_
    obtain ⟨m1, b⟩ := r
    dsimp only
    split
    · exact (keeps_allRedundant hf ls).mono fun _ h' => h.trans h'
    · exact Res.pure h

theorem keeps_redundantRec {t : Trail} {f : Minimize → Nat → M (Minimize × Bool)}
    (hf : ∀ m i, Res (f m i) (fun r => Keeps m r.1)) (m : Minimize) (i : Nat) :
    Res (redundantRec t f m i) (fun r => Keeps m r.1) := by
  unfold redundantRec
  refine Res.any fun r => ?_
  split
  · exact Res.pure .refl
  · exact hf m i

theorem keeps_redundantUncached : ∀ (k : Nat) (m : Minimize) (i : Nat),
    Res (redundantUncached p k m i) (fun r => Keeps m r.1)
  | 0, m, i => by
    unfold redundantUncached
    refine Res.any fun _ => Res.any fun _ => Res.any fun r => ?_
    split
    · exact Res.bind keeps_setCache fun _ h => Res.pure h
    · exact Res.bind keeps_setCache fun _ h => Res.pure h
    · exact keeps_iterLoop _
  | k + 1, m, i => by
    unfold redundantUncached
    refine Res.any fun _ => Res.any fun _ => Res.any fun r => ?_
    split
    · exact Res.bind keeps_setCache fun _ h => Res.pure h
    · exact Res.bind keeps_setCache fun _ h => Res.pure h
    · refine Res.bind (keeps_allRedundant (keeps_redundantRec (keeps_redundantUncached k)) _) fun r h => ?_
      obtain ⟨m1, b⟩ := r
      exact Res.bind keeps_setCache fun _ h' => Res.pure (h.trans h')

theorem keeps_retainLit {l : Lit} : Res (retainLit p m l) (fun r => Keeps m r.1) := by
  unfold retainLit
  refine Res.any fun i => Res.any fun s => Res.any fun first => ?_
  split
  · exact Res.bind len_upd fun f h => Res.bind keeps_setCache fun _ h' => Res.pure ⟨h'.1.trans h, h'.2⟩
  · refine Res.bind (keeps_redundantUncached _ _ _) fun r h => ?_
    obtain ⟨m1, b⟩ := r
    exact Res.bind keeps_setCache fun _ h' => Res.pure (h.trans h')

theorem keeps_retainLoop : ∀ (ls : List Lit) {m : Minimize}, Res (retainLoop p ls m) (fun r => Keeps m r.1)
  | [], _ => Res.pure .refl
  | _ :: ls, m => by
    unfold retainLoop
    refine Res.bind keeps_retainLit fun r h => ?_
    obtain ⟨m1, b⟩ := r
    exact Res.bind (keeps_retainLoop ls) fun _ h' => Res.pure (h.trans h')

theorem len_cleanCache : ∀ (is : List Nat) {cache : List (Option Bool)},
    Res (cleanCache is cache) (fun r => r.length = cache.length)
  | [], _ => Res.pure rfl
  | _ :: is, _ => by
    unfold cleanCache
    exact Res.bind len_upd fun _ h => (len_cleanCache is).mono fun _ h' => h'.trans h

theorem len_cleanLevels {t : Trail} : ∀ (ls : List Lit) {f : List Nat},
    Res (cleanLevels t ls f) (fun r => r.length = f.length)
  | [], _ => Res.pure rfl
  | _ :: ls, _ => by
    unfold cleanLevels
    exact Res.any fun _ => Res.bind len_upd fun _ h => (len_cleanLevels ls).mono fun _ h' => h'.trans h

/-- The buffers of the minimization are within the given lengths. -/
def Room (T D : Nat) (m : Minimize) : Prop := m.firstOnLevel.length ≤ D ∧ m.cache.length ≤ T ∧ m.toClean = []

theorem room_minimize {T D : Nat} {c : List Lit} (h : Room T D m) (ht : p.trail.steps.length ≤ T)
    (hd : p.trail.decisionLevel + 1 ≤ D) : Res (m.minimize c p) (fun r => Room T D r.1) := by
  unfold minimize
  refine Res.bind (P := fun m => m.firstOnLevel.length ≤ D ∧ m.cache.length ≤ T) ?_ fun m1 h1 => Res.any fun keyed => ?_
  · unfold prepare
    refine Res.bind len_upd fun f hf => Res.pure ⟨?_, ?_⟩
    · simp only
      rw [hf]
      split
      · rw [Heap.resizeList_length]; exact hd
      · exact h.1
    · simp only
      split
      · rw [Heap.resizeList_length]; exact ht
      · exact h.2.1
  dsimp only
  split
  · exact Res.throw
  refine Res.bind (keeps_retainLoop _) fun r h2 => ?_
  obtain ⟨m2, kept⟩ := r
  refine Res.bind (len_cleanCache _) fun cache hc => Res.bind (len_cleanLevels _) fun f hf => ?_
  refine Res.any fun _ => Res.any fun _ => Res.pure ⟨?_, ?_, rfl⟩
  · simp only [Keeps] at *; omega
  · simp only [Keeps] at *; omega

end Minimize

namespace Analysis

/-- The buffers of conflict analysis are within the given lengths. -/
def Room (T D : Nat) (an : Analysis) : Prop :=
  an.currentClauseLits.length ≤ T ∧ an.glueLevelFlags.length ≤ D ∧ an.minimize.Room T D

variable {env : Env} {an : Analysis} {p : PropState} {T D : Nat}

theorem room_bumpLongClause {c : Nat} (h : Room T D an) : Res (bumpLongClause an p c) (fun r => Room T D r.1 ∧
    r.2.trail = p.trail) := by
  unfold bumpLongClause
  refine Res.any fun r => Res.bind len_computeGlue fun r h1 => Res.any fun _ => Res.pure ⟨⟨h.1, ?_, h.2.2⟩, rfl⟩
  simp only; rw [h1]; exact h.2.1

theorem room_addLiteral {t : Trail} {l : Lit} {cb : Callbacks} (h : Room T D an) :
    Res (addLiteral env an t l cb) (fun r => Room T D r.1) := by
  unfold addLiteral
  refine Res.any fun i => Res.any fun s => ?_
  split
  · exact Res.pure h
  refine Res.any fun old => Res.bind len_upd fun flags hf => ?_
  have h1 : Room T D { an with currentClauseLits := flags } := ⟨by simp only; rw [hf]; exact h.1, h.2⟩
  dsimp only
  split
  · exact Res.pure h1
  refine Res.any fun _ => ?_
  split
  · exact Res.pure h1
  · exact Res.pure h1

theorem room_addLiterals {t : Trail} : ∀ (ls : List Lit) {an : Analysis} {cb : Callbacks}, Room T D an →
    Res (addLiterals env t ls an cb) (fun r => Room T D r.1)
  | [], _, _, h => Res.pure h
  | _ :: ls, _, _, h => by
    unfold addLiterals
    exact Res.bind (room_addLiteral h) fun _ h' => room_addLiterals ls h'

theorem len_clearFlags {t : Trail} : ∀ (ls : List Lit) {flags : List Bool},
    Res (clearFlags t ls flags) (fun r => r.length = flags.length)
  | [], _ => Res.pure rfl
  | _ :: ls, _ => by
    unfold clearFlags
    exact Res.any fun _ => Res.bind len_upd fun _ h => (len_clearFlags ls).mono fun _ h' => h'.trans h

theorem room_uipLoop : ∀ (k : Nat) {an : Analysis} {p : PropState} {cb : Callbacks}, Room T D an →
    Res (uipLoop env k an p cb) (fun r => Room T D r.1 ∧ r.2.1.trail = p.trail)
  | 0, _, _, _, h => Res.pure ⟨h, rfl⟩
  | k + 1, an, p, cb, h => by
    unfold uipLoop
    refine Res.any fun flag => Res.bind len_upd fun flags hf => ?_
    have h1 : Room T D { an with currentClauseLits := flags } := ⟨by simp only; rw [hf]; exact h.1, h.2⟩
    dsimp only
    split
    · refine Res.any fun s => ?_
      split
      · exact Res.throw
      split
      · refine Res.bind (len_clearFlags _) fun f2 hf2 => Res.pure ⟨⟨?_, h1.2⟩, rfl⟩
        simp only; rw [hf2]; exact h1.1
      · refine Res.bind (P := fun r => Room T D r.1 ∧ r.2.trail = p.trail) ?_ fun r h2 => ?_
        · unfold bumpReason
          split
          · exact room_bumpLongClause h1
          · exact Res.pure ⟨h1, rfl⟩
        obtain ⟨an1, p1⟩ := r
        refine Res.any fun _ => Res.bind (room_addLiterals _ h2.1) fun r h3 => ?_
        exact (room_uipLoop k h3).mono fun _ h4 => ⟨h4.1, h4.2.trans h2.2⟩
    · exact room_uipLoop k h1

theorem room_derive1uip {x : ConflictClause} {cb : Callbacks} (h : Room T D an) (ht : p.trail.steps.length ≤ T)
    (hd : p.trail.decisionLevel + 1 ≤ D) :
    Res (derive1uip env an p x cb) (fun r => Room T D r.1 ∧ r.2.1.trail = p.trail) := by
  unfold derive1uip
  have h0 : Room T D ({ an with derivedClause := [] }.updateTrailLen p.trail) := by
    refine ⟨?_, ?_, h.2.2⟩
    · simp only [updateTrailLen, Heap.resizeList_length]
      exact Nat.max_le.2 ⟨h.1, ht⟩
    · simp only [updateTrailLen, Heap.resizeList_length]
      exact Nat.max_le.2 ⟨h.2.1, hd⟩
  refine Res.bind (P := fun r => Room T D r.1 ∧ r.2.trail = p.trail) ?_ fun r h1 => ?_
  · cases x with
    | binary a b => exact Res.pure ⟨h0, rfl⟩
    | long c => exact room_bumpLongClause h0
  obtain ⟨an1, p1⟩ := r
  refine Res.any fun _ => Res.bind (room_addLiterals _ h1.1) fun r h2 => ?_
  refine Res.bind (room_uipLoop _ h2) fun r h3 => ?_
  exact Res.any fun _ => Res.pure ⟨h3.1, h3.2.trans h1.2⟩

theorem room_analyzeConflict {ctx : Ctx} {x : ConflictClause} {cb : Callbacks} (h : Room T D an)
    (ht : p.trail.steps.length ≤ T) (hd : p.trail.decisionLevel + 1 ≤ D) :
    Res (analyzeConflict env ctx an p x cb) (fun r => Room T D r.2.1) := by
  unfold analyzeConflict
  refine Res.any fun _ => Res.bind (room_derive1uip h ht hd) fun r h1 => ?_
  obtain ⟨an1, p1, cb1⟩ := r
  simp only at h1
  refine Res.bind (P := fun r => Room T D r.1) ?_ fun r h2 => ?_
  · unfold minimizeDerived
    split
    · refine Res.bind (Minimize.room_minimize h1.1.2.2 (by rw [h1.2]; exact ht) (by rw [h1.2]; exact hd)) fun r h2 => ?_
      exact Res.pure ⟨h1.1.1, h1.1.2.1, h2⟩
    · exact Res.pure h1.1
  obtain ⟨an2, level⟩ := r
  refine Res.any fun r => ?_
  obtain ⟨p2, cb2⟩ := r
  refine Res.bind (P := fun r => Room T D r.2.1) ?_ fun r h3 => Res.pure h3
  unfold learnAndAssign
  refine Res.any fun _ => Res.bind (P := fun r => Room T D r.1) ?_ fun r h3 => ?_
  · unfold learnedHeader
    split
    · refine Res.bind len_computeGlue fun r h3 => Res.pure ⟨h2.1, ?_, h2.2.2⟩
      simp only; rw [h3]; exact h2.2.1
    · exact Res.pure h2
  obtain ⟨an3, hd⟩ := r
  refine Res.any fun r => ?_
  obtain ⟨ctx', p3, added⟩ := r
  cases added with
  | empty => exact Res.pure h3
  | unit _ => exact Res.pure h3
  | binary _ b => exact Res.any fun _ => Res.any fun _ => Res.pure h3
  | long c => exact Res.any fun _ => Res.any fun _ => Res.pure h3

end Analysis

/-! ## Watch lists -/

theorem count_codes_le (m : Nat) (l : List Nat) : ∑ i : Fin m, l.count i.1 ≤ l.length := by
  rw [Fin.sum_univ_eq_sum_range (fun i => l.count i) m]
  calc ∑ i ∈ Finset.range m, l.count i ≤ ∑ i ∈ (l : Multiset Nat).toFinset, (l : Multiset Nat).count i := by
        simp only [Multiset.coe_count]
        refine Finset.sum_le_sum_of_ne_zero fun i _ h => ?_
        rw [List.toFinset_coe, List.mem_toFinset]
        by_contra hn
        exact h (List.count_eq_zero_of_not_mem hn)
    _ = l.length := by rw [Multiset.toFinset_sum_count_eq]; simp

/-- Two watches for each clause, if none is deleted. -/
theorem WatchStruct.sum_le {S : List LC} {B : List (List Watch)} (h : WatchStruct S B) (hB : B.length ≤ 2 ^ 32)
    (hS : ∀ e ∈ S, e.live) (hn : (S.map LC.ref).Nodup) : (B.map List.length).sum ≤ 2 * S.length := by
  have hc : ∀ i < B.length, ∃ l : Lit, l.code = i := fun i hi => Lit.exists_code (by omega)
  have hsub : (B.flatten.map Watch.clause).Subperm (S.map LC.ref ++ S.map LC.ref) := by
    rw [List.subperm_ext_iff]
    intro x hx
    obtain ⟨w, hw, rfl⟩ := List.mem_map.1 hx
    obtain ⟨ws, hws, hw⟩ := List.mem_flatten.1 hw
    obtain ⟨i, hi⟩ := List.mem_iff_getElem?.1 hws
    obtain ⟨l, rfl⟩ := hc i (List.getElem?_eq_some_iff.1 hi).1
    obtain ⟨e, he, hr, _⟩ := h.mem l ws hi w hw
    rw [← hr, List.count_append, List.count_eq_one_of_mem hn (List.mem_map_of_mem he), List.count_eq_countP,
      List.countP_map, List.countP_flatten, ← Fin.sum_univ_fun_getElem]
    calc _ = ∑ i : Fin B.length, ((e.lits.take 2).map Lit.code).count i.1 := by
          refine Finset.sum_congr rfl fun i _ => ?_
          obtain ⟨m, hm⟩ := hc i.1 i.2
          have h1 := h.count m B[i.1] (by rw [hm]; exact List.getElem?_eq_getElem i.2) e he (hS e he)
          have h2 := List.count_map_of_injective (e.lits.take 2) Lit.code (fun a b => Lit.code_inj.1) m
          rw [hm] at h2
          rw [h2, ← h1]
          rfl
      _ ≤ ((e.lits.take 2).map Lit.code).length := count_codes_le _ _
      _ ≤ 2 := by simp
  have := hsub.length_le
  simp only [List.length_map, List.length_append, List.length_flatten] at this
  omega
/-- Collecting garbage leaves at least three words for each watch. -/
theorem collectGarbage_watches {n : Nat} {S : List LC} {p p' : PropState} (h : PInv n S p)
    (hw : 3 * watchSum p ≤ p.long.buffer.length) (e : collectGarbage p = .ok p') :
    3 * watchSum p' ≤ p'.long.buffer.length := by
  rcases (collectGarbage_spec h).ok_elim e with rfl | ⟨ρ, hg⟩
  · exact hw
  have hl : ∀ x ∈ renS ρ S, x.live = true := by
    intro x hx
    obtain ⟨y, hy, r, hr, rfl⟩ := mem_renS.1 hx
    have := hg.live y hy
    rw [hr] at this
    exact this.symm
  have hn := hg.inv.sized.n_le
  have h1 := hg.inv.ws.sum_le (by rw [hg.inv.sized.wat]; simp only [MAX_INDEX] at hn; omega) hl hg.inv.rep.nodup
  have h2 := hg.inv.rep.needed
  have h3 : 6 * (renS ρ S).length ≤ neededWords (((renS ρ S).filter LC.live).map LC.lits) := by
    rw [List.filter_eq_self.2 hl]
    have key : ∀ T : List LC, (∀ x ∈ T, x ∈ renS ρ S) → 6 * T.length ≤ neededWords (T.map LC.lits) := by
      intro T hT
      induction T with
      | nil => simp
      | cons x T ih =>
        have := ih fun y hy => hT y (by simp [hy])
        have := (hg.inv.long.len x (hT x (by simp)) (hl x (hT x (by simp)))).1
        simp only [neededWords, List.map_cons, List.sum_cons, List.length_cons] at *
        omega
    exact key _ fun _ h => h
  unfold watchSum
  omega

/-! ## Runs -/

section
variable {env : Env} {F : List (List Lit)} {s s' : Solver}

/-- What holds between the parts of a run. -/
structure Tidy (F : List (List Lit)) (s : Solver) : Prop where
  room : s.search.analysis.Room (formulaVars F + (unitLits F).length) (formulaVars F + 1)
  derived : s.search.analysis.derivedClause.length ≤ formulaVars F
  watches : 3 * watchSum s.search.prop ≤ s.words

theorem maybeRestart_analysis (e : s.maybeRestart = .ok s') : s'.search.analysis = s.search.analysis := by
  unfold Solver.maybeRestart at e
  split at e
  · simp only at e
    obtain ⟨⟨ctx, search⟩, e1, e⟩ := bind_eq_ok.1 e
    cases e
    unfold restart at e1
    simp only at e1
    split at e1
    · obtain ⟨⟨p, cb⟩, e2, e1⟩ := bind_eq_ok.1 e1
      cases e1
      rfl
    · cases e1; rfl
  · cases e; rfl

theorem maybeReduce_analysis (e : s.maybeReduce env = .ok s') : s'.search.analysis = s.search.analysis := by
  unfold Solver.maybeReduce at e
  split at e
  · obtain ⟨⟨ctx, search⟩, e1, e⟩ := bind_eq_ok.1 e
    cases e
    unfold reduce at e1
    obtain ⟨a1, h1, e1⟩ := bind_eq_ok.1 e1
    obtain ⟨⟨a2, cands⟩, h2, e1⟩ := bind_eq_ok.1 e1
    obtain ⟨⟨ctx3, a3⟩, h3, e1⟩ := bind_eq_ok.1 e1
    obtain ⟨a4, h4, e1⟩ := bind_eq_ok.1 e1
    cases e1
    rfl
  · cases e; rfl

theorem Solver.Input.tidy (h : Solver.Input env F s) :
    s.search.analysis = Analysis.default ∧ 3 * watchSum s.search.prop ≤ s.words := by
  induction h with
  | new => exact ⟨rfl, Nat.le_refl _⟩
  | proof _ ih => exact ih
  | @add F s s' c h hc e ih =>
    unfold Solver.addClause at e
    obtain ⟨s1, e1, e⟩ := bind_eq_ok.1 e
    obtain ⟨⟨ctx, p, _⟩, e2, e⟩ := bind_eq_ok.1 e
    cases e
    have h1 : s1.search.analysis = s.search.analysis ∧ s1.words = s.words ∧
        watchSum s1.search.prop ≤ watchSum s.search.prop := by
      unfold Solver.ensureVars at e1
      split at e1
      · unfold Solver.resize at e1
        obtain ⟨_, _, e1⟩ := bind_eq_ok.1 e1
        cases e1
        exact ⟨rfl, rfl, watchSum_resize _ _⟩
      · cases e1; exact ⟨rfl, rfl, Nat.le_refl _⟩
    obtain ⟨h2, h3, h4⟩ := grow_addClauseVerbatim _ e2
    refine ⟨h1.1.trans ih.1, ?_⟩
    simp only [Solver.words] at *
    omega

theorem Solver.Propagating.watches {p1 p : PropState} {ctx : Ctx} {r : Option ConflictClause}
    (h : Solver.Propagating env F s p1 ctx p r) (ht : Tidy F s) :
    3 * watchSum p1 ≤ p1.long.buffer.length ∧ 3 * watchSum p ≤ p.long.buffer.length := by
  obtain ⟨L, S, hi⟩ := h.reach.inv
  obtain ⟨_, _, hi1, _⟩ := h.inv
  have h1 := collectGarbage_watches hi.prop ht.watches h.gc
  have h2 := grow_propagate hi1.enabled _ h.prop
  simp only [Grow] at h2
  omega

theorem Solver.Reachable.tidy (h : Solver.Reachable env F s) : Tidy F s := by
  induction h with
  | input h =>
    obtain ⟨h1, h2⟩ := h.tidy
    refine ⟨?_, ?_, h2⟩ <;> rw [h1]
    · exact ⟨Nat.zero_le _, Nat.zero_le _, Nat.zero_le _, Nat.zero_le _, rfl⟩
    · exact Nat.zero_le _
  | @restart s s' h e ih =>
    refine ⟨maybeRestart_analysis e ▸ ih.room, maybeRestart_analysis e ▸ ih.derived, ?_⟩
    have := ih.watches
    unfold watchSum at *
    rw [maybeRestart_words e, maybeRestart_watches e]; exact this
  | @reduce s s' h e ih =>
    refine ⟨maybeReduce_analysis e ▸ ih.room, maybeReduce_analysis e ▸ ih.derived, ?_⟩
    have := ih.watches
    unfold watchSum at *
    rw [maybeReduce_words e, maybeReduce_watches e]; exact this
  | @step s ctx search r h e ih =>
    cases searchStep_cases h e with
    | already => exact ih
    | fail hp => exact ⟨ih.room, ih.derived, (hp.watches ih).2⟩
    | @learn p1 p p' ctx1 ctx' c an cb hp h0 ea =>
      have hr := (C56_range h).2 hp
      obtain ⟨S2, S', C, lvl, target, hq, A⟩ := hp.analyze h0 ea
      have hw := (hp.watches ih).2
      have hg := grow_analyzeConflict _ ea
      refine ⟨?_, ?_, ?_⟩
      · refine Analysis.room_analyzeConflict ih.room hr.steps ?_ _ ea
        have := hr.level; have := hr.nonempty
        unfold Trail.decisionLevel; omega
      · simp only; rw [A.clause]; exact A.asserting.length_le hq
      · simp only [Grow, Solver.words] at *; omega
    | decide hp _ _ ed =>
      have hw := (hp.watches ih).2
      have hg := grow_assignDecision _ ed
      refine ⟨ih.room, ih.derived, ?_⟩
      simp only [Grow, Solver.words] at *; omega
    | sat hp => exact ⟨ih.room, ih.derived, (hp.watches ih).2⟩

/-! ## All vectors -/

/-- The lengths of the vectors of `Prop` (`/repo/starlit/src/prop.rs:24-31`). -/
def PropState.cells (p : PropState) : Nat :=
  p.values.assigned.length + p.trail.trailIndex.length + p.trail.steps.length + p.trail.decisions.length +
  (p.binary.length + (p.binary.map List.length).sum) +
  (p.watches.byLit.length + (p.watches.byLit.map List.length).sum) + p.long.buffer.length

/-- The lengths of the vectors of `ConflictAnalysis` and `MinimizeClause`
(`/repo/starlit/src/conflict_analysis.rs:36-60`, `/repo/starlit/src/minimize.rs:31-45`). -/
def Analysis.cells (an : Analysis) : Nat :=
  an.currentClauseLits.length + an.glueLevelFlags.length + an.derivedClause.length +
  an.minimize.firstOnLevel.length + an.minimize.cache.length + an.minimize.toClean.length

/-- The lengths of the vectors of the decision heuristics (`/repo/starlit/src/search.rs:27-28`). -/
def Callbacks.cells (cb : Callbacks) : Nat :=
  cb.vsids.activity.values.length + cb.vsids.activity.heapPos.length + cb.vsids.activity.heap.length + cb.phases.length

/-- The lengths of all vectors of the solver. -/
def Search.cells (s : Search) : Nat := s.prop.cells + s.analysis.cells + s.cb.cells

theorem CbInv.cells {n : Nat} {cb : Callbacks} (h : CbInv env n cb) : cb.cells ≤ 4 * n := by
  have h1 := h.wf.len
  have h2 := h.wf.heap_len
  have h3 := h.len
  have h4 := h.phases
  unfold Callbacks.cells
  omega

theorem Tidy.cells (h : Tidy F s) :
    s.search.analysis.cells ≤ 5 * formulaVars F + 2 * (unitLits F).length + 2 := by
  obtain ⟨h1, h2, h3, h4, h5⟩ := h.room
  have h6 := h.derived
  unfold Analysis.cells
  rw [h5, List.length_nil]
  omega

theorem PInv.cells {S : List LC} {p : PropState} (h : PInv (formulaVars F) S p) (ht : TrailRange F p.trail) :
    p.cells ≤ 8 * formulaVars F + (unitLits F).length + 1 + (p.binary.map List.length).sum + watchSum p +
      p.long.buffer.length := by
  have h1 := h.sized.values
  have h2 := h.sized.tix
  have h3 := h.sized.bin
  have h4 := h.sized.wat
  have h5 := ht.level
  have h6 := ht.steps
  unfold PropState.cells watchSum
  omega

/-- C94: in every state of every run the vectors together have at most 17 entries for each variable, three for each unit
clause, two for each binary clause, and for each word of the arena the word itself and a third of an entry in the watch
lists. -/
theorem C94_state (h : Solver.Reachable env F s) :
    3 * s.search.cells ≤ 51 * formulaVars F + 9 * (unitLits F).length + 6 * s.ctx.formula.binary +
      4 * s.search.prop.long.buffer.length + 9 := by
  obtain ⟨L, S, hi⟩ := h.inv
  have h1 := hi.prop.cells (C56_range h).1
  have h2 := h.tidy.cells
  have h3 := hi.cb.cells
  have h4 := h.tidy.watches
  have h5 := (C35_formula_stats h).2.1
  unfold Search.cells
  simp only [Solver.words] at h4
  omega

/-- C94: whenever propagation starts, only the clauses that are stored count, each with its literals and a header of three
words: deleted clauses and their watches take at most as much. -/
theorem C94_stored {p1 p : PropState} {ctx : Ctx} {r : Option ConflictClause} (h : Solver.Propagating env F s p1 ctx p r) :
    ∃ cs, Long.clauses s.search.prop.long = .ok cs ∧
      3 * { s.search with prop := p1 }.cells ≤ 51 * formulaVars F + 9 * (unitLits F).length + 6 * s.ctx.formula.binary +
        8 * neededWords cs + 9 := by
  obtain ⟨L, S, hi⟩ := h.reach.inv
  obtain ⟨cs, h1, _, h2⟩ := C54_bound h
  refine ⟨cs, h1, ?_⟩
  have h3 := h.reach.tidy.cells
  have h4 := hi.cb.cells
  have h5 := (h.watches h.reach.tidy).1
  have h6 := (C35_formula_stats h.reach).2.1
  have hr := (C56_range h.reach).1
  have h7 : p1.cells ≤ 8 * formulaVars F + (unitLits F).length + 1 + (s.search.prop.binary.map List.length).sum +
      watchSum p1 + p1.long.buffer.length := by
    rcases (collectGarbage_spec hi.prop).ok_elim h.gc with rfl | ⟨ρ, hg⟩
    · exact hi.prop.cells hr
    · have s1 := hg.inv.sized
      obtain ⟨a, rfl⟩ := hg.eq
      have a1 := s1.values
      have a2 := s1.tix
      have a3 := s1.bin
      have a4 := s1.wat
      have a5 := hr.level
      have a6 := hr.steps
      unfold PropState.cells watchSum
      simp only [List.length_map] at *
      omega
  unfold Search.cells
  simp only
  omega

/-- C94: so memory is at most linear in the size of the formula and the number of conflicts, with a factor of the number
of variables for the learned clauses. -/
theorem C94_total (h : Solver.Reachable env F s) :
    3 * s.search.cells ≤ 51 * formulaVars F + 15 * F.length + 4 * formulaWords F +
      s.ctx.search.conflicts * (4 * formulaVars F + 18) + 9 := by
  have h1 := C94_state h
  have h2 := h.sizes.1
  have h3 := (C64_bounds h).2.2.2.2.1
  have h4 : (unitLits F).length ≤ F.length := List.length_filterMap_le _ _
  simp only [Solver.words, Nat.mul_add] at *
  have : s.ctx.search.conflicts * (4 * formulaVars F) = 4 * (s.ctx.search.conflicts * formulaVars F) := by ring
  omega

end

/-- A state for C94 after two conflicts: 112 entries, where the bound for three variables, one binary clause and 48 words
is 120; the third of the words for the watch lists is reached. -/
theorem C94_example : ∃ s p1 ctx p r, Solver.Propagating Example.env (Example.cnf Example.unsat3) s p1 ctx p r ∧
    s.ctx.search.conflicts = 2 ∧ s.search.cells = 112 ∧ s.ctx.formula.binary = 1 ∧ s.search.prop.long.buffer.length = 48 ∧
    watchSum s.search.prop = 16 ∧ 3 * 120 = 51 * 3 + 9 * 0 + 6 * 1 + 4 * 48 + 9 := by
  have h : (do
      let (s, _, _, _, _) ← Example.mid Example.unsat3 5
      pure (s.ctx.search.conflicts, s.search.cells, s.ctx.formula.binary, s.search.prop.long.buffer.length,
        watchSum s.search.prop) : M _) = .ok (2, 112, 1, 48, 16) := by decide +kernel
  obtain ⟨⟨s, p1, ctx, p, r⟩, h1, h2⟩ := bind_eq_ok.1 h
  have h2 := Except.ok.inj h2
  simp only [Prod.mk.injEq] at h2
  obtain ⟨h3, h4, h5, h6, h7⟩ := h2
  exact ⟨s, p1, ctx, p, r, Example.mid_propagating (by decide +kernel) h1, h3, h4, h5, h6, h7, rfl⟩

end Starlit
