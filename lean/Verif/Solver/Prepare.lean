import Verif.Solver.Learn

/-!
# `prepare_for_backtracking`

The alternative to minimisation in `analyze_conflict`, which is not used (`if true`).
-/

namespace Starlit

namespace Analysis

/-- `slice::swap`. -/
def swapLits (c : List Lit) (i j : Nat) : M (List Lit) := do
  let a ← idx c i
  let b ← idx c j
  let c ← upd c i b
  upd c j a

/-- The loop over `2..derived_clause_len` (`/repo/starlit/src/conflict_analysis.rs:257-263`), with `k`
iterations left. -/
def secondLoop (t : Trail) : Nat → Nat → List Lit → Nat → M (List Lit × Nat)
  | 0, _, c, largest => pure (c, largest)
  | k + 1, i, c, largest => do
    let l ← idx c i
    let ix ← t.indexOf l.index
    if ix > largest then do
      let c ← swapLits c 1 i
      secondLoop t k (i + 1) c ix
    else secondLoop t k (i + 1) c largest

/-- `prepare_for_backtracking` (`/repo/starlit/src/conflict_analysis.rs:246-268`).  For an empty clause
`derived_clause_len - 1` wraps around and `swap` panics. -/
def prepareForBacktracking (an : Analysis) (p : PropState) : M (Analysis × Nat) := do
  if an.derivedClause.length = 0 then throw .panic
  else do
    let c ← swapLits an.derivedClause 0 (an.derivedClause.length - 1)
    if c.length > 1 then do
      let l ← idx c 1
      let ix ← p.trail.indexOf l.index
      let (c, largest) ← secondLoop p.trail (c.length - 2) 2 c ix
      let s ← idx p.trail.steps largest
      pure ({ an with derivedClause := c }, s.level)
    else pure ({ an with derivedClause := c }, 0)

/-- `analyze_conflict` (`/repo/starlit/src/conflict_analysis.rs:82-104`) with the other branch of
`if true`. -/
def analyzeConflictPlain (env : Env) (ctx : Ctx) (an : Analysis) (p : PropState)
    (conflict : ConflictClause) (cb : Callbacks) : M (Ctx × Analysis × PropState × Callbacks) := do
  assertM (decide (p.trail.decisionLevel ≠ 0))
  let (an, p, cb) ← derive1uip env an p conflict cb
  let cb := { cb with vsids := cb.vsids.doDecay env }
  let (an, level) ← an.prepareForBacktracking p
  let (p, cb) ← backtrackToLevel p level cb
  let (ctx, an, p) ← learnAndAssign ctx an p
  pure (ctx, an, p, cb)

theorem swapLits_second (a b y : Lit) (r1 r2 : List Lit) :
    swapLits (a :: b :: (r1 ++ y :: r2)) 1 (r1.length + 2) = .ok (a :: y :: (r1 ++ b :: r2)) := by
  unfold swapLits
  rw [idx_ok (x := b) (by simp), bind_ok, idx_ok (x := y) (by simp), bind_ok,
    upd_ok (by simp), bind_ok, upd_ok (by simp)]
  simp

theorem swapLits_ends (a z : Lit) (r : List Lit) :
    swapLits (a :: (r ++ [z])) 0 (r.length + 1) = .ok (z :: (r ++ [a])) := by
  unfold swapLits
  rw [idx_ok (x := a) (by simp), bind_ok, idx_ok (x := z) (by simp), bind_ok,
    upd_ok (by simp), bind_ok, upd_ok (by simp)]
  simp

/-- The loop moves the literal with the largest trail index to position 1. -/
theorem secondLoop_spec {t : Trail} {a : Lit} : ∀ (r2 : List Lit) {r1 : List Lit} {b : Lit} {m : Nat},
    (∀ l ∈ r2, ∃ i, t.indexOf l.index = .ok i) → t.trailIndex[b.index]? = some m →
    (∀ l ∈ r1, ∀ i, t.trailIndex[l.index]? = some i → i ≤ m) →
    ∃ b' r m', secondLoop t r2.length (r1.length + 2) (a :: b :: (r1 ++ r2)) m = .ok (a :: b' :: r, m') ∧
      (b' :: r).Perm (b :: (r1 ++ r2)) ∧ t.trailIndex[b'.index]? = some m' ∧
      ∀ l ∈ r, ∀ i, t.trailIndex[l.index]? = some i → i ≤ m'
  | [], r1, b, m, _, hb, h1 => ⟨b, r1, m, by simp [secondLoop, pure_eq], by simp, hb, h1⟩
  | y :: r2, r1, b, m, h2, hb, h1 => by
    obtain ⟨i, hi⟩ := h2 y (by simp)
    simp only [List.length_cons]
    unfold secondLoop
    rw [idx_ok (x := y) (by simp), bind_ok]
    rw [hi, bind_ok]
    replace hi := Trail.indexOf_eq_ok hi
    by_cases hlt : i > m
    · rw [if_pos hlt, swapLits_second, bind_ok]
      obtain ⟨b', r, m', e, hp, h3, h4⟩ := secondLoop_spec (a := a) r2 (r1 := r1 ++ [b]) (b := y) (m := i)
        (fun l hl => h2 l (by simp [hl])) hi (by
          intro l hl j hj
          rcases List.mem_append.1 hl with hl | hl
          · have := h1 l hl j hj; omega
          · rw [List.mem_singleton.1 hl, hb] at hj
            have := Option.some.inj hj
            omega)
      refine ⟨b', r, m', ?_, ?_, h3, h4⟩
      · simpa [Nat.add_right_comm] using e
      · refine hp.trans ?_
        simp only [List.append_assoc, List.singleton_append]
        have : (y :: (r1 ++ b :: r2)).Perm (y :: b :: (r1 ++ r2)) := (List.perm_middle).cons y
        refine this.trans ((List.Perm.swap b y _).trans ?_)
        exact (List.perm_middle.symm).cons b
    · rw [if_neg hlt]
      obtain ⟨b', r, m', e, hp, h3, h4⟩ := secondLoop_spec (a := a) r2 (r1 := r1 ++ [y]) (b := b) (m := m)
        (fun l hl => h2 l (by simp [hl])) hb (by
          intro l hl j hj
          rcases List.mem_append.1 hl with hl | hl
          · exact h1 l hl j hj
          · rw [List.mem_singleton.1 hl, hi] at hj
            have := Option.some.inj hj
            omega)
      refine ⟨b', r, m', ?_, by simpa using hp, h3, h4⟩
      simpa [Nat.add_right_comm] using e

end Analysis

section
variable {n : Nat} {S : List LC} {p : PropState} {F L : DB}

/-- The result of `prepare_for_backtracking`. -/
structure Prepared (t : Trail) (c c' : List Lit) (lvl : Nat) : Prop where
  perm : c'.Perm c
  head : c'.head? = c.getLast?
  max : ∀ a b rest, c' = a :: b :: rest → ∃ m, t.trailIndex[b.index]? = some m ∧
    (∃ s, t.steps[m]? = some s ∧ s.level = lvl) ∧
    ∀ l ∈ rest, ∀ i, t.trailIndex[l.index]? = some i → i ≤ m
  unit : c.length = 1 → lvl = 0

theorem prepareForBacktracking_spec (h : PInv n S p) {an : Analysis}
    (hc : UipClause (F + L) p.trail an.derivedClause) (h0 : p.trail.decisionLevel ≠ 0) :
    ∃ c' lvl, an.prepareForBacktracking p = .ok ({ an with derivedClause := c' }, lvl) ∧
      Asserting (F + L) p.trail c' lvl ∧ Prepared p.trail an.derivedClause c' lvl := by
  obtain ⟨R, k, u, ec, hk, hu, hnd, hR⟩ := hc.split
  have hatR : ∀ l ∈ R, ∃ i s, At p.trail l i ∧ p.trail.steps[i]? = some s ∧
      s.level < p.trail.decisionLevel := by
    intro l hl
    obtain ⟨i, s, h1, h2, h3, h4⟩ := hR l hl
    refine ⟨i, s, ⟨?_, s, h1, h2, h3⟩, h1, h4⟩
    have := h.trail.tix_pos h1 (by omega)
    rwa [h2, Lit.index_neg] at this
  have hund : u.lit.neg ∉ R := by
    intro hm
    obtain ⟨i, s, hat, hs, hlt⟩ := hatR _ hm
    have h1 := h.trail.tix_pos hk (by omega)
    have h2 := hat.1
    rw [Lit.index_neg, h1] at h2
    obtain rfl := Option.some.inj h2
    rw [hk] at hs
    cases hs
    omega
  have hrup := hc.rup
  unfold Analysis.prepareForBacktracking
  rw [ec] at hrup ⊢
  rw [if_neg (by simp)]
  cases R with
  | nil =>
    have e1 : Analysis.swapLits ([] ++ [u.lit.neg]) 0 (([] ++ [u.lit.neg]).length - 1) =
        .ok [u.lit.neg] := rfl
    rw [e1, bind_ok, if_neg (by simp)]
    refine ⟨_, _, rfl, ?_, ?_⟩
    · exact ⟨⟨k, u, [], rfl, hk, hu, by simp⟩, by simp, fun _ => rfl, by omega, by simp, hrup⟩
    · exact ⟨by simp, rfl, by simp, fun _ => rfl⟩
  | cons a R =>
    have e1 : Analysis.swapLits (a :: R ++ [u.lit.neg]) 0 ((a :: R ++ [u.lit.neg]).length - 1) =
        .ok (u.lit.neg :: (R ++ [a])) := by
      have := Analysis.swapLits_ends a u.lit.neg R
      simpa using this
    rw [e1, bind_ok, if_pos (by simp)]
    -- position 1 and the rest
    obtain ⟨b, r, hbr⟩ : ∃ b r, R ++ [a] = b :: r := by cases R <;> simp
    have hperm : (b :: r).Perm (a :: R) := by
      rw [← hbr]; exact List.perm_append_singleton a R
    have hat : ∀ l ∈ b :: r, ∃ i s, At p.trail l i ∧ p.trail.steps[i]? = some s ∧
        s.level < p.trail.decisionLevel := fun l hl => hatR l (hperm.mem_iff.1 hl)
    obtain ⟨m, sm, hm, _, _⟩ := hat b (by simp)
    rw [hbr, idx_ok (x := b) (by simp), bind_ok]
    rw [hm.indexOf, bind_ok]
    obtain ⟨b', r', m', e2, hp, hb', hr'⟩ := Analysis.secondLoop_spec (t := p.trail) (a := u.lit.neg) r
      (r1 := []) (b := b) (m := m) (fun l hl => by
        obtain ⟨i, _, hi, _⟩ := hat l (by simp [hl]); exact ⟨i, hi.indexOf⟩) hm.1 (by simp)
    simp only [List.length_nil, List.nil_append, Nat.zero_add] at e2 hp
    rw [show (u.lit.neg :: b :: r).length - 2 = r.length by simp, e2, bind_ok]
    simp only
    have hp2 : (b' :: r').Perm (a :: R) := hp.trans hperm
    have hat' : ∀ l ∈ b' :: r', ∃ i s, At p.trail l i ∧ p.trail.steps[i]? = some s ∧
        s.level < p.trail.decisionLevel := fun l hl => hatR l (hp2.mem_iff.1 hl)
    obtain ⟨i, s, hbi, hs, hlt⟩ := hat' b' (by simp)
    have him : i = m' := by
      have := hbi.1; rw [hb'] at this; exact (Option.some.inj this).symm
    subst him
    rw [idx_ok hs, bind_ok]
    have hperm' : (u.lit.neg :: b' :: r').Perm (a :: R ++ [u.lit.neg]) :=
      (hp2.cons _).trans (List.perm_append_singleton _ _).symm
    refine ⟨_, _, rfl, ⟨⟨k, u, b' :: r', rfl, hk, hu, ?_⟩, ?_, by simp, hlt, ?_, ?_⟩,
      ⟨hperm', (List.getLast?_concat (l := a :: R)).symm, ?_, by simp⟩⟩
    · intro l hl
      obtain ⟨j, sj, hj, hsj, _⟩ := hat' l hl
      refine ⟨j, sj, hj, hsj, ?_⟩
      have hji : j ≤ i := by
        rcases List.mem_cons.1 hl with rfl | hl
        · have := At.unique hj hbi; omega
        · exact hr' l hl j hj.1
      exact h.trail.level_mono hsj hs hji
    · intro l hl
      simp at hl
      subst hl
      exact ⟨i, s, hbi, hs, rfl⟩
    · refine (hperm'.nodup_iff).2 ?_
      rw [List.nodup_append]
      refine ⟨hnd, by simp, ?_⟩
      intro x hx y hy e
      rw [List.mem_singleton.1 hy] at e
      exact hund (e ▸ hx)
    · rw [Multiset.coe_eq_coe.2 hperm']; exact hrup
    · intro a' b2 rest e
      simp only [List.cons.injEq] at e
      obtain ⟨_, rfl, rfl⟩ := e
      exact ⟨i, hb', ⟨s, hs, rfl⟩, hr'⟩

/-- Conflict analysis without minimisation has the same effect, with another clause. -/
theorem analyzeConflictPlain_spec {env : Env} {ctx : Ctx} {an : Analysis} {cb : Callbacks}
    {c : ConflictClause} (h : PInv n S p) (d : DBInv F L S p.binary p.trail.steps p.unsat)
    (ha : AnIdle an) (hm : MinIdle an.minimize) (hcb : CbInv env n cb) (hc : ConflictOK S p c)
    (h0 : p.trail.decisionLevel ≠ 0) :
    Wp (Analysis.analyzeConflictPlain env ctx an p c cb) (fun (ctx', an', p', cb') =>
      ∃ S' C lvl target, AnalyzePost env n F L S ctx p cb S' C lvl target ctx' an' p' cb') := by
  unfold Analysis.analyzeConflictPlain
  rw [show assertM (decide (p.trail.decisionLevel ≠ 0)) = .ok () by simp [assertM, h0]; rfl, bind_ok]
  obtain ⟨an1, p1, cb1, S1, e1, o1, k1, c1, m1, u1⟩ := derive1uip_spec h d ha hcb hc h0
  obtain ⟨a1, rfl⟩ := o1.eq
  rw [e1, bind_ok]
  simp only
  have k2 := k1.trans (doDecay_spec k1.inv)
  obtain ⟨C, lvl, e2, has, _⟩ := prepareForBacktracking_spec o1.inv u1 h0
  rw [e2, bind_ok]
  simp only
  refine (backtrackLearn_spec (m' := an1.minimize) h d o1 k2 c1 (m1 ▸ hm) has).mono ?_
  rintro ⟨ctx', an', p', cb'⟩ ⟨S', target, q, _⟩
  exact ⟨S', C, lvl, target, q⟩

end

end Starlit
