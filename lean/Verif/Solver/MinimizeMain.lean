import Verif.Solver.Minimize

/-!
# Clause minimisation: the main function
-/

namespace Starlit

/-- The false literal `l` has position `i` on the trail, above the top level. -/
def At (t : Trail) (l : Lit) (i : Nat) : Prop :=
  t.trailIndex[l.index]? = some i ∧ ∃ s, t.steps[i]? = some s ∧ s.lit = l.neg ∧ s.level ≠ 0

theorem At.indexOf {t : Trail} {l : Lit} {i : Nat} (h : At t l i) : t.indexOf l.index = .ok i := by
  obtain ⟨h1, s, h2, h3, _⟩ := h
  exact Trail.indexOf_ok h1 h2 (by rw [h3, Lit.index_neg])

section
variable {n : Nat} {S : List LC} {p : PropState} {F L : DB} {K : Nat → Prop} {bnd : Nat}

theorem At.unique {t : Trail} {l : Lit} {i j : Nat} (h : At t l i) (h' : At t l j) : i = j := by
  have a := h.1
  rw [h'.1] at a
  injection a with a
  exact a.symm

theorem At.inj {t : Trail} {l l' : Lit} {i : Nat} (h : At t l i) (h' : At t l' i) : l = l' := by
  obtain ⟨_, s, a, b, _⟩ := h
  obtain ⟨_, s', a', b', _⟩ := h'
  rw [a] at a'; cases a'
  exact Lit.neg_inj.1 (b.symm.trans b')

theorem TrailLits.mono {t : Trail} {K K' : Nat → Prop} (h : ∀ i, K i → K' i) {l : Lit}
    (hl : TrailLits t K l) : TrailLits t K' l := by
  obtain ⟨i, s, a, b, c⟩ := hl
  exact ⟨i, s, h i a, b, c⟩

theorem MInv.raise {m : Minimize} (hm : MInv p K bnd m) {b : Nat} (hb : bnd ≤ b) : MInv p K b m := by
  refine ⟨hm.flen, hm.clen, hm.f0, hm.first, hm.kept, ?_, hm.clean, hm.cleanlt⟩
  intro i c hc
  obtain ⟨h1, h2⟩ := hm.cache i c hc
  exact ⟨by omega, h2⟩

theorem MInv.kept_lt {m : Minimize} (hm : MInv p K bnd m) {k : Nat} (hk : K k) : k < bnd :=
  (hm.cache k true (hm.kept k hk)).1

/-- Retaining the literal at position `i`. -/
theorem MInv.retain (h : PInv n S p) {m : Minimize} {i f : Nat} {s : Step} {fl : List Nat}
    (hm : MInv p K (i + 1) m) (hs : p.trail.steps[i]? = some s) (h0 : s.level ≠ 0)
    (hlen : fl.length = m.firstOnLevel.length)
    (hne : ∀ lev, s.level ≠ lev → fl[lev]? = m.firstOnLevel[lev]?) (hf : fl[s.level]? = some f)
    (hfi : f ≤ i) (hfK : f = i ∨ K f ∧ ∃ x, p.trail.steps[f]? = some x ∧ x.level = s.level)
    (hmin : ∀ (k : Nat) (x : Step), K k → p.trail.steps[k]? = some x → x.level = s.level → f ≤ k) :
    MInv p (fun j => K j ∨ j = i) (i + 1)
      { firstOnLevel := fl, cache := m.cache.set i (some true), toClean := m.toClean ++ [i] } := by
  have hic : i < m.cache.length := Nat.lt_of_lt_of_le (List.getElem?_eq_some_iff.1 hs).1 hm.clen
  refine ⟨by rw [hlen]; exact hm.flen, by simpa using hm.clen, ?_, ?_, ?_, ?_, ?_, ?_⟩
  · simp only [hne 0 h0]; exact hm.f0
  · intro lev f' hl hx
    simp only at hx
    by_cases hll : s.level = lev
    · subst hll
      rw [hf] at hx
      injection hx with hx
      subst hx
      refine ⟨.inr ?_, ?_⟩
      · rcases hfK with rfl | ⟨a, b⟩
        · exact ⟨.inr rfl, s, hs, rfl⟩
        · exact ⟨.inl a, b⟩
      · rintro k x (hk | rfl) hx hxl
        · exact hmin k x hk hx hxl
        · exact hfi
    · rw [hne lev hll] at hx
      obtain ⟨a1, a2⟩ := hm.first lev f' hl hx
      refine ⟨a1.imp_right (fun a => ⟨.inl a.1, a.2⟩), ?_⟩
      rintro k x (hk | rfl) hx hxl
      · exact a2 k x hk hx hxl
      · rw [hs] at hx; cases hx; exact absurd hxl hll
  · rintro k (hk | rfl)
    · simp only [List.getElem?_set]
      split
      · rfl
      · exact hm.kept k hk
    · simp only [List.getElem?_set_self hic]
  · intro j c hj
    by_cases hij : i = j
    · subst hij
      simp only [List.getElem?_set_self hic] at hj
      simp at hj
      subst hj
      exact ⟨by omega, s, hs, h0, by simpa using .asm ⟨i, s, .inr rfl, hs, rfl⟩⟩
    · simp only [List.getElem?_set_ne hij] at hj
      obtain ⟨a1, x, a2, a3, a4⟩ := hm.cache j c hj
      refine ⟨a1, x, a2, a3, a4.trans ⟨fun hr => hr.mono (fun _ hx => hx.mono (fun _ => .inl)), ?_⟩⟩
      intro hr
      refine h.recorded_cut hr a2 rfl ?_
      rintro k y hk hy hy0 ⟨k', y', hk', hy', e⟩
      obtain ⟨rfl, rfl⟩ := h.pos_unique hy hy' e hy0
      rcases hk' with hk' | rfl
      · exact ⟨k, y, hk', hy, rfl⟩
      · omega
  · intro j c hj
    simp only [List.mem_append, List.mem_singleton]
    by_cases hij : i = j
    · exact .inr hij.symm
    · simp only [List.getElem?_set_ne hij] at hj
      exact .inl (hm.clean j c hj)
  · intro j hj
    simp only [List.mem_append, List.mem_singleton, List.length_set] at hj ⊢
    rcases hj with hj | rfl
    · exact hm.cleanlt j hj
    · exact hic

/-- Deciding about one literal. -/
theorem retainLit_spec (h : PInv n S p) {m : Minimize} {l : Lit} {i : Nat} (hm : MInv p K i m)
    (hat : At p.trail l i) :
    ∃ m' b, Minimize.retainLit p m l = .ok (m', b) ∧
      (b = true → MInv p (fun j => K j ∨ j = i) (i + 1) m' ∧
        ¬ Recorded p (TrailLits p.trail K) l.neg) ∧
      (b = false → MInv p K (i + 1) m' ∧ Recorded p (TrailLits p.trail K) l.neg) := by
  obtain ⟨h1, s, h2, h3, h4⟩ := hat
  have his : i < p.trail.steps.length := (List.getElem?_eq_some_iff.1 h2).1
  have hK : ¬ K i := fun hk => by have := hm.kept_lt hk; omega
  have hm1 := hm.raise (show i ≤ i + 1 by omega)
  have hlev := h.trail.level_le i s h2
  have hlf : s.level < m.firstOnLevel.length := by have := hm.flen; omega
  have hf := List.getElem?_eq_getElem hlf
  generalize m.firstOnLevel[s.level] = f at hf
  have hic : i < m.cache.length := Nat.lt_of_lt_of_le his hm.clen
  obtain ⟨f1, f2⟩ := hm.first s.level f h4 hf
  unfold Minimize.retainLit
  rw [Trail.indexOf_ok h1 h2 (by rw [h3, Lit.index_neg]), bind_ok, idx_ok h2, bind_ok, idx_ok hf, bind_ok]
  by_cases hfi : f > i
  · rw [if_pos hfi, upd_ok hlf, bind_ok]
    refine ⟨{ firstOnLevel := m.firstOnLevel.set s.level i
              cache := m.cache.set i (some true)
              toClean := m.toClean ++ [i] }, true, ?_, fun _ => ⟨?_, ?_⟩, by simp⟩
    · simp only [Minimize.setCache]
      rw [upd_ok hic]; rfl
    · refine hm1.retain h h2 h4 (by simp) (fun lev hl => List.getElem?_set_ne hl)
        (List.getElem?_set_self hlf) (Nat.le_refl i) (.inl rfl) ?_
      intro k x hk hx hxl
      have := f2 k x hk hx hxl
      omega
    · intro hr
      obtain ⟨k, x, hk, hx, ⟨k', x', hK', hx', e'⟩, hxl⟩ := h.recorded_level hr h2 h3 h4
      obtain ⟨rfl, rfl⟩ := h.pos_unique hx hx' e' (by omega)
      have := f2 k x hK' hx hxl
      omega
  · rw [if_neg hfi]
    have hfK : K f ∧ ∃ x, p.trail.steps[f]? = some x ∧ x.level = s.level := by
      rcases f1 with e | e
      · have := h.small; omega
      · exact e
    have hd : s.reason ≠ .decision := by
      intro hd
      obtain ⟨a, x, hx, hxl⟩ := hfK
      have hr := h.reasons i s h2
      unfold ReasonOK at hr
      rw [hd] at hr
      have := (h.trail.level f x hx s.level i hr.1 hr.2).1 (by omega)
      have e : f = i := by omega
      exact hK (e ▸ a)
    obtain ⟨m1, b, e1, s1, q1⟩ := redundantUncached_spec h 21 hm1 hK (by omega) h2 hd h4
    rw [e1, bind_ok]
    simp only
    cases b with
    | true =>
      obtain ⟨m2, e2, s2⟩ := setCache_spec (b := true) s1.inv h2 h4 (by omega) q1
      rw [e2, bind_ok]
      refine ⟨m2, false, rfl, by simp, fun _ => ⟨s2.inv, ?_⟩⟩
      rw [← h3]; exact q1.1 rfl
    | false =>
      have hic1 : i < m1.cache.length := Nat.lt_of_lt_of_le his s1.inv.clen
      have e2 : m1.setCache i true = .ok { firstOnLevel := m1.firstOnLevel
                                           cache := m1.cache.set i (some true)
                                           toClean := m1.toClean ++ [i] } := by
        simp only [Minimize.setCache]
        rw [upd_ok hic1]; rfl
      rw [e2, bind_ok]
      refine ⟨_, true, rfl, fun _ => ⟨?_, ?_⟩, by simp⟩
      · exact s1.inv.retain h h2 h4 rfl (fun _ _ => rfl) (by rw [s1.first]; exact hf) (by omega)
          (.inr hfK) f2
      · rw [← h3]; simpa using q1

/-- Positions of the literals of a list. -/
def Positions (t : Trail) (ls : List Lit) (i : Nat) : Prop := ∃ l ∈ ls, At t l i

theorem retainLoop_spec (h : PInv n S p) (ls : List Lit) : ∀ {m : Minimize} {K : Nat → Prop} {bnd : Nat},
    MInv p K bnd m → (∀ l ∈ ls, ∃ i, At p.trail l i ∧ bnd ≤ i) →
    ls.Pairwise (fun a b => ∀ i j, At p.trail a i → At p.trail b j → i < j) →
    ∃ m' kept b, Minimize.retainLoop p ls m = .ok (m', kept) ∧
      MInv p (fun j => K j ∨ Positions p.trail kept j) b m' ∧ kept.Sublist ls ∧
      (∀ l ∈ ls, Recorded p (TrailLits p.trail (fun j => K j ∨ Positions p.trail kept j)) l.neg) ∧
      ∀ l ∈ kept, ∀ i, At p.trail l i → ¬ Recorded p (TrailLits p.trail
        (fun j => (K j ∨ Positions p.trail kept j) ∧ j ≠ i)) l.neg := by
  induction ls with
  | nil =>
    intro m K bnd hm _ _
    refine ⟨m, [], bnd, rfl, ?_, List.Sublist.refl _, by simp, by simp⟩
    have : (fun j => K j ∨ Positions p.trail [] j) = K := by
      funext j; simp [Positions]
    rw [this]; exact hm
  | cons l ls ih =>
    intro m K bnd hm hls hpw
    obtain ⟨i, hat, hbi⟩ := hls l (by simp)
    obtain ⟨m1, b, e1, q1, q2⟩ := retainLit_spec h (hm.raise hbi) hat
    rw [List.pairwise_cons] at hpw
    have hnext : ∀ x ∈ ls, ∃ j, At p.trail x j ∧ i + 1 ≤ j := by
      intro x hx
      obtain ⟨j, hj, _⟩ := hls x (by simp [hx])
      exact ⟨j, hj, hpw.1 x hx i j hat hj⟩
    unfold Minimize.retainLoop
    rw [e1, bind_ok]
    cases b with
    | true =>
      obtain ⟨m2, kept, b2, e2, r1, r2, r3, r4⟩ := ih (q1 rfl).1 hnext hpw.2
      have hset : (fun j => (K j ∨ j = i) ∨ Positions p.trail kept j) =
          (fun j => K j ∨ Positions p.trail (l :: kept) j) := by
        funext j
        refine propext ⟨?_, ?_⟩
        · rintro ((hk | rfl) | ⟨x, hx, hj⟩)
          · exact .inl hk
          · exact .inr ⟨l, by simp, hat⟩
          · exact .inr ⟨x, by simp [hx], hj⟩
        · rintro (hk | ⟨x, hx, hj⟩)
          · exact .inl (.inl hk)
          · rcases List.mem_cons.1 hx with rfl | hx
            · exact .inl (.inr (hj.unique hat))
            · exact .inr ⟨x, hx, hj⟩
      rw [hset] at r1 r3
      have hset' : ∀ i', (fun j => ((K j ∨ j = i) ∨ Positions p.trail kept j) ∧ j ≠ i') =
          (fun j => (K j ∨ Positions p.trail (l :: kept) j) ∧ j ≠ i') := by
        intro i'
        funext j
        exact congrArg (· ∧ j ≠ i') (congrFun hset j)
      simp only
      rw [e2, bind_ok]
      refine ⟨m2, l :: kept, b2, rfl, r1, r2.cons_cons l, ?_, ?_⟩
      · intro x hx
        rcases List.mem_cons.1 hx with rfl | hx
        · obtain ⟨s, a1, a2, _⟩ := hat.2
          exact .asm ⟨i, s, .inr ⟨x, by simp, hat⟩, a1, a2⟩
        · exact r3 x hx
      · intro x hx i' hi'
        rcases List.mem_cons.1 hx with rfl | hx
        · have := hi'.unique hat
          subst this
          obtain ⟨s, a1, a2, a3⟩ := hat.2
          intro hr
          refine (q1 rfl).2 (h.recorded_cut hr a1 a2 ?_)
          rintro k y hk hy hy0 ⟨k', y', ⟨hk1, hk2⟩, hy', e⟩
          obtain ⟨rfl, rfl⟩ := h.pos_unique hy hy' e hy0
          rcases hk1 with hk1 | ⟨z, hz, hzk⟩
          · exact ⟨k, y, hk1, hy, rfl⟩
          · rcases List.mem_cons.1 hz with rfl | hz
            · exact absurd (hzk.unique hat) hk2
            · have := hpw.1 z (r2.subset hz) _ _ hat hzk
              omega
        · rw [← hset']; exact r4 x hx i' hi'
    | false =>
      obtain ⟨q2a, q2b⟩ := q2 rfl
      obtain ⟨m2, kept, b2, e2, r1, r2, r3, r4⟩ := ih q2a hnext hpw.2
      simp only
      rw [e2, bind_ok]
      refine ⟨m2, kept, b2, rfl, r1, r2.cons l, ?_, r4⟩
      intro x hx
      rcases List.mem_cons.1 hx with rfl | hx
      · exact q2b.mono (fun _ hx => hx.mono (fun _ => .inl))
      · exact r3 x hx

/-! ## Sorting -/

theorem insertKey_perm (x : Nat × Lit) (l : List (Nat × Lit)) :
    (Minimize.insertKey x l).Perm (x :: l) := by
  induction l with
  | nil => exact List.Perm.refl _
  | cons y ys ih =>
    unfold Minimize.insertKey
    split
    · exact List.Perm.refl _
    · exact (List.Perm.cons y ih).trans (List.Perm.swap x y ys)

theorem insertKey_sorted (x : Nat × Lit) (l : List (Nat × Lit))
    (h : l.Pairwise (fun a b => a.1 ≤ b.1)) :
    (Minimize.insertKey x l).Pairwise (fun a b => a.1 ≤ b.1) := by
  induction l with
  | nil => simp [Minimize.insertKey]
  | cons y ys ih =>
    unfold Minimize.insertKey
    rw [List.pairwise_cons] at h
    split
    · rename_i hxy
      rw [List.pairwise_cons]
      refine ⟨?_, List.pairwise_cons.2 h⟩
      intro z hz
      rcases List.mem_cons.1 hz with rfl | hz
      · exact hxy
      · exact Nat.le_trans hxy (h.1 z hz)
    · rename_i hxy
      rw [List.pairwise_cons]
      refine ⟨?_, ih h.2⟩
      intro z hz
      rcases List.mem_cons.1 ((insertKey_perm x ys).mem_iff.1 hz) with rfl | hz
      · omega
      · exact h.1 z hz

theorem sortByIndex_spec {t : Trail} (ls : List Lit)
    (h : ∀ l ∈ ls, ∃ i, t.indexOf l.index = .ok i) :
    ∃ keyed, Minimize.sortByIndex t ls = .ok keyed ∧ (keyed.map (·.2)).Perm ls ∧
      keyed.Pairwise (fun a b => a.1 ≤ b.1) ∧
      ∀ x ∈ keyed, t.trailIndex[x.2.index]? = some x.1 := by
  induction ls with
  | nil => exact ⟨[], rfl, by simp, by simp, by simp⟩
  | cons l ls ih =>
    obtain ⟨i, hi⟩ := h l (by simp)
    obtain ⟨keyed, e, h1, h2, h3⟩ := ih (fun x hx => h x (by simp [hx]))
    refine ⟨Minimize.insertKey (i, l) keyed, ?_, ?_, insertKey_sorted _ _ h2, ?_⟩
    · unfold Minimize.sortByIndex
      rw [hi, bind_ok, e]; rfl
    · exact ((insertKey_perm (i, l) keyed).map Prod.snd).trans (h1.cons l)
    · intro x hx
      rcases List.mem_cons.1 ((insertKey_perm (i, l) keyed).mem_iff.1 hx) with rfl | hx
      · exact Trail.indexOf_eq_ok hi
      · exact h3 x hx

/-! ## Cleaning up -/

theorem cleanCache_spec (is : List Nat) : ∀ {c : List (Option Bool)}, (∀ i ∈ is, i < c.length) →
    ∃ c', Minimize.cleanCache is c = .ok c' ∧
      ∀ i b, c'[i]? = some (some b) → c[i]? = some (some b) ∧ i ∉ is := by
  induction is with
  | nil => intro c _; exact ⟨c, rfl, fun i b hb => ⟨hb, by simp⟩⟩
  | cons j is ih =>
    intro c h
    obtain ⟨c', e, q⟩ := ih (c := c.set j none) (fun i hi => by
      simpa using h i (by simp [hi]))
    refine ⟨c', ?_, ?_⟩
    · unfold Minimize.cleanCache
      rw [upd_ok (h j (by simp)), bind_ok]; exact e
    · intro i b hb
      obtain ⟨a1, a2⟩ := q i b hb
      rw [List.getElem?_set] at a1
      by_cases hij : j = i
      · rw [if_pos hij] at a1
        split at a1 <;> simp at a1
      · rw [if_neg hij] at a1
        exact ⟨a1, by simp [a2]; exact fun h => hij h.symm⟩

theorem cleanLevels_spec (h : PInv n S p) (ls : List Lit) : ∀ {f : List Nat},
    p.trail.decisionLevel < f.length → (∀ l ∈ ls, ∃ i, At p.trail l i) →
    ∃ f', Minimize.cleanLevels p.trail ls f = .ok f' ∧
      ∀ lev x, f'[lev]? = some x → x = UNASSIGNED ∨ (f[lev]? = some x ∧
        ∀ l ∈ ls, ∀ i s, At p.trail l i → p.trail.steps[i]? = some s → s.level ≠ lev) := by
  induction ls with
  | nil => intro f _ _; exact ⟨f, rfl, fun lev x hx => .inr ⟨hx, by simp⟩⟩
  | cons l ls ih =>
    intro f hf hl
    obtain ⟨i, hat⟩ := hl l (by simp)
    obtain ⟨h1, s, h2, h3, h4⟩ := hat
    have hlev := h.trail.level_le i s h2
    obtain ⟨f', e, q⟩ := ih (f := f.set s.level UNASSIGNED) (by simpa using hf)
      (fun x hx => hl x (by simp [hx]))
    refine ⟨f', ?_, ?_⟩
    · unfold Minimize.cleanLevels Trail.stepForVar
      rw [Trail.indexOf_ok h1 h2 (by rw [h3, Lit.index_neg]), bind_ok, idx_ok h2, bind_ok, upd_ok (by omega), bind_ok]; exact e
    · intro lev x hx
      rcases q lev x hx with e | ⟨a1, a2⟩
      · exact .inl e
      · rw [List.getElem?_set] at a1
        by_cases hll : s.level = lev
        · rw [if_pos hll] at a1
          split at a1
          · injection a1 with a1; exact .inl a1.symm
          · simp at a1
        · rw [if_neg hll] at a1
          refine .inr ⟨a1, ?_⟩
          intro y hy j sj hj hsj
          rcases List.mem_cons.1 hy with rfl | hy
          · have : j = i := hj.unique ⟨h1, s, h2, h3, h4⟩
            subst this
            rw [h2] at hsj; cases hsj; exact hll
          · exact a2 y hy j sj hj hsj

/-- The state of the minimisation buffers between two calls. -/
structure MinIdle (m : Minimize) : Prop where
  clean : m.toClean = []
  cache : ∀ (i : Nat) (b : Bool), m.cache[i]? ≠ some (some b)
  first : ∀ (lev f : Nat), lev ≠ 0 → m.firstOnLevel[lev]? = some f → f = UNASSIGNED

theorem prepare_spec {m : Minimize} (h : MinIdle m) :
    ∃ m', m.prepare p.trail = .ok m' ∧ MInv p (fun _ => False) 0 m' := by
  generalize ht : p.trail = t
  unfold Minimize.prepare
  have hf : ∃ f : List Nat, f = (if m.firstOnLevel.length ≤ t.decisionLevel then
      Heap.resizeList m.firstOnLevel (t.decisionLevel + 1) UNASSIGNED else m.firstOnLevel) ∧
      t.decisionLevel < f.length ∧
      ∀ (lev x : Nat), lev ≠ 0 → f[lev]? = some x → x = UNASSIGNED := by
    refine ⟨_, rfl, ?_, ?_⟩
    · split
      · rw [Heap.resizeList_length]; omega
      · omega
    · intro lev x hl hx
      split at hx
      · have hlt : lev < t.decisionLevel + 1 := by
          have := (List.getElem?_eq_some_iff.1 hx).1
          rwa [Heap.resizeList_length] at this
        rw [Heap.resizeList_get _ _ _ _ hlt, List.getD_eq_getElem?_getD] at hx
        injection hx with hx
        cases hg : m.firstOnLevel[lev]? with
        | none => rw [hg] at hx; exact hx.symm
        | some y => rw [hg] at hx; simp at hx; exact hx ▸ h.first lev y hl hg
      · exact h.first lev x hl hx
  obtain ⟨f, ef, hf1, hf2⟩ := hf
  have hc : ∃ c : List (Option Bool), c = (if m.cache.length ≤ t.steps.length then
      Heap.resizeList m.cache t.steps.length none else m.cache) ∧ t.steps.length ≤ c.length ∧
      ∀ (i : Nat) (b : Bool), c[i]? ≠ some (some b) := by
    refine ⟨_, rfl, ?_, ?_⟩
    · split
      · rw [Heap.resizeList_length]
      · omega
    · intro i b hx
      split at hx
      · have hlt : i < t.steps.length := by
          have := (List.getElem?_eq_some_iff.1 hx).1
          rwa [Heap.resizeList_length] at this
        rw [Heap.resizeList_get _ _ _ _ hlt, List.getD_eq_getElem?_getD] at hx
        injection hx with hx
        cases hg : m.cache[i]? with
        | none => rw [hg] at hx; simp at hx
        | some y => rw [hg] at hx; simp at hx; exact h.cache i b (hx ▸ hg)
      · exact h.cache i b hx
  obtain ⟨c, ec, hc1, hc2⟩ := hc
  simp only
  rw [← ef, ← ec, upd_ok (by omega), bind_ok]
  subst ht
  refine ⟨_, rfl, ⟨by simpa using hf1, hc1, List.getElem?_set_self (by omega), ?_, ?_, ?_, ?_, ?_⟩⟩
  · intro lev x hl hx
    refine ⟨.inl (hf2 lev x hl ?_), fun k _ hk => hk.elim⟩
    simpa [List.getElem?_set, (Ne.symm hl)] using hx
  · intro k hk; exact hk.elim
  · intro i b hi; exact absurd hi (hc2 i b)
  · intro i b hi; exact absurd hi (hc2 i b)
  · intro i hi; simp only [h.clean] at hi; simp at hi

/-! ## The result -/

/-- A learned clause that becomes unit on the level `lvl`. -/
structure Asserting (D : DB) (t : Trail) (c : List Lit) (lvl : Nat) : Prop where
  head : ∃ (k : Nat) (u : Step) (rest : List Lit), c = u.lit.neg :: rest ∧
    t.steps[k]? = some u ∧ u.level = t.decisionLevel ∧
    ∀ l ∈ rest, ∃ (i : Nat) (s : Step), At t l i ∧ t.steps[i]? = some s ∧ s.level ≤ lvl
  second : ∀ l, c[1]? = some l → ∃ (i : Nat) (s : Step), At t l i ∧ t.steps[i]? = some s ∧
    s.level = lvl
  single : c.length = 1 → lvl = 0
  lt : lvl < t.decisionLevel
  nodup : c.Nodup
  rup : RUP D c

theorem Asserting.valid {D : DB} {c : List Lit} {lvl : Nat} (h : Asserting D p.trail c lvl)
    (hp : PInv n S p) : ∀ l ∈ c, l.Valid := by
  have key : ∀ s ∈ p.trail.steps, s.lit.Valid := by
    intro s hs
    have h1 := hp.trail.idx_lt s hs
    have h2 := hp.sized.n_le
    exact Lit.valid_iff_index.2 (by omega)
  obtain ⟨k, u, rest, rfl, hu, -, hr⟩ := h.head
  intro l hl
  rcases List.mem_cons.1 hl with rfl | hl
  · exact (key u (List.mem_of_getElem? hu)).neg
  · obtain ⟨i, s, ha, hs, -⟩ := hr l hl
    obtain ⟨-, x, hx, e, -⟩ := ha
    have := (key x (List.mem_of_getElem? hx)).neg
    rwa [e, Lit.neg_neg] at this

/-- The clause `c'` is `c` without the literals that are redundant. -/
structure MinResult (p : PropState) (c c' : List Lit) : Prop where
  removed : ∀ l ∈ c, Recorded p (fun x => ∃ y ∈ c', x = y.neg) l.neg
  kept : ∀ l ∈ c', ¬ Recorded p (fun x => ∃ y ∈ c', y ≠ l ∧ x = y.neg) l.neg

theorem minimize_spec (h : PInv n S p) (d : DBInv F L S p.binary p.trail.steps p.unsat)
    {m : Minimize} (hm : MinIdle m) {c : List Lit} (hc : UipClause (F + L) p.trail c)
    (hlen : 1 < c.length) :
    ∃ m' c' lvl, m.minimize c p = .ok (m', c', lvl) ∧ MinIdle m' ∧
      Asserting (F + L) p.trail c' lvl ∧ (∀ l ∈ c', l ∈ c) ∧ lvl ≠ 0 ∧ MinResult p c c' := by
  obtain ⟨R, k, u, ec, hk, hu, hnd, hR⟩ := hc.split
  have hpos : 0 < p.trail.decisionLevel := by
    match R, ec, hR with
    | [], ec, _ => rw [ec] at hlen; simp at hlen
    | l :: R, _, hR =>
      obtain ⟨i, s, _, _, _, _⟩ := hR l (by simp)
      omega
  have hatu : At p.trail u.lit.neg k := by
    refine ⟨?_, u, hk, by simp, by omega⟩
    rw [Lit.index_neg]; exact h.trail.tix_pos hk (by omega)
  have hatR : ∀ l ∈ R, ∃ i s, At p.trail l i ∧ p.trail.steps[i]? = some s ∧
      s.level < p.trail.decisionLevel := by
    intro l hl
    obtain ⟨i, s, h1, h2, h3, h4⟩ := hR l hl
    refine ⟨i, s, ⟨?_, s, h1, h2, h3⟩, h1, h4⟩
    have := h.trail.tix_pos h1 (by omega)
    rwa [h2, Lit.index_neg] at this
  obtain ⟨m1, e1, hm1⟩ := prepare_spec (p := p) hm
  obtain ⟨keyed, e2, k1, k2, k3⟩ := sortByIndex_spec (t := p.trail) c (by
    intro l hl
    rw [ec] at hl
    rcases List.mem_append.1 hl with hl | hl
    · obtain ⟨i, _, ha, _⟩ := hatR l hl; exact ⟨i, ha.indexOf⟩
    · simp at hl; subst hl; exact ⟨k, hatu.indexOf⟩)
  -- the order of the levels follows the order of the positions
  have hat : ∀ x ∈ keyed, At p.trail x.2 x.1 := by
    intro x hx
    have hx2 : x.2 ∈ c := k1.mem_iff.1 (List.mem_map_of_mem hx)
    have hx3 := k3 x hx
    rw [ec] at hx2
    rcases List.mem_append.1 hx2 with hl | hl
    · obtain ⟨i, _, ha, _⟩ := hatR _ hl
      have := ha.1; rw [hx3] at this; injection this with this; rw [this]; exact ha
    · simp at hl
      rw [hl, Lit.index_neg] at hx3
      have := hatu.1; rw [Lit.index_neg, hx3] at this; injection this with this
      rw [this, hl]; exact hatu
  have hne : keyed ≠ [] := by
    intro e
    have := k1.length_eq
    rw [e] at this; simp at this; omega
  obtain ⟨init, lst, ek⟩ : ∃ init lst, keyed = init ++ [lst] :=
    ⟨keyed.dropLast, keyed.getLast hne, (List.dropLast_append_getLast hne).symm⟩
  have hl2 : lst.2 = u.lit.neg := by
    have hmem : u.lit.neg ∈ keyed.map (·.2) := k1.mem_iff.2 (by rw [ec]; simp)
    obtain ⟨x, hx, hx2⟩ := List.mem_map.1 hmem
    have hxk : x.1 = k := by
      have := hat x hx; rw [hx2] at this; exact this.unique hatu
    have hle : x.1 ≤ lst.1 := by
      rw [ek] at hx k2
      rcases List.mem_append.1 hx with hx | hx
      · exact (List.pairwise_append.1 k2).2.2 x hx lst (by simp)
      · simp at hx; rw [hx]
    have hlc : lst.2 ∈ c := k1.mem_iff.1 (List.mem_map_of_mem (by rw [ek]; simp))
    rw [ec] at hlc
    rcases List.mem_append.1 hlc with hl | hl
    · exfalso
      obtain ⟨i, s, ha, hs, hlt⟩ := hatR _ hl
      have hi : lst.1 = i := (hat lst (by rw [ek]; simp)).unique ha
      have := h.trail.level_mono hk hs (by omega)
      omega
    · simpa using hl
  have hsorted : keyed.map (·.2) = init.map (·.2) ++ [u.lit.neg] := by rw [ek]; simp [hl2]
  have hperm : (init.map (·.2)).Perm R := by
    rw [hsorted, ec] at k1
    exact (List.perm_append_right_iff _).1 k1
  have hndi : (init.map (·.2)).Nodup := hperm.nodup_iff.2 hnd
  have hpw : (init.map (·.2)).Pairwise (fun a b =>
      ∀ i j, At p.trail a i → At p.trail b j → i < j) := by
    have hpl : (init.map (·.2)).Pairwise (fun a b =>
        ∀ i j, At p.trail a i → At p.trail b j → i ≤ j) := by
      rw [List.pairwise_map]
      rw [ek] at k2
      refine ((List.pairwise_append.1 k2).1).imp_of_mem ?_
      intro a b ha hb hab i j hi hj
      have h1 := (hat a (by rw [ek]; simp [ha])).unique hi
      have h2 := (hat b (by rw [ek]; simp [hb])).unique hj
      omega
    refine List.Pairwise.imp₂ ?_ hpl hndi
    intro a b hab hne i j hi hj
    rcases Nat.lt_or_ge i j with hij | hij
    · exact hij
    · have := hab i j hi hj
      have e : i = j := by omega
      subst e
      exact absurd (hi.inj hj) hne
  obtain ⟨m2, kept, bnd, e3, r1, r2, r3, r4⟩ := retainLoop_spec h (init.map (·.2)) hm1 (by
    intro l hl
    obtain ⟨i, _, ha, _⟩ := hatR l (hperm.mem_iff.1 hl)
    exact ⟨i, ha, Nat.zero_le _⟩) hpw
  have hkR : ∀ l ∈ kept, l ∈ R := fun l hl => hperm.mem_iff.1 (r2.subset hl)
  obtain ⟨cache', e4, q4⟩ := cleanCache_spec m2.toClean (c := m2.cache) r1.cleanlt
  obtain ⟨f', e5, q5⟩ := cleanLevels_spec h (kept ++ [u.lit.neg]) (f := m2.firstOnLevel)
    r1.flen (by
      intro l hl
      rcases List.mem_append.1 hl with hl | hl
      · obtain ⟨i, _, ha, _⟩ := hatR l (hkR l hl); exact ⟨i, ha⟩
      · simp at hl; subst hl; exact ⟨k, hatu⟩)
  have hkne : kept ≠ [] := by
    intro e
    match R, ec, hatR, hperm with
    | [], ec, _, _ => rw [ec] at hlen; simp at hlen
    | l :: R, _, hatR, hperm =>
      obtain ⟨i, s, ha, hs, _⟩ := hatR l (by simp)
      obtain ⟨_, s', a1, a2, a3⟩ := ha
      have hr := r3 l (hperm.mem_iff.2 (by simp))
      obtain ⟨_, _, _, _, ⟨_, _, hk, _⟩, _⟩ := h.recorded_level hr a1 a2 a3
      rcases hk with hk | ⟨y, hy, _⟩
      · exact hk
      · rw [e] at hy; simp at hy
  obtain ⟨ki, kl, ekept⟩ : ∃ ki kl, kept = ki ++ [kl] :=
    ⟨kept.dropLast, kept.getLast hkne, (List.dropLast_append_getLast hkne).symm⟩
  have hrev : (kept ++ [u.lit.neg]).reverse = u.lit.neg :: kl :: ki.reverse := by
    rw [ekept]; simp
  obtain ⟨ik, sk, hak, hsk, hltk⟩ := hatR kl (hkR kl (by rw [ekept]; simp))
  have hlevk : sk.level ≠ 0 := by
    obtain ⟨_, s', h1, _, h2⟩ := hak
    rw [hsk] at h1; cases h1; exact h2
  -- positions along the kept literals
  have hord : ∀ l ∈ ki, ∃ i s, At p.trail l i ∧ p.trail.steps[i]? = some s ∧
      s.level ≤ sk.level := by
    intro l hl
    obtain ⟨i, s, ha, hs, _⟩ := hatR l (hkR l (by rw [ekept]; simp [hl]))
    refine ⟨i, s, ha, hs, ?_⟩
    have hpk := hpw.sublist r2
    rw [ekept] at hpk
    have := (List.pairwise_append.1 hpk).2.2 l hl kl (by simp) i ik ha hak
    exact h.trail.level_mono hs hsk (Nat.le_of_lt this)
  have hres : MinResult p c (u.lit.neg :: kl :: ki.reverse) := by
    rw [← hrev]
    constructor
    · intro l hl
      rw [ec] at hl
      rcases List.mem_append.1 hl with hl | hl
      · refine (r3 l (hperm.mem_iff.2 hl)).mono ?_
        rintro x ⟨i, s, hK, hs, rfl⟩
        rcases hK with hK | ⟨y, hy, hat⟩
        · exact hK.elim
        · obtain ⟨_, s', h1, h2, _⟩ := hat
          rw [hs] at h1; cases h1
          exact ⟨y, by simp [hy], h2⟩
      · exact .asm ⟨l, by simpa using .inl (by simpa using hl), rfl⟩
    · intro l hl hr
      have hl' : l ∈ kept ∨ l = u.lit.neg := by simpa [or_comm] using hl
      rcases hl' with hl' | rfl
      · obtain ⟨i, s, ha, hs, hlt⟩ := hatR l (hkR l hl')
        obtain ⟨_, s', a1, a2, a3⟩ := id ha
        rw [hs] at a1; cases a1
        refine r4 l hl' i ha (h.recorded_cut hr hs a2 ?_)
        rintro k' x hk' hx hx0 ⟨y, hy, hyl, e⟩
        have hy' : y ∈ kept ∨ y = u.lit.neg := by simpa [or_comm] using hy
        rcases hy' with hy' | rfl
        · obtain ⟨j, _, hj, _⟩ := hatR y (hkR y hy')
          obtain ⟨_, sj, b1, b2, b3⟩ := id hj
          obtain ⟨rfl, rfl⟩ := h.pos_unique hx b1 (b2.trans e.symm) hx0
          refine ⟨k', x, ⟨.inr ⟨y, hy', hj⟩, ?_⟩, hx, rfl⟩
          rintro rfl
          exact hyl (hj.inj ha)
        · rw [Lit.neg_neg] at e
          obtain ⟨rfl, rfl⟩ := h.pos_unique hx hk e.symm hx0
          have := h.trail.level_mono hx hs hk'
          omega
      · rw [Lit.neg_neg] at hr
        obtain ⟨k', x, _, hx, ⟨y, hy, hyl, e⟩, hxl⟩ := h.recorded_level hr hk rfl (by omega)
        have hy' : y ∈ kept ∨ y = u.lit.neg := by simpa [or_comm] using hy
        rcases hy' with hy' | rfl
        · obtain ⟨j, s, hj, hs, hlt⟩ := hatR y (hkR y hy')
          obtain ⟨_, sj, b1, b2, b3⟩ := hj
          rw [hs] at b1; cases b1
          have := h.trail.level_unique (List.mem_iff_getElem?.2 ⟨k', hx⟩)
            (List.mem_iff_getElem?.2 ⟨j, hs⟩) (e.trans b2.symm)
          omega
        · exact hyl rfl
  refine ⟨{ firstOnLevel := f', cache := cache', toClean := [] }, u.lit.neg :: kl :: ki.reverse,
    sk.level, ?_, ⟨rfl, ?_, ?_⟩, ?_, ?_, hlevk, hres⟩
  · unfold Minimize.minimize
    rw [e1, bind_ok, e2, bind_ok]
    simp only [hsorted]
    rw [List.getLast?_append]
    simp only [List.getLast?_singleton, Option.some_or, List.dropLast_concat]
    rw [e3, bind_ok]
    simp only
    rw [e4, bind_ok, e5, bind_ok, hrev]
    unfold Trail.stepForVar
    rw [idx_ok (x := kl) (by rfl), bind_ok, hak.indexOf, bind_ok, idx_ok hsk, bind_ok]; rfl
  · intro i b hb
    obtain ⟨a1, a2⟩ := q4 i b hb
    exact a2 (r1.clean i b a1)
  · intro lev x hl hx
    rcases q5 lev x hx with e | ⟨a1, a2⟩
    · exact e
    · rcases (r1.first lev x hl a1).1 with e | ⟨a, s, hs, hsl⟩
      · exact e
      · exfalso
        rcases a with a | ⟨l, hl, ha⟩
        · exact a
        · exact a2 l (by simp [hl]) x s ha hs hsl
  · refine ⟨⟨k, u, kl :: ki.reverse, rfl, hk, hu, ?_⟩, ?_, by simp, hltk, ?_, ?_⟩
    · intro l hl
      rcases List.mem_cons.1 hl with rfl | hl
      · exact ⟨ik, sk, hak, hsk, Nat.le_refl _⟩
      · exact hord l (List.mem_reverse.1 hl)
    · intro l hl
      simp at hl
      subst hl
      exact ⟨ik, sk, hak, hsk, rfl⟩
    · rw [← hrev, List.nodup_reverse, List.nodup_append]
      refine ⟨hndi.sublist r2, by simp, ?_⟩
      intro a ha b hb
      simp at hb
      subst hb
      intro e
      obtain ⟨i, s, ha', hs, hlt⟩ := hatR a (hkR a ha)
      rw [e] at ha'
      have := ha'.unique hatu
      subst this
      rw [hk] at hs; cases hs; omega
    · refine UpConflict.mono (fun _ hx => hx) ?_ hc.rup
      intro l hl
      rw [ec] at hl
      rcases List.mem_append.1 (Multiset.mem_coe.1 hl) with hl | hl
      · have h1 := (r3 _ (hperm.mem_iff.2 hl)).implied h d
        rw [Lit.neg_neg] at h1
        refine h1.mono (fun _ hx => hx) ?_
        rintro x ⟨i, s, hK, hs, rfl⟩
        refine .asm ?_
        rcases hK with hK | ⟨y, hy, hat⟩
        · exact hK.elim
        · obtain ⟨_, s', h1, h2, _⟩ := hat
          rw [hs] at h1; cases h1
          rw [h2, Lit.neg_neg]
          rw [← hrev]; simp [hy]
      · refine .asm ?_
        simp at hl
        rw [hl]; simp
  · intro l hl
    rw [← hrev] at hl
    rw [ec]
    simp only [List.mem_reverse, List.mem_append] at hl ⊢
    rcases hl with hl | hl
    · exact .inl (hkR l hl)
    · exact .inr hl

end

end Starlit
