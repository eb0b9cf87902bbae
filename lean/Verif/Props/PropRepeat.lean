import Verif.Props.PropLinear
import Verif.Props.Sizes

/-!
# C69 for all formulas: what repeated unit clauses cost

`Verif/Props/PropLinear.lean` shows that propagation takes linear time when no literal is processed twice, and that it
can take longer otherwise.  Here every literal that is processed again is paid for by one more walk over the lists.
-/

namespace Starlit

/-- How many of the literals occur before, in `seen` or in the list. -/
def repeated (seen : List Lit) : List Lit → Nat
  | [] => 0
  | l :: ls => (if l ∈ seen then 1 else 0) + repeated (seen ++ [l]) ls

theorem repeated_le (ls : List Lit) : ∀ seen, repeated seen ls ≤ ls.length := by
  induction ls with
  | nil => intro seen; exact Nat.le_refl _
  | cons l ls ih =>
    intro seen
    have := ih (seen ++ [l])
    simp only [repeated, List.length_cons]
    split <;> omega

theorem repeated_append (a b : List Lit) : ∀ seen, repeated seen (a ++ b) = repeated seen a + repeated (seen ++ a) b := by
  induction a with
  | nil => intro seen; simp [repeated]
  | cons l a ih =>
    intro seen
    simp only [List.cons_append, repeated, ih (seen ++ [l]), List.append_assoc, List.nil_append]
    omega

theorem repeated_fresh (ls : List Lit) : ∀ seen, (∀ i l, ls[i]? = some l → l ∉ seen ++ ls.take i) → repeated seen ls = 0 := by
  induction ls with
  | nil => intro seen _; rfl
  | cons l ls ih =>
    intro seen h
    have h0 := h 0 l (by simp)
    simp only [List.take_zero, List.append_nil] at h0
    rw [repeated, if_neg h0, ih (seen ++ [l])]
    intro i x hi
    have := h (i + 1) x (by simpa using hi)
    simpa using this

/-- The literals of a trail that occur before, from a position on. -/
def Trail.repeats (steps : List Step) (a : Nat) : Nat :=
  repeated ((steps.map Step.lit).take a) ((steps.map Step.lit).drop a)

theorem Trail.repeats_succ {steps : List Step} {a : Nat} {m : Step} (h : steps[a]? = some m) :
    repeats steps a = (if m.lit ∈ (steps.map Step.lit).take a then 1 else 0) + repeats steps (a + 1) := by
  unfold repeats
  have h1 : (steps.map Step.lit)[a]? = some m.lit := by simp [h]
  obtain ⟨hl, h2⟩ := List.getElem?_eq_some_iff.1 h1
  rw [List.drop_eq_getElem_cons hl, h2, repeated, List.take_add_one, h1]
  rfl

theorem repeated_card (ls : List Lit) : ∀ seen : List Lit,
    repeated seen ls + (seen ++ ls).toFinset.card = ls.length + seen.toFinset.card := by
  induction ls with
  | nil => intro seen; simp [repeated]
  | cons l ls ih =>
    intro seen
    have h := ih (seen ++ [l])
    rw [List.append_assoc, List.singleton_append] at h
    rw [repeated, List.length_cons]
    have h1 : (seen ++ [l]).toFinset = insert l seen.toFinset := by ext x; simp
    rw [h1] at h
    by_cases hl : l ∈ seen
    · rw [if_pos hl]
      rw [Finset.insert_eq_of_mem (by simpa using hl)] at h
      omega
    · rw [if_neg hl]
      rw [Finset.card_insert_of_notMem (by simpa using hl)] at h
      omega

theorem Trail.repeats_le {steps : List Step} {u : Nat} (h : ((steps.map Step.lit).drop u).Nodup) (a : Nat) :
    repeats steps a ≤ u := by
  have h1 := repeated_append ((steps.map Step.lit).take a) ((steps.map Step.lit).drop a) []
  rw [List.take_append_drop, List.nil_append] at h1
  have h2 := repeated_card (steps.map Step.lit) []
  rw [List.nil_append] at h2
  have h3 : ((steps.map Step.lit).drop u).toFinset.card ≤ (steps.map Step.lit).toFinset.card :=
    Finset.card_le_card (fun x hx => by
      rw [List.mem_toFinset] at hx ⊢
      exact List.mem_of_mem_drop hx)
  rw [List.toFinset_card_of_nodup h, List.length_drop] at h3
  simp only [List.toFinset_nil, Finset.card_empty] at h2
  unfold repeats
  omega

/-- Processing a literal again. -/
theorem wt_without {α : Type} (d : Nat → Bool) (c : Nat) (B : List (List α)) :
    wt (fun j => d j && j != c) B 0 ≤ wt d B 0 + (B.map List.length).sum :=
  Nat.le_trans (wt_le _ B 0) (Nat.le_add_left _ _)

theorem propagateLoopT_repeat {n : Nat} (K : Nat) (fuel : Nat) : ∀ {S : List LC} {p p' : PropState} {c : Nat}
    {r : Option ConflictClause}, PInv n S p →
    p.trail.steps.length + freeCount n p.trail.steps < fuel + p.trail.propagated →
    2 * watchSum p + (p.binary.map List.length).sum ≤ K →
    propagateLoopT fuel p = .ok (c, p', r) →
    c ≤ p'.trail.propagated - p.trail.propagated + 1 + potP (doneP p) S p + litsS S +
      K * Trail.repeats p'.trail.steps p.trail.propagated := by
  induction fuel with
  | zero =>
    intro S p p' c r h hf
    have := h.trail.prop_le
    omega
  | succ fuel ih =>
    intro S p p' c r h hf hK e
    have e' : propagateLoop (fuel + 1) p = .ok (p', r) := by rw [← propagateLoopT_erase, e]; rfl
    obtain ⟨hpe, _⟩ := (propagateLoop_spec (fuel + 1) h hf).ok_elim e'
    unfold propagateLoopT at e
    cases hg : p.trail.steps[p.trail.propagated]? with
    | none => rw [hg] at e; cases e; omega
    | some m =>
      rw [hg] at e
      simp only at e
      obtain ⟨⟨k, p1, r1⟩, e1, e⟩ := bind_eq_ok.1 e
      have e1' : propagateLiteral p m.lit = .ok (p1, r1) := by rw [← propagateLiteralT_erase, e1]; rfl
      have hlen : p.trail.propagated < p.trail.steps.length := (List.getElem?_eq_some_iff.1 hg).1
      obtain ⟨new, hnew, _⟩ := hpe.steps
      have hfin : p'.trail.steps[p.trail.propagated]? = some m := by
        rw [hnew, List.getElem?_append_left hlen]; exact hg
      have htake : (p'.trail.steps.map Step.lit).take p.trail.propagated =
          (p.trail.steps.map Step.lit).take p.trail.propagated := by
        rw [hnew, List.map_append, List.take_append_of_le_length (by simpa using Nat.le_of_lt hlen)]
      have hrep := Trail.repeats_succ hfin
      rw [htake] at hrep
      -- the cost of the literal
      obtain ⟨d0, hd0, hd1, hd2⟩ : ∃ d0 : Nat → Bool, d0 m.lit.neg.code = false ∧
          addDone d0 m.lit.neg.code = addDone (doneP p) m.lit.neg.code ∧
          potP d0 S p ≤ potP (doneP p) S p + K * (if m.lit ∈ (p.trail.steps.map Step.lit).take p.trail.propagated then 1 else 0) := by
        by_cases hm : m.lit ∈ (p.trail.steps.map Step.lit).take p.trail.propagated
        · refine ⟨fun j => doneP p j && j != m.lit.neg.code, by simp, ?_, ?_⟩
          · funext j
            unfold addDone
            cases hj : (j == m.lit.neg.code) <;> simp [bne, hj]
          · have h1 := wt_without (doneP p) m.lit.neg.code p.watches.byLit
            have h2 := wt_without (doneP p) m.lit.neg.code p.binary
            rw [if_pos hm]
            unfold watchSum at hK
            unfold potP
            omega
        · refine ⟨doneP p, ?_, rfl, by omega⟩
          unfold doneP
          rw [List.any_eq_false]
          intro s hs hc
          have := Lit.ext_code (by simpa using hc : s.lit.neg.code = m.lit.neg.code)
          apply hm
          rw [← List.map_take]
          exact List.mem_map.2 ⟨s, hs, by rw [← Lit.neg_neg s.lit, this, Lit.neg_neg]⟩
      obtain ⟨⟨S1, i1, i2⟩, i3⟩ := propagateLiteralT_cost h hg hd0 e1
      obtain ⟨hext, S', hsim, h1, hsat, hconf⟩ := (propagateLiteral_spec h hg).ok_elim e1'
      have hmul : K * Trail.repeats p'.trail.steps p.trail.propagated =
          K * (if m.lit ∈ (p.trail.steps.map Step.lit).take p.trail.propagated then 1 else 0) +
          K * Trail.repeats p'.trail.steps (p.trail.propagated + 1) := by rw [hrep, Nat.mul_add]
      cases r1 with
      | some x => cases e; omega
      | none =>
        simp only at e
        have hlen1 : p1.trail.propagated < p1.trail.steps.length := by
          rw [hext.prop]; exact (List.getElem?_eq_some_iff.1 (hext.get hg)).1
        obtain ⟨hw, hb⟩ := hsat rfl
        rw [← hext.prop] at hw hb
        have h1' : PInv n S' { p1 with trail := { p1.trail with
            propagated := p1.trail.propagated + 1 } } :=
          ⟨⟨h1.sized.values, h1.sized.tix, h1.sized.bin, h1.sized.wat, h1.sized.n_le⟩,
            ⟨h1.trail.vwf, h1.trail.idx_lt, h1.trail.val_iff, h1.trail.tix, h1.trail.dec0,
              h1.trail.level_le, h1.trail.level, h1.trail.decs, hlen1,
              fun i s hi hs => h1.trail.prop_level i s (by simp only at hi; omega) hs⟩,
            h1.reasons, h1.rep, h1.long, h1.ws, h1.blk, hw, h1.bs, hb, h1.enabled, h1.small⟩
        rw [debugM_ok (by simpa using hlen1), bind_ok] at e
        obtain ⟨⟨k2, p2, r2⟩, e2, e⟩ := bind_eq_ok.1 e
        cases e
        have hf' : p1.trail.steps.length + freeCount n p1.trail.steps < fuel + (p1.trail.propagated + 1) := by
          have := hext.free
          rw [hext.prop]; omega
        have hgrow := grow_propagateLiteral _ e1'
        have hK' : 2 * watchSum { p1 with trail := { p1.trail with propagated := p1.trail.propagated + 1 } } +
            (p1.binary.map List.length).sum ≤ K := by
          simp only [Grow, watchSum, hext.binary] at hgrow hK ⊢
          omega
        have hq := ih h1' hf' hK' e2
        have e2' : propagateLoop fuel { p1 with trail := { p1.trail with
            propagated := p1.trail.propagated + 1 } } = .ok (p', r) := by rw [← propagateLoopT_erase, e2]; rfl
        have hp2 := ((propagateLoop_spec fuel h1' hf').ok_elim e2').1.prop
        have hdone : doneP { p1 with trail := { p1.trail with propagated := p1.trail.propagated + 1 } } =
            addDone (doneP p) m.lit.neg.code := by
          obtain ⟨new, hnew, _⟩ := hext.steps
          funext i
          unfold doneP addDone
          simp only [hext.prop, hnew]
          rw [List.take_append_of_le_length (by omega), List.take_add_one, hg, List.any_append]
          simp only [Option.toList_some, List.any_cons, List.any_nil, Bool.or_false]
          congr 1
          rw [Bool.eq_iff_iff]
          simp only [beq_iff_eq]
          exact eq_comm
        rw [hdone] at hq
        have hx := i2 rfl
        rw [hd1] at hx
        unfold potP at hx hq hd2 ⊢
        rw [i1.potS_eq h1.rep] at hx
        rw [litsS_sim hsim] at hq
        simp only at hq hp2
        rw [hext.prop] at hq hp2
        omega

section
variable {env : Env} {F : List (List Lit)} {s : Solver} {p1 p : PropState} {ctx : Ctx} {r : Option ConflictClause}

/-- C69 for all formulas: a call of `propagate()` takes at most the time of C69, and for each literal waiting to be
processed that is on the trail before as well, one more walk over the lists of binary clauses and watches. -/
theorem C69_every (h : Solver.Propagating env F s p1 ctx p r) :
    (∃ t, propagateT s.ctx p1 = .ok (t, ctx, p, r) ∧
      t ≤ p.trail.propagated - p1.trail.propagated + 1 +
        (1 + Trail.repeats p1.trail.steps p1.trail.propagated) *
          ((p1.binary.map List.length).sum + 2 * (p1.watches.byLit.map List.length).sum) +
        5 * (p1.long.buffer.length - p1.long.garbage)) ∧
    Trail.repeats p1.trail.steps p1.trail.propagated ≤ (unitLits F).length := by
  obtain ⟨_, S1, hi, _, hpost⟩ := h.inv
  obtain ⟨_, new, hnew, hfresh⟩ := C07_reasons h
  have hrep : Trail.repeats p.trail.steps p1.trail.propagated = Trail.repeats p1.trail.steps p1.trail.propagated := by
    have hle : p1.trail.propagated ≤ (p1.trail.steps.map Step.lit).length := by
      simpa using hi.trail.prop_le
    unfold Trail.repeats
    rw [hnew, List.map_append, List.take_append_of_le_length hle, List.drop_append_of_le_length hle, repeated_append,
      List.take_append_drop, repeated_fresh (new.map Step.lit) (p1.trail.steps.map Step.lit), Nat.add_zero]
    intro i l hl hm
    rw [List.getElem?_map, Option.map_eq_some_iff] at hl
    obtain ⟨st, hst, rfl⟩ := hl
    rw [← List.map_take, ← List.map_append, List.mem_map] at hm
    obtain ⟨t, ht, e⟩ := hm
    exact (hfresh i st hst).2.2.1 t ht (by rw [e])
  refine ⟨?_, ?_⟩
  · have e := h.prop
    rw [← propagateT_erase] at e
    obtain ⟨t, e⟩ := map_snd_eq_ok e
    refine ⟨t, e, ?_⟩
    have he : enableWatchLists p1 true = .ok p1 := by
      unfold enableWatchLists
      rw [if_pos hi.enabled]; rfl
    simp only [propagateT, he, bind_ok] at e
    obtain ⟨⟨k, q, r1⟩, e1, e⟩ := bind_eq_ok.1 e
    have hx : k = t ∧ q = p := by
      cases r1 with
      | some c => cases e; exact ⟨rfl, rfl⟩
      | none =>
        simp only at e
        obtain ⟨_, _, e⟩ := bind_eq_ok.1 e
        cases e; exact ⟨rfl, rfl⟩
    obtain ⟨rfl, rfl⟩ := hx
    have h1 := propagateLoopT_repeat _ _ hi (by
      have := freeCount_le (formulaVars F) p1.trail.steps
      have := hi.sized.tix
      omega) (Nat.le_refl _) e1
    have h2 := potS_le p1.values S1
    have h3 := wt_le (doneP p1) p1.watches.byLit 0
    have h4 := wt_le (doneP p1) p1.binary 0
    have h5 := hi.rep.litsS_le
    rw [hrep] at h1
    unfold potP watchSum at h1
    rw [Nat.add_mul, Nat.one_mul, Nat.mul_comm (Trail.repeats _ _),
      Nat.add_comm (p1.binary.map List.length).sum (2 * _)]
    omega
  · rw [← hrep]
    obtain ⟨_, _, _, _, k4⟩ := h.keys
    exact Trail.repeats_le (k4 _ (h.reach.fixed.nodup _ (.inr (Nat.le_refl _)))) _

end

/-- A case for `C69_every`: four copies of a unit clause are three repeated literals; the time is 19 and the bound is
32, where that of C69 is 14. -/
theorem C69_every_example : ∃ s p1 ctx p t, Solver.Propagating Example.env
    (Example.cnf [[1], [1], [1], [1], [-1, 2], [-1, 3], [-1, 4]]) s p1 ctx p none ∧
    propagateT s.ctx p1 = .ok (t, ctx, p, none) ∧
    t = 19 ∧ Trail.repeats p1.trail.steps p1.trail.propagated = 3 ∧
    p.trail.propagated - p1.trail.propagated + 1 +
      (1 + 3) * ((p1.binary.map List.length).sum + 2 * (p1.watches.byLit.map List.length).sum) +
      5 * (p1.long.buffer.length - p1.long.garbage) = 32 := by
  have h : (do
      let x ← Example.mid [[1], [1], [1], [1], [-1, 2], [-1, 3], [-1, 4]] 0
      let t ← propagateT x.1.ctx x.2.1
      pure (x.2.2.2.2, t.1, Trail.repeats x.2.1.trail.steps x.2.1.trail.propagated,
        x.2.2.2.1.trail.propagated - x.2.1.trail.propagated + 1 +
        (1 + 3) * ((x.2.1.binary.map List.length).sum + 2 * (x.2.1.watches.byLit.map List.length).sum) +
        5 * (x.2.1.long.buffer.length - x.2.1.long.garbage)) :
      M (Option ConflictClause × Nat × Nat × Nat)) = .ok (none, 19, 3, 32) := by decide +kernel
  obtain ⟨⟨s, p1, ctx, p, r⟩, h1, h2⟩ := bind_eq_ok.1 h
  obtain ⟨⟨t, ctx', p', r'⟩, h3, h2⟩ := bind_eq_ok.1 h2
  have h2 := Except.ok.inj h2
  simp only [Prod.mk.injEq] at h2
  obtain ⟨rfl, h5, h6, h7⟩ := h2
  have hp := Example.mid_propagating (by decide +kernel) h1
  have h4 := C69_counted s.ctx p1
  rw [hp.prop, h3] at h4
  have h4 := Except.ok.inj h4
  simp only [Prod.mk.injEq] at h4
  obtain ⟨rfl, rfl, rfl⟩ := h4
  exact ⟨s, p1, ctx', p', t, hp, h3, h5, h6, h7⟩

end Starlit
