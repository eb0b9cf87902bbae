import Verif.Solver.Backtrack

/-!
# Bumping, decaying and picking decisions
-/

namespace Starlit

/-- The literal of a variable index. -/
def litOf (x : Nat) (b : Bool) : Lit := Lit.fromVar ⟨BitVec.ofNat 32 x⟩ b

theorem litOf_index {x : Nat} (hx : x ≤ MAX_INDEX) (b : Bool) : (litOf x b).index = x := by
  have h1 : (⟨BitVec.ofNat 32 x⟩ : Var).index = x := by
    simp only [Var.index, BitVec.toNat_ofNat]
    rw [MAX_INDEX_eq] at hx
    omega
  unfold litOf
  rw [Lit.fromVar_index (by rw [h1]; rw [MAX_INDEX_eq] at hx; omega), h1]

theorem litOf_isPositive {x : Nat} (hx : x ≤ MAX_INDEX) (b : Bool) :
    (litOf x b).isPositive = b := by
  have h1 : (⟨BitVec.ofNat 32 x⟩ : Var).index = x := by
    simp only [Var.index, BitVec.toNat_ofNat]
    rw [MAX_INDEX_eq] at hx
    omega
  unfold litOf
  exact Lit.fromVar_isPositive (by rw [h1]; rw [MAX_INDEX_eq] at hx; omega) b

theorem val_index {values : PartialAssignment} (hw : values.WF) {l m : Lit}
    (h : l.index = m.index) : values.val l = none ↔ values.val m = none := by
  rcases Lit.eq_or_eq_neg h with rfl | rfl
  · rfl
  · rw [PartialAssignment.val_neg hw]
    cases values.val m <;> simp

/-- The heuristics after a change that keeps the set of enqueued variables. -/
structure CbKeep (env : Env) (n : Nat) (cb cb' : Callbacks) : Prop where
  inv : CbInv env n cb'
  heap : ∀ z, z ∈ cb'.vsids.activity.heap ↔ z ∈ cb.vsids.activity.heap
  phases : cb'.phases = cb.phases

theorem CbKeep.refl {env : Env} {n : Nat} {cb : Callbacks} (h : CbInv env n cb) :
    CbKeep env n cb cb := ⟨h, fun _ => Iff.rfl, rfl⟩

theorem CbKeep.trans {env : Env} {n : Nat} {a b c : Callbacks} (h : CbKeep env n a b)
    (h' : CbKeep env n b c) : CbKeep env n a c :=
  ⟨h'.inv, fun z => (h'.heap z).trans (h.heap z), h'.phases.trans h.phases⟩

theorem CbKeep.covers {env : Env} {n : Nat} {cb cb' : Callbacks} (h : CbKeep env n cb cb')
    {values : PartialAssignment} (hc : Covers n values cb) : Covers n values cb' :=
  fun l hl hv => (h.heap _).2 (hc l hl hv)

theorem doRescale_spec {env : Env} {n : Nat} {v : Vsids} {ph : List Bool}
    (h : CbInv env n ⟨v, ph⟩) : CbKeep env n ⟨v, ph⟩ ⟨v.doRescale env, ph⟩ := by
  obtain ⟨w, o⟩ := Heap.applyMonotone_ok h.wf env.rescale
  refine ⟨⟨w, ?_, h.phases, fun hm => o hm.rescale (h.ord hm)⟩, fun z => Iff.rfl, rfl⟩
  simpa [Vsids.doRescale, Heap.applyMonotone] using h.len

theorem doDecay_spec {env : Env} {n : Nat} {cb : Callbacks} (h : CbInv env n cb) :
    CbKeep env n cb { cb with vsids := cb.vsids.doDecay env } := by
  have h1 : CbInv env n ⟨{ cb.vsids with increment := env.decay cb.vsids.increment }, cb.phases⟩ :=
    ⟨h.wf, h.len, h.phases, h.ord⟩
  have h2 : CbKeep env n cb ⟨{ cb.vsids with increment := env.decay cb.vsids.increment },
      cb.phases⟩ := ⟨h1, fun _ => Iff.rfl, rfl⟩
  unfold Vsids.doDecay
  simp only
  split
  · exact h2.trans (doRescale_spec h1)
  · exact h2

theorem bumpVar_spec {env : Env} {n : Nat} {cb : Callbacks} (h : CbInv env n cb) {x : Nat}
    (hx : x < n) : ∃ v', cb.vsids.bumpVar env x = .ok v' ∧
      CbKeep env n cb { cb with vsids := v' } := by
  have hv := List.getElem?_eq_getElem (show x < cb.vsids.activity.values.length by
    rw [h.len]; exact hx)
  generalize cb.vsids.activity.values[x]'(by rw [h.len]; exact hx) = old at hv
  obtain ⟨h', e, w, hvals, hm, ho⟩ := Heap.increase_ok h.wf
    (fun a => env.add a cb.vsids.increment) hv
  have h1 : CbInv env n ⟨{ cb.vsids with activity := h' }, cb.phases⟩ :=
    ⟨w, by rw [hvals]; simpa using h.len, h.phases,
      fun hmo => ho (h.ord hmo) (hmo.add _ _)⟩
  have h2 : CbKeep env n cb ⟨{ cb.vsids with activity := h' }, cb.phases⟩ := ⟨h1, hm, rfl⟩
  unfold Vsids.bumpVar Heap.get
  rw [idx_ok hv, bind_ok, e, bind_ok]
  simp only
  split
  · exact ⟨_, rfl, h2.trans (doRescale_spec h1)⟩
  · exact ⟨_, rfl, h2⟩

/-- What `pop_decision_var` returns. -/
structure PopPost (values : PartialAssignment) (h : Heap Nat) (r : Option Nat)
    (h' : Heap Nat) : Prop where
  wf : h'.WF
  vals : h'.values = h.values
  ord : h.Ordered → h'.Ordered
  sub : ∀ z ∈ h'.heap, z ∈ h.heap
  lost : ∀ z ∈ h.heap, values.val (litOf z true) = none → z ∈ h'.heap ∨ r = some z
  res : ∀ x, r = some x → x ∈ h.heap ∧ values.val (litOf x true) = none
  max : h.Ordered → ∀ x, r = some x → ∀ m, h.values[x]? = some m → ∀ z ∈ h.heap,
    values.val (litOf z true) = none → ∀ v, h.values[z]? = some v → v ≤ m
  empty : r = Option.none → h'.heap = []

theorem popLoop_spec {n : Nat} {values : PartialAssignment} (hw : values.WF)
    (hlen : values.assigned.length = n) (hn : n ≤ MAX_INDEX + 1) (fuel : Nat) :
    ∀ {h : Heap Nat}, h.WF → h.values.length = n → h.heap.length < fuel →
    ∃ r h', Vsids.popLoop values fuel h = .ok (r, h') ∧ PopPost values h r h' := by
  induction fuel with
  | zero => intro h _ _ hf; omega
  | succ fuel ih =>
    intro h w hl hf
    unfold Vsids.popLoop
    rcases Heap.popMax_ok w with ⟨h0, e⟩ | ⟨x, h1, e, hx, w1, v1, m1, o1⟩
    · refine ⟨none, h, by rw [e]; rfl, w, rfl, id, fun _ h => h, ?_, by simp, by simp,
        fun _ => h0⟩
      intro z hz; rw [h0] at hz; simp at hz
    · have hxn : x < n := by rw [← hl]; exact w.lt hx
      have hia : values.isAssigned x = .ok (values.val (litOf x true)).isSome := by
        have := PartialAssignment.isAssigned_eq (l := litOf x true) hw (by
          rw [litOf_index (by omega)]; omega)
        rwa [litOf_index (by omega)] at this
      rw [e, bind_ok]
      simp only
      rw [hia, bind_ok]
      cases hv : values.val (litOf x true) with
      | none =>
        refine ⟨some x, h1, rfl, w1, v1, fun o => (o1 o).1, fun z hz => ((m1 z).1 hz).2, ?_, ?_, ?_,
          by simp⟩
        · intro z hz _
          by_cases hzx : z = x
          · right; rw [hzx]
          · left; exact (m1 z).2 ⟨hzx, hz⟩
        · intro y hy; cases hy; exact ⟨hx, hv⟩
        · intro o y hy m hm z hz _ v hvz
          cases hy
          exact (o1 o).2 m hm z hz v hvz
      | some b =>
        have hlt : h1.heap.length < h.heap.length := by
          have hsub : List.Subperm (x :: h1.heap) h.heap := by
            refine List.subperm_of_subset ?_ ?_
            · refine List.nodup_cons.2 ⟨fun hc => ((m1 x).1 hc).1 rfl, w1.nodup⟩
            · intro z hz
              rcases List.mem_cons.1 hz with rfl | hz
              · exact hx
              · exact ((m1 z).1 hz).2
          have := hsub.length_le
          simp at this; omega
        obtain ⟨r, h2, e2, pp⟩ := ih w1 (by rw [v1]; exact hl) (by omega)
        refine ⟨r, h2, by simpa using e2, pp.wf, pp.vals.trans v1, fun o => pp.ord (o1 o).1,
          fun z hz => ((m1 z).1 (pp.sub z hz)).2, ?_, ?_, ?_, pp.empty⟩
        · intro z hz hu
          refine pp.lost z ((m1 z).2 ⟨?_, hz⟩) hu
          rintro rfl; rw [hv] at hu; simp at hu
        · intro y hy
          obtain ⟨a, b⟩ := pp.res y hy
          exact ⟨((m1 y).1 a).2, b⟩
        · intro o y hy m hm z hz hu v hvz
          refine pp.max (o1 o).1 y hy m (by rw [v1]; exact hm) z ((m1 z).2 ⟨?_, hz⟩) hu v
            (by rw [v1]; exact hvz)
          rintro rfl; rw [hv] at hu; simp at hu

/-- `pop_decision_var`. -/
theorem popDecisionVar_spec {env : Env} {n : Nat} {cb : Callbacks} {values : PartialAssignment}
    (h : CbInv env n cb) (hw : values.WF) (hlen : values.assigned.length = n)
    (hn : n ≤ MAX_INDEX + 1) (hc : Covers n values cb) :
    ∃ r v', cb.vsids.popDecisionVar values = .ok (r, v') ∧
      CbInv env n { cb with vsids := v' } ∧
      PopPost values cb.vsids.activity r v'.activity ∧
      (r = none → ∀ l : Lit, l.index < n → values.val l ≠ none) ∧
      (∀ x, r = some x → x < n ∧ (∀ b, values.val (litOf x b) = none) ∧
        ∀ l : Lit, l.index < n → values.val l = none → l.index ≠ x →
          l.index ∈ v'.activity.heap) := by
  obtain ⟨r, h', e, pp⟩ := popLoop_spec hw hlen hn (cb.vsids.activity.heap.length + 1) h.wf h.len
    (by omega)
  have key : ∀ l : Lit, l.index < n → values.val l = none →
      l.index ∈ cb.vsids.activity.heap ∧ values.val (litOf l.index true) = none := by
    intro l hl hv
    refine ⟨hc l hl hv, ?_⟩
    exact (val_index hw (litOf_index (by omega) true)).2 hv
  refine ⟨r, { cb.vsids with activity := h' }, ?_, ?_, pp, ?_, ?_⟩
  · unfold Vsids.popDecisionVar
    rw [e]; rfl
  · refine ⟨pp.wf, ?_, h.phases, fun hm => pp.ord (h.ord hm)⟩
    simp only [pp.vals]; exact h.len
  · intro hr l hl hv
    obtain ⟨k1, k2⟩ := key l hl hv
    rcases pp.lost _ k1 k2 with k | k
    · rw [pp.empty hr] at k; simp at k
    · rw [hr] at k; simp at k
  · intro x hx
    obtain ⟨k1, k2⟩ := pp.res x hx
    have hxn : x < n := by rw [← h.len]; exact h.wf.lt k1
    refine ⟨hxn, ?_, ?_⟩
    · intro b
      exact (val_index hw (by rw [litOf_index (by omega), litOf_index (by omega)])).1 k2
    · intro l hl hv hne
      obtain ⟨k1, k2⟩ := key l hl hv
      rcases pp.lost _ k1 k2 with k | k
      · exact k
      · rw [hx] at k; injection k with k; exact absurd k.symm hne

end Starlit
