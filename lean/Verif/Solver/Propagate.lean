import Verif.Solver.PropLong

/-!
# `propagate` preserves the invariants
-/

namespace Starlit

theorem SatC.ext {n : Nat} {p q : PropState} (h : Ext n p q) {e : LC} (hs : SatC p e) : SatC q e := by
  obtain ⟨t, h1, h2⟩ := hs
  exact ⟨t, h.mem h1, h2⟩

/-- The loop over a watch list. -/
theorem propagateLongLoop_spec {n : Nat} {watched : Lit} (ws : List Watch) :
    ∀ {S : List LC} {kept : List Watch} {p : PropState},
    PInv n S (p.virt watched (kept ++ ws)) →
    p.watches.byLit[watched.code]? = some [] →
    (∃ m, p.trail.steps[p.trail.propagated]? = some m ∧ m.lit = watched.neg) →
    (∀ w ∈ kept, ∀ e ∈ S, e.ref = w.clause → e.live → SatC p e) →
    Wp (propagateLongLoop watched ws kept p) (fun (p', kept', r) =>
      Ext n p p' ∧ p'.watches.byLit[watched.code]? = some [] ∧ ∃ S', SSim S S' ∧
      PInv n S' (p'.virt watched kept') ∧
      (r = none → ∀ w ∈ kept', ∀ e ∈ S', e.ref = w.clause → e.live → SatC p' e) ∧
      (∀ c, r = some c → ConflictOK S' p' c)) := by
  induction ws with
  | nil =>
    intro S kept p h hempty hm hk
    simp only [propagateLongLoop, wp_pure]
    rw [List.append_nil] at h
    exact ⟨.refl n p, hempty, S, .refl S, h, fun _ => hk, by simp⟩
  | cons w ws ih =>
    intro S kept p h hempty hm hk
    simp only [propagateLongLoop, wp_bind]
    refine (visitWatch_spec h hempty hm).mono ?_
    rintro ⟨p', r⟩ ⟨hext, hempty', S', hsim, hr⟩
    have hm' : ∃ m, p'.trail.steps[p'.trail.propagated]? = some m ∧ m.lit = watched.neg := by
      obtain ⟨m, h1, h2⟩ := hm
      exact ⟨m, by rw [hext.prop]; exact hext.get h1, h2⟩
    have hk' : ∀ w ∈ kept, ∀ e ∈ S', e.ref = w.clause → e.live → SatC p' e := by
      intro w hw e' he' hr' hl
      obtain ⟨e, he, hs⟩ := hsim.mem he'
      obtain ⟨t, t1, t2⟩ := hk w hw e he (hs.ref.symm.trans hr') (by rw [← hs.live]; exact hl)
      exact ⟨t, hext.mem t1, hs.lits.mem_iff.2 t2⟩
    have fin : ∀ {S'' : List LC} {p'' : PropState} {kept'' : List Watch}
        {r : Option ConflictClause}, (Ext n p' p'' ∧ p''.watches.byLit[watched.code]? = some [] ∧
        ∃ S'', SSim S' S'' ∧ PInv n S'' (p''.virt watched kept'') ∧
        (r = none → ∀ w ∈ kept'', ∀ e ∈ S'', e.ref = w.clause → e.live → SatC p'' e) ∧
        (∀ c, r = some c → ConflictOK S'' p'' c)) →
        (Ext n p p'' ∧ p''.watches.byLit[watched.code]? = some [] ∧ ∃ S'', SSim S S'' ∧
        PInv n S'' (p''.virt watched kept'') ∧
        (r = none → ∀ w ∈ kept'', ∀ e ∈ S'', e.ref = w.clause → e.live → SatC p'' e) ∧
        (∀ c, r = some c → ConflictOK S'' p'' c)) := by
      rintro _ p'' kept'' r ⟨i1, i2, S'', i3, i4⟩
      exact ⟨hext.trans i1, i2, S'', hsim.trans i3, i4⟩
    cases r with
    | keep w' =>
      obtain ⟨hc, hp, hsat⟩ := hr
      refine (ih (S := S') (kept := kept ++ [w']) (by simpa using hp) hempty' hm' ?_).mono ?_
      · intro x hx
        rcases List.mem_append.1 hx with hx | hx
        · exact hk' x hx
        · simp only [List.mem_singleton] at hx
          subst hx
          intro e he hr hl
          exact hsat e he (hr.trans hc) hl
      · rintro ⟨p'', kept'', r⟩ hh
        exact fin (S'' := S') hh
    | remove =>
      refine (ih (S := S') (kept := kept) hr hempty' hm' hk').mono ?_
      rintro ⟨p'', kept'', r⟩ hh
      exact fin (S'' := S') hh
    | conflict w' =>
      simp only [wp_pure]
      refine ⟨hext, hempty', S', hsim, hr.1, by simp, ?_⟩
      intro c hc
      injection hc with hc
      subst hc
      exact hr.2

theorem ConflictOK.of_eq {S : List LC} {p q : PropState} (hb : q.binary = p.binary)
    (ht : q.trail = p.trail) {c : ConflictClause} (h : ConflictOK S p c) : ConflictOK S q c := by
  unfold ConflictOK at *
  rw [hb, ht]; exact h

/-- Result of propagating one literal: the literal at `propagated` is processed or there is a
conflict. -/
def LitPost (n : Nat) (S : List LC) (p : PropState) : PropState × Option ConflictClause → Prop :=
  fun (p', r) => Ext n p p' ∧ ∃ S', SSim S S' ∧ PInv n S' p' ∧
    (r = none → WatchSat S' p'.trail.steps (p.trail.propagated + 1)) ∧
    (∀ c, r = some c → ConflictOK S' p' c)

theorem propagateLong_spec {n : Nat} {S : List LC} {p : PropState} {m : Step} (h : PInv n S p)
    (hm : p.trail.steps[p.trail.propagated]? = some m) :
    Wp (propagateLong p m.lit) (LitPost n S p) := by
  have hmm : m ∈ p.trail.steps := List.mem_iff_getElem?.2 ⟨_, hm⟩
  have hmn : m.lit.neg.code < p.watches.byLit.length := by
    rw [h.sized.wat]
    apply Lit.code_lt_of_index_lt
    simpa using h.trail.idx_lt m hmm
  have hg := List.getElem?_eq_getElem hmn
  generalize p.watches.byLit[m.lit.neg.code] = ws at hg
  simp only [propagateLong, debugM_ok h.enabled, idx_ok hg, bind_ok, upd_ok hmn, wp_bind]
  have hvirt : ({ p with watches := { p.watches with
      byLit := p.watches.byLit.set m.lit.neg.code [] } } : PropState).virt m.lit.neg ([] ++ ws) = p := by
    have : (p.watches.byLit.set m.lit.neg.code []).set m.lit.neg.code ws = p.watches.byLit := by
      rw [List.set_set]
      apply List.ext_getElem?
      intro i
      by_cases hi : m.lit.neg.code = i
      · subst hi; rw [List.getElem?_set_self hmn, hg]
      · rw [List.getElem?_set_ne hi]
    simp only [PropState.virt, List.nil_append, this]
  refine (propagateLongLoop_spec (n := n) (S := S) (watched := m.lit.neg) (kept := []) ws
    (p := { p with watches := { p.watches with
      byLit := p.watches.byLit.set m.lit.neg.code [] } })
    (by rw [hvirt]; exact h) (by simp only; rw [List.getElem?_set_self hmn]) ⟨m, hm, by simp⟩
    (by simp)).mono ?_
  rintro ⟨p', kept, r⟩ ⟨hext, hempty, S', hsim, hp', hsat, hconf⟩
  have hcw : m.lit.neg.code < p'.watches.byLit.length := (List.getElem?_eq_some_iff.1 hempty).1
  simp only [wp_debugM, wp_idx, wp_upd, wp_pure]
  refine ⟨hp'.enabled, [], hempty, rfl, hcw, ?_⟩
  have hext' : Ext n p (p'.virt m.lit.neg kept) :=
    ⟨hext.steps, hext.decisions, hext.prop, hext.binary, hext.unsat, hext.free⟩
  refine ⟨hext', S', hsim, hp', ?_, ?_⟩
  · intro hr e he hl w hw i s hi hs hsw
    by_cases hip : i < p.trail.propagated
    · refine hp'.wsat e he hl w hw i s ?_ hs hsw
      show i < p'.trail.propagated
      rw [hext.prop]; exact hip
    · have hip : i = p.trail.propagated := by omega
      subst hip
      have hs' := hext'.get hm
      have hs'' : p'.trail.steps[p.trail.propagated]? = some m := hs'
      have hs3 : p'.trail.steps[p.trail.propagated]? = some s := hs
      rw [hs''] at hs3
      injection hs3 with hs3
      subst hs3
      have hB : (p'.virt m.lit.neg kept).watches.byLit[m.lit.neg.code]? = some kept := by
        simp only [PropState.virt]; rw [List.getElem?_set_self hcw]
      have hcount := hp'.ws.count _ _ hB e he hl
      have hwl : w = m.lit.neg := by rw [hsw]; simp
      have hpos : 0 < (e.lits.take 2).count m.lit.neg := List.count_pos_iff.2 (by rw [← hwl]; exact hw)
      rw [← hcount] at hpos
      obtain ⟨x, hx, hxc⟩ := List.countP_pos_iff.1 hpos
      obtain ⟨t, t1, t2⟩ := hsat hr x hx e he (by simpa using Eq.symm (by simpa using hxc)) hl
      refine ⟨t, t1, t2, ?_⟩
      obtain ⟨j, hj⟩ := List.mem_iff_getElem?.1 t1
      have h1 := hp'.trail.level_le j t hj
      have h2 := h.trail.prop_level _ m (Nat.le_refl _) hm
      have h3 : (p'.virt m.lit.neg kept).trail.decisionLevel = p.trail.decisionLevel := hext'.level
      omega
  · intro c hc
    exact (hconf c hc).of_eq (q := p'.virt m.lit.neg kept) rfl rfl

theorem propagateLiteral_spec {n : Nat} {S : List LC} {p : PropState} {m : Step} (h : PInv n S p)
    (hm : p.trail.steps[p.trail.propagated]? = some m) :
    Wp (propagateLiteral p m.lit) (fun (p', r) => Ext n p p' ∧ ∃ S', SSim S S' ∧ PInv n S' p' ∧
    (r = none → WatchSat S' p'.trail.steps (p.trail.propagated + 1) ∧
      BinSat p'.binary p'.trail.steps (p.trail.propagated + 1)) ∧
    (∀ c, r = some c → ConflictOK S' p' c)) := by
  have hmm : m ∈ p.trail.steps := List.mem_iff_getElem?.2 ⟨_, hm⟩
  have hmn : m.lit.neg.code < p.binary.length := by
    rw [h.sized.bin]
    apply Lit.code_lt_of_index_lt
    simpa using h.trail.idx_lt m hmm
  have hg := List.getElem?_eq_getElem hmn
  generalize p.binary[m.lit.neg.code] = others at hg
  simp only [propagateLiteral, idx_ok hg, bind_ok, wp_bind]
  refine (propagateBinary_spec m.lit.neg others p h ⟨others, hg, fun b hb => hb⟩
    ⟨m, hm, by simp⟩).mono ?_
  rintro ⟨p1, r⟩ ⟨h1, hext, hw, hl, hsat, hconf⟩
  cases r with
  | some c =>
    simp only [wp_pure]
    exact ⟨hext, S, .refl S, h1, by simp, fun x hx => hconf x hx⟩
  | none =>
    simp only
    have hm1 : p1.trail.steps[p1.trail.propagated]? = some m := by
      rw [hext.prop]; exact hext.get hm
    refine (propagateLong_spec h1 hm1).mono ?_
    rintro ⟨p2, r⟩ ⟨hext2, S', hsim, h2, hws, hc⟩
    refine ⟨hext.trans hext2, S', hsim, h2, ?_, hc⟩
    intro hr
    refine ⟨by rw [← hext.prop]; exact hws hr, ?_⟩
    intro a bs ha b hb i s hi hs hsa
    by_cases hip : i < p.trail.propagated
    · refine h2.bsat a bs ha b hb i s ?_ hs hsa
      rw [hext2.prop, hext.prop]; exact hip
    · have hip : i = p.trail.propagated := by omega
      subst hip
      have hs' := hext2.get (hext.get hm)
      rw [hs'] at hs
      injection hs with hs
      subst hs
      have hae : a = m.lit.neg := by rw [hsa]; simp
      subst hae
      rw [hext2.binary, hext.binary, hg] at ha
      injection ha with ha
      subst ha
      obtain ⟨t, t1, t2⟩ := hsat rfl b hb
      have t1' := hext2.mem t1
      refine ⟨t, t1', t2, ?_⟩
      obtain ⟨j, hj⟩ := List.mem_iff_getElem?.1 t1'
      have h3 := h2.trail.level_le j t hj
      have h4 := h.trail.prop_level _ m (Nat.le_refl _) hm
      rw [hext2.level, hext.level] at h3
      omega

/-- `p'` is `p` with more literals assigned at the current level and more of them processed. -/
structure PExt (n : Nat) (p p' : PropState) : Prop where
  steps : ∃ new, p'.trail.steps = p.trail.steps ++ new ∧
    ∀ s ∈ new, s.level = p.trail.decisionLevel ∧ s.reason ≠ .unit ∧ s.reason ≠ .decision
  decisions : p'.trail.decisions = p.trail.decisions
  prop : p.trail.propagated ≤ p'.trail.propagated
  binary : p'.binary = p.binary
  unsat : p'.unsat = p.unsat
  free : p'.trail.steps.length + freeCount n p'.trail.steps =
    p.trail.steps.length + freeCount n p.trail.steps

theorem PExt.refl (n : Nat) (p : PropState) : PExt n p p :=
  ⟨⟨[], by simp⟩, rfl, Nat.le_refl _, rfl, rfl, rfl⟩

theorem PExt.level {n : Nat} {p q : PropState} (h : PExt n p q) :
    q.trail.decisionLevel = p.trail.decisionLevel := by
  unfold Trail.decisionLevel; rw [h.decisions]

theorem Ext.toPExt {n : Nat} {p q : PropState} (h : Ext n p q) : PExt n p q :=
  ⟨h.steps, h.decisions, Nat.le_of_eq h.prop.symm, h.binary, h.unsat, h.free⟩

theorem PExt.trans {n : Nat} {p q r : PropState} (h : PExt n p q) (h' : PExt n q r) :
    PExt n p r := by
  obtain ⟨a, a1, a2⟩ := h.steps
  obtain ⟨b, b1, b2⟩ := h'.steps
  refine ⟨⟨a ++ b, by rw [b1, a1, List.append_assoc], ?_⟩, h'.decisions.trans h.decisions,
    Nat.le_trans h.prop h'.prop, h'.binary.trans h.binary, h'.unsat.trans h.unsat,
    h'.free.trans h.free⟩
  intro s hs
  rcases List.mem_append.1 hs with hs | hs
  · exact a2 s hs
  · rw [← h.level]; exact b2 s hs

/-- What `propagate` returns. -/
def PropagatePost (n : Nat) (S : List LC) (p p' : PropState) (r : Option ConflictClause) : Prop :=
  PExt n p p' ∧ ∃ S', SSim S S' ∧ PInv n S' p' ∧
    (r = none → p'.trail.propagated = p'.trail.steps.length) ∧
    (∀ c, r = some c → ConflictOK S' p' c)

theorem propagateLoop_spec {n : Nat} (fuel : Nat) : ∀ {S : List LC} {p : PropState}, PInv n S p →
    p.trail.steps.length + freeCount n p.trail.steps < fuel + p.trail.propagated →
    Wp (propagateLoop fuel p) (fun (p', r) => PropagatePost n S p p' r) := by
  induction fuel with
  | zero =>
    intro S p h hf
    have := h.trail.prop_le
    omega
  | succ fuel ih =>
    intro S p h hf
    unfold propagateLoop
    cases hg : p.trail.steps[p.trail.propagated]? with
    | none =>
      simp only [wp_pure]
      refine ⟨.refl n p, S, .refl S, h, ?_, by simp⟩
      intro _
      have := h.trail.prop_le
      rw [List.getElem?_eq_none_iff] at hg
      omega
    | some m =>
      simp only [wp_bind]
      refine (propagateLiteral_spec h hg).mono ?_
      rintro ⟨p1, r⟩ ⟨hext, S', hsim, h1, hsat, hconf⟩
      cases r with
      | some c =>
        simp only [wp_pure]
        exact ⟨hext.toPExt, S', hsim, h1, by simp, hconf⟩
      | none =>
        simp only
        have hlen : p.trail.propagated < p.trail.steps.length :=
          (List.getElem?_eq_some_iff.1 hg).1
        have hlen1 : p1.trail.propagated < p1.trail.steps.length := by
          rw [hext.prop]; exact (List.getElem?_eq_some_iff.1 (hext.get hg)).1
        obtain ⟨hw, hb⟩ := hsat rfl
        rw [← hext.prop] at hw hb
        have h1' : PInv n S' { p1 with trail := { p1.trail with
            propagated := p1.trail.propagated + 1 } } :=
          ⟨⟨h1.sized.values, h1.sized.tix, h1.sized.bin, h1.sized.wat, h1.sized.n_le⟩,
            ⟨h1.trail.vwf, h1.trail.idx_lt, h1.trail.val_iff, h1.trail.tix, h1.trail.dec0,
              h1.trail.level_le, h1.trail.level, h1.trail.decs, hlen1,
              fun i s hi hs => h1.trail.prop_level i s (by simp only at hi; omega) hs⟩,
            h1.reasons, h1.rep, h1.long, h1.ws, h1.blk, hw, h1.bs, hb, h1.enabled, h1.small⟩
        have hpe : PExt n p { p1 with trail := { p1.trail with
            propagated := p1.trail.propagated + 1 } } :=
          ⟨hext.steps, hext.decisions, by simp only; rw [hext.prop]; omega, hext.binary, hext.unsat,
            hext.free⟩
        rw [debugM_ok (by simpa using hlen1), bind_ok]
        refine (ih h1' ?_).mono ?_
        · have := hext.free
          simp only
          rw [hext.prop]; omega
        · rintro ⟨p2, r⟩ ⟨i1, S'', i2, i3, i4⟩
          exact ⟨hpe.trans i1, S'', hsim.trans i2, i3, i4⟩

/-- `propagate` keeps the invariant; without a conflict everything is processed, a reported conflict
is a falsified clause. -/
theorem propagate_spec {n : Nat} {S : List LC} {p : PropState} (ctx : Ctx) (h : PInv n S p) :
    Wp (propagate ctx p) (fun (ctx', p', r) => PropagatePost n S p p' r ∧
      ctx'.proof = ctx.proof ∧ ctx'.search = ctx.search ∧ ctx'.formula = ctx.formula) := by
  have he : enableWatchLists p true = .ok p := by
    unfold enableWatchLists
    rw [if_pos h.enabled]; rfl
  simp only [propagate, he, bind_ok, wp_bind]
  refine (propagateLoop_spec _ h ?_).mono ?_
  · have := freeCount_le n p.trail.steps
    have := h.sized.tix
    omega
  · rintro ⟨p', r⟩ hp
    cases r with
    | some c => simp only [wp_pure]; exact ⟨hp, by trivial, by trivial, by trivial⟩
    | none =>
      simp only [wp_bind, wp_debugM, wp_pure]
      refine ⟨?_, hp, ?_⟩
      · have := hp.1.prop; simpa using this
      split <;> exact ⟨rfl, rfl, rfl⟩

end Starlit
