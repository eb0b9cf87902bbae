import Verif.Solver.Solve

/-!
# Adding clauses between calls of `solve()`
-/

namespace Starlit

/-- Clauses that can be added in any state without harm: a unit clause only at the top level; a longer clause
only if it has, for each of its first two literals that is false and already propagated, a literal that is
true and was assigned at no higher level. -/
def SafeAdd (p : PropState) : List Lit → Prop
  | [] => True
  | [_] => p.trail.decisionLevel = 0
  | c => ∀ (i : Nat) (st : Step), i < p.trail.propagated → p.trail.steps[i]? = some st →
      ∀ w ∈ c.take 2, st.lit = w.neg → ∃ t ∈ p.trail.steps, t.lit ∈ c ∧ t.level ≤ st.level

section
variable {env : Env} {n m : Nat} {F L : DB} {S : List LC}

theorem Accepted.grow {log : List ProofStep} {c : Multiset Lit} (h : Accepted F log L) :
    Accepted (c ::ₘ F) log L := by
  induction h with
  | nil => exact .nil
  | add _ hr hv ih =>
    exact .add ih (UpConflict.mono (fun _ hx => mem_mono hx) (fun _ ha => .asm ha) hr) hv
  | delete _ hl ih => exact .delete ih hl

theorem ProofInv.grow {proof : Option (List ProofStep)} {u : Bool} {c : Multiset Lit}
    (h : ProofInv F L proof u) : ProofInv (c ::ₘ F) L proof u := by
  obtain ⟨log, h1, h2, h3⟩ := h
  refine ⟨log, h1.grow, h2, fun hu => ?_⟩
  obtain ⟨log0, L0, h4, h5, h6⟩ := h3 hu
  exact ⟨log0, L0, h4, h5.grow, h6.grow⟩

theorem ProofInv.refute {proof : Option (List ProofStep)} {u u' : Bool} {c : Multiset Lit}
    (h : ProofInv F L proof u) (hc : UpConflict (c ::ₘ F + L) (fun _ => False)) :
    ProofInv (c ::ₘ F) L proof u' := by
  obtain ⟨log, h1, h2, _⟩ := h
  exact ⟨log, h1.grow, h2, fun _ => ⟨log, L, List.prefix_refl _, h1.grow, hc⟩⟩

theorem SInv.ensureVars {s : Solver} (h : SInv env n F L S s.ctx s.search) (hm : m ≤ MAX_INDEX + 1) :
    ∃ s', s.ensureVars m = .ok s' ∧ SInv env (max n m) F L S s'.ctx s'.search ∧ s'.schedule = s.schedule ∧
      s'.ctx.search = s.ctx.search ∧ s'.ctx.proof = s.ctx.proof ∧ s'.search.analysis = s.search.analysis ∧
      s'.search.prop.trail.steps = s.search.prop.trail.steps ∧
      s'.search.prop.trail.decisions = s.search.prop.trail.decisions ∧
      s'.search.prop.trail.propagated = s.search.prop.trail.propagated ∧
      s'.search.prop.unsat = s.search.prop.unsat := by
  unfold Solver.ensureVars
  rw [h.stats.vars]
  by_cases hlt : n < m
  · rw [if_pos hlt, Nat.max_eq_right (by omega)]
    unfold Solver.resize
    obtain ⟨hp, e1, w1, v1, m1, o1⟩ := Heap.resizeEnqueued_ok h.cb.wf (n := m) 0 (by
      unfold MAX_INDEX at hm; omega)
    simp only
    rw [e1, bind_ok]
    refine ⟨_, rfl, ⟨h.prop.resize (by omega) hm, h.noprot, h.db.resize (by
      rw [h.prop.sized.bin]; omega), ⟨rfl, h.stats.binary, ?_, h.stats.irredundant, h.stats.redundant⟩,
      h.proof, h.an, h.min, ⟨w1, ?_, ?_, ?_⟩, ?_⟩, rfl,
      rfl, rfl, rfl, rfl, rfl, rfl, rfl⟩
    · simp only [PropState.resize]
      rw [resizeList_sum _ (by rw [h.prop.sized.bin]; omega)]
      exact h.stats.stored
    · rw [v1, Heap.resizeList_length]
    · simp only [Heap.resizeList_length]
    · intro hmono
      exact o1 (by rw [h.cb.len]; omega) (h.cb.ord hmono)
    · intro l hl hv
      rw [m1]
      refine ⟨hl, ?_⟩
      by_cases hln : l.index < n
      · right
        refine h.covers l hln ?_
        simp only [PropState.resize] at hv
        rwa [PartialAssignment.val_resize, if_pos hl] at hv
      · left; rw [h.cb.len]; omega
  · rw [if_neg hlt, Nat.max_eq_left (by omega)]
    exact ⟨s, rfl, h, rfl, rfl, rfl, rfl, rfl, rfl, rfl, rfl⟩

/-- Adding an input clause whose variables are known. -/
theorem SInv.addInput {s : Solver} (h : SInv env n F L S s.ctx s.search) {c : List Lit}
    (hc : ∀ l ∈ c, l.index < n) (hsafe : SafeAdd s.search.prop c) :
    Wp (addClauseVerbatim s.ctx s.search.prop .newInputClause c) (fun (ctx', p', _) =>
      ∃ S', SInv env n ((c : Multiset Lit) ::ₘ F) L S' ctx' { s.search with prop := p' } ∧
        ctx'.proof = s.ctx.proof ∧ ctx'.search = s.ctx.search ∧ ctx'.prop = s.ctx.prop) := by
  have hp := h.prop
  have nobin : ∀ x y : Lit, c.length ≠ 2 → (HasBin s.search.prop.binary x y ↔
      HasBin s.search.prop.binary x y ∨ (x ::ₘ {y} : Multiset Lit) = (c : Multiset Lit)) := by
    intro x y hcl
    refine ⟨.inl, ?_⟩
    rintro (e | e)
    · exact e
    · exfalso; apply hcl
      have := congrArg Multiset.card e
      simpa using this.symm
  match c, hc, nobin, hsafe with
  | [], hc, nobin, hsafe =>
    simp only [addClauseVerbatim, wp_pure]
    refine ⟨S, ⟨⟨⟨hp.sized.values, hp.sized.tix, hp.sized.bin, hp.sized.wat, hp.sized.n_le⟩, hp.trail, hp.reasons, hp.rep, hp.long, hp.ws, hp.blk, hp.wsat, hp.bs,
      hp.bsat, hp.enabled, hp.small⟩, h.noprot, ?_, ?_, ?_, h.an, h.min, h.cb, h.covers⟩, trivial, trivial, trivial⟩
    · exact h.db.input rfl (by simp) (fun x y => nobin x y (by simp)) (fun s hs => hs)
        (fun s hs => .inl hs) (fun _ => rfl) (fun _ _ => .inl rfl) (fun _ => rfl)
    · exact h.stats.input rfl rfl (by simp) (by simp) (by simp)
    · exact h.proof.refute ⟨0, by simp, by simp⟩
  | [a], hc, nobin, hsafe =>
    have hlev : s.search.prop.trail.decisionLevel = 0 := hsafe
    have ha := hc a (by simp)
    simp only [addClauseVerbatim]
    rw [hp.isFalse ha, bind_ok]
    by_cases hv : s.search.prop.values.val a = some false
    · rw [hv]
      simp only [beq_self_eq_true, if_true, wp_pure]
      refine ⟨S, ⟨⟨⟨hp.sized.values, hp.sized.tix, hp.sized.bin, hp.sized.wat, hp.sized.n_le⟩, hp.trail, hp.reasons, hp.rep, hp.long, hp.ws, hp.blk, hp.wsat, hp.bs,
        hp.bsat, hp.enabled, hp.small⟩, h.noprot, ?_, ?_, ?_, h.an, h.min, h.cb, h.covers⟩, trivial, trivial, trivial⟩
      · exact h.db.input rfl (by simp) (fun x y => nobin x y (by simp)) (fun s hs => hs)
          (fun s hs => .inl hs) (fun _ => rfl) (fun _ _ => .inl rfl) (fun _ => rfl)
      · exact h.stats.input rfl rfl (by simp) (by simp) (by simp)
      · refine h.proof.refute ?_
        obtain ⟨x, hx, e⟩ := (hp.trail.val_false_iff a).1 hv
        refine ⟨{a}, by simp, ?_⟩
        intro o ho
        rw [Multiset.mem_singleton.1 ho, ← e]
        have h0 : x.level = 0 := by
          obtain ⟨i, hi⟩ := List.mem_iff_getElem?.1 hx
          have := hp.trail.level_le i x hi
          omega
        exact (hp.implied0 h.db hx h0 _).mono (fun _ hx => mem_mono hx) (fun _ ha => .asm ha)
    · have hb : (s.search.prop.values.val a == some false) = false := by simpa using hv
      rw [hb]
      simp only [Bool.false_eq_true, if_false, wp_bind]
      rw [assignUnit_eq hp.sized (s := ⟨a, 0, .unit⟩) ha]
      by_cases hlen : s.search.prop.trail.steps.length < UNASSIGNED
      swap
      · rw [if_neg hlen]; simp
      rw [if_pos hlen, wp_ok]
      simp only [wp_pure]
      have hk := hp.trail.prop_le
      have hun : s.search.prop.values.val a = none ∨ (s.search.prop.trail.decisionLevel = 0 ∧
          s.search.prop.values.val a = some true) := by
        cases hx : s.search.prop.values.val a with
        | none => exact .inl rfl
        | some b =>
          cases b with
          | true => exact .inr ⟨hlev, rfl⟩
          | false => exact absurd hx hv
      have hpinv : PInv n S { s.search.prop with
          values := s.search.prop.values.push a
          trail := s.search.prop.trail.push ⟨a, 0, .unit⟩ } :=
        ⟨hp.sized.push ⟨a, 0, .unit⟩, hp.trail.push (s := ⟨a, 0, .unit⟩) hp.sized.values
          hp.sized.tix ha hlev.symm hun,
        hp.reasons.push rfl, hp.rep, hp.long, hp.ws, hp.blk, hp.wsat.snoc hk _, hp.bs,
        hp.bsat.snoc hk _, hp.enabled, by simp [Trail.push]; omega⟩
      refine ⟨S, ⟨hpinv, h.noprot, ?_, ?_, ?_, h.an, h.min, h.cb, ?_⟩, trivial, trivial, trivial⟩
      · refine h.db.input rfl (by simp) (fun x y => nobin x y (by simp)) ?_ ?_ (fun h => h) ?_ (by simp)
        · intro x hx; simp [Trail.push, hx]
        · intro x hx
          simp [Trail.push] at hx
          rcases hx with hx | rfl
          · exact .inl hx
          · exact .inr rfl
        · intro b hb
          right
          refine ⟨⟨a, 0, .unit⟩, by simp [Trail.push], ?_, rfl⟩
          simpa using hb
      · exact h.stats.input rfl rfl (by simp) (by simp) (by simp)
      · exact h.proof.grow
      · intro l hl hv
        refine h.covers l hl ?_
        cases hx : s.search.prop.values.val l with
        | none => rfl
        | some b =>
          exfalso
          simp only at hv
          have hnn : ∀ l, s.search.prop.values.val l = some true →
              ({ s.search.prop with
                values := s.search.prop.values.push a
                trail := s.search.prop.trail.push ⟨a, 0, .unit⟩ } : PropState).values.val l = some true := by
            intro l hl
            obtain ⟨x, hx, e⟩ := (hp.trail.val_iff l).1 hl
            exact (hpinv.trail.val_iff l).2 ⟨x, by simp [Trail.push, hx], e⟩
          cases b with
          | true => have := hnn l hx; simp only at this; rw [hv] at this; simp at this
          | false =>
            have h1 := hnn l.neg (by rw [PartialAssignment.val_neg hp.trail.vwf, hx]; rfl)
            simp only at h1
            rw [PartialAssignment.val_neg hpinv.trail.vwf, hv] at h1
            simp at h1
  | [a, b], hc, nobin, hsafe =>
    obtain ⟨bin', e2, b1, b2, b3⟩ := binaryAdd_spec hp.sized.bin hp.bs (hc a (by simp))
      (hc b (by simp))
    simp only [addClauseVerbatim]
    rw [e2, bind_ok]
    simp only [wp_pure]
    refine ⟨S, ⟨⟨⟨hp.sized.values, hp.sized.tix, b1, hp.sized.wat, hp.sized.n_le⟩, hp.trail,
      hp.reasons.mono (fun x y hxy => (b3 x y).2 (.inl hxy)) (fun e he => he), hp.rep, hp.long, hp.ws,
      hp.blk, hp.wsat, b2, ?_, hp.enabled, hp.small⟩, h.noprot, ?_, ?_, ?_, h.an, h.min,
      h.cb, h.covers⟩, trivial, trivial, trivial⟩
    · intro x bs hx y hy i st hi hst e
      rcases (b3 x y).1 ⟨bs, hx, hy⟩ with ⟨bs', h1, h2⟩ | h1
      · exact hp.bsat x bs' h1 y h2 i st hi hst e
      · have hxc : x ∈ [a, b] := by rcases h1 with ⟨rfl, rfl⟩ | ⟨rfl, rfl⟩ <;> simp
        obtain ⟨t, ht, hm, hl⟩ := hsafe i st hi hst x hxc e
        refine ⟨t, ht, ?_, hl⟩
        have hne : t.lit ≠ x := by
          rintro rfl
          have v1 := (hp.trail.val_iff t.lit).2 ⟨t, ht, rfl⟩
          have v2 := (hp.trail.val_false_iff t.lit).2 ⟨st, List.mem_iff_getElem?.2 ⟨i, hst⟩, e⟩
          rw [v1] at v2
          cases v2
        rcases h1 with ⟨rfl, rfl⟩ | ⟨rfl, rfl⟩ <;> simp at hm <;> rcases hm with hm | hm <;>
          first | exact hm | exact absurd hm hne
    · refine h.db.input rfl (by simp) ?_ (fun s hs => hs) (fun s hs => .inl hs) (fun h => h) ?_ (by simp)
      · intro x y; rw [b3, pair_eq]
      · intro x e
        have := congrArg Multiset.card e
        simp at this
    · exact h.stats.input rfl rfl (by simp) (by simpa using binaryAdd_sum e2) (by simp)
    · exact h.proof.grow
  | a :: b :: c :: rest, hc, nobin, hsafe =>
    simp only [addClauseVerbatim]
    have hw : LongHeader.newInputClause.WF := by unfold LongHeader.WF; decide +kernel
    have hr : LongHeader.newInputClause.redundant = false := by decide +kernel
    have hpr : LongHeader.newInputClause.prot = false := by decide +kernel
    rcases addLong_spec hp hw (by decide +kernel) hc with
      e2 | ⟨long', r, w', e2, e3, w1, w2, hrep, hws, hbk, hlong⟩
    · rw [e2]; simp
    rw [e2]
    simp only [bind_ok, e3, hr, Bool.false_eq_true, if_false, wp_pure]
    refine ⟨S ++ [⟨r, .newInputClause, a :: b :: c :: rest⟩],
      ⟨⟨⟨hp.sized.values, hp.sized.tix, hp.sized.bin, w2, hp.sized.n_le⟩, hp.trail,
      hp.reasons.mono (fun x y hxy => hxy) (fun e he => by simp [he]), hrep, hlong, hws,
      hbk, ?_, hp.bs, hp.bsat, w1, hp.small⟩, ?_, ?_, ?_, ?_, h.an, h.min,
      h.cb, h.covers⟩, trivial, trivial, trivial⟩
    · intro x hx hxl w hw i st hi hst e
      rcases List.mem_append.1 hx with hx | hx
      · exact hp.wsat x hx hxl w hw i st hi hst e
      · simp at hx
        subst hx
        exact hsafe i st hi hst w hw e
    · intro x hx
      rcases List.mem_append.1 hx with hx | hx
      · exact h.noprot x hx
      · simp at hx; subst hx; exact hpr
    · refine h.db.input ?_ ?_ (fun x y => nobin x y (by simp)) (fun s hs => hs) (fun s hs => .inl hs)
        (fun h => h) ?_ (by simp)
      · rw [liveRed_append _ _ (LC.live_iff.2 (by simp))]
        simp only [hr, Bool.false_eq_true, if_false]
      · rw [liveIrr_append _ _ (LC.live_iff.2 (by simp))]
        simp only [hr, Bool.false_eq_true, if_false]
        rw [if_pos (by simp)]
        rfl
      · intro x e
        have := congrArg Multiset.card e
        simp at this
    · exact h.stats.input rfl rfl (by simp) (by simp) (by simp)
    · exact h.proof.grow

theorem SafeAdd.congr {p p' : PropState} {c : List Lit} (h : SafeAdd p c)
    (h1 : p'.trail.steps = p.trail.steps) (h2 : p'.trail.decisions = p.trail.decisions)
    (h3 : p'.trail.propagated = p.trail.propagated) : SafeAdd p' c := by
  match c, h with
  | [], _ => trivial
  | [a], h =>
    simp only [SafeAdd, Trail.decisionLevel] at h ⊢
    rw [h2]; exact h
  | a :: b :: c, h =>
    simp only [SafeAdd] at h ⊢
    rw [h1, h3]; exact h

theorem SInv.addClause {s : Solver} (h : SInv env n F L S s.ctx s.search) {c : List Lit}
    (hc : ∀ l ∈ c, l.Valid) (hsafe : SafeAdd s.search.prop c) :
    Wp (s.addClause c) (fun s' => ∃ S', SInv env (max n (Solver.varCount c))
      ((c : Multiset Lit) ::ₘ F) L S' s'.ctx s'.search ∧ s'.schedule = s.schedule ∧
      s'.ctx.search = s.ctx.search ∧ s'.ctx.proof = s.ctx.proof) := by
  unfold Solver.addClause
  obtain ⟨s1, e1, h1, q1, q2, q3, _, p1, p2, p3, _⟩ := h.ensureVars (varCount_le hc)
  rw [e1, bind_ok, wp_bind]
  refine (h1.addInput (c := c) ?_ (hsafe.congr p1 p2 p3)).mono ?_
  · intro l hl; have := varCount_lt hl; omega
  · rintro ⟨ctx', p', _⟩ ⟨S', h2, r1, r2, r3⟩
    simp only [wp_pure]
    exact ⟨S', h2, q1, r2.trans q2, r1.trans q3⟩

/-- The last iteration of a call of `solve()` that answers. -/
theorem solve_last_inv : ∀ {k : Nat} {s s' : Solver} {b : Bool}, SolverInv env n F s →
    Solver.solve env k s = .ok (s', some b) →
      ∃ s2 ctx search, SolverInv env n F s2 ∧
        searchStep env s2.ctx s2.search = .ok (ctx, search, some b) ∧
        s' = { s2 with ctx := ctx, search := search }
  | 0, s, s', b, h, e => by
    simp only [Solver.solve, pure_eq, Except.ok.injEq, Prod.mk.injEq] at e
    simp at e
  | k + 1, s, s', b, h, e => by
    simp only [Solver.solve] at e
    obtain ⟨⟨s1, r1⟩, e1, e⟩ := bind_eq_ok.1 e
    cases r1 with
    | some b1 =>
      simp only [pure_eq, Except.ok.injEq, Prod.mk.injEq, Option.some.injEq] at e
      obtain ⟨rfl, rfl⟩ := e
      obtain ⟨s3, s2, ctx, search, e4, e2, e3, rfl⟩ := Solver.scheduleStep_eq e1
      obtain ⟨L, S, h⟩ := h
      obtain ⟨_, q1, h1, _⟩ := maybeRestart_spec h
      cases e4.symm.trans q1
      obtain ⟨_, q2, h2, _⟩ := maybeReduce_spec h1
      cases e2.symm.trans q2
      exact ⟨s2, ctx, search, h2, e3, rfl⟩
    | none => exact solve_last_inv ((scheduleStep_spec h).ok_elim e1) e

end

end Starlit
