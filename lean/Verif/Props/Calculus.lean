import Verif.Cdcl
import Verif.Props.Closure
import Verif.Props.Counters
import Verif.Props.Termination
import Verif.Props.Debug

/-!
# C89: the solver's runs are runs of the CDCL calculus

`Verif/Cdcl.lean` has the calculus.  A state of the solver is read as a state of the calculus: the trail without levels
and reasons, and the clauses of the proof log that were added and not deleted.
-/

namespace Starlit

/-- A step of the trail as in the calculus. -/
def Step.mark (st : Step) : Lit × Bool := (st.lit, decide (st.reason = .decision))

/-- The trail as in the calculus. -/
def Trail.marked (t : Trail) : List (Lit × Bool) := t.steps.map Step.mark

/-- The state of the solver as in the calculus. -/
def Solver.cdcl (s : Solver) : Cdcl.State :=
  ⟨s.search.prop.trail.marked, match s.ctx.proof with
    | none => 0
    | some log => addedClauses log - deletedClauses log⟩

theorem holds_marked {steps : List Step} {l : Lit} :
    Cdcl.Holds (steps.map Step.mark) l ↔ ∃ st ∈ steps, st.lit = l := by
  constructor
  · rintro ⟨b, hb⟩
    obtain ⟨st, h1, h2⟩ := List.mem_map.1 hb
    exact ⟨st, h1, congrArg Prod.fst h2⟩
  · rintro ⟨st, h1, rfl⟩
    exact ⟨decide (st.reason = .decision), List.mem_map.2 ⟨st, h1, rfl⟩⟩

theorem marked_split {steps : List Step} {d : Nat} {st : Step} (h : steps[d]? = some st)
    (hr : st.reason = .decision) : steps.map Step.mark =
      (steps.take d).map Step.mark ++ (st.lit, true) :: (steps.drop (d + 1)).map Step.mark := by
  obtain ⟨hd, e⟩ := List.getElem?_eq_some_iff.1 h
  conv => lhs; rw [← List.take_append_drop d steps, List.drop_eq_getElem_cons hd, e]
  rw [List.map_append, List.map_cons]
  congr 2
  simp [Step.mark, hr]

section
variable {n : Nat} {S : List LC} {p : PropState} {t : Trail} {values : PartialAssignment}

theorem TrailInv.undef (h : TrailInv n values t) {l : Lit} (hv : values.val l = none) : Cdcl.Undef t.marked l := by
  unfold Cdcl.Undef Trail.marked
  rw [holds_marked, holds_marked, ← h.val_iff, ← h.val_iff, PartialAssignment.val_neg h.vwf, hv]
  simp

theorem TrailInv.mono_level (h : TrailInv n values t) {i j : Nat} {s s' : Step} (hi : t.steps[i]? = some s)
    (hj : t.steps[j]? = some s') (hij : i ≤ j) : s.level ≤ s'.level := by
  rcases Nat.eq_zero_or_pos s.level with h0 | h0
  · omega
  have h1 := h.level_le i s hi
  unfold Trail.decisionLevel at h1
  obtain ⟨d, hd⟩ : ∃ d, t.decisions[s.level]? = some d := ⟨_, List.getElem?_eq_getElem (by omega)⟩
  have h2 := (h.level i s hi s.level d h0 hd).1 (Nat.le_refl _)
  exact (h.level j s' hj s.level d h0 hd).2 (by omega)

theorem PInv.decision_at (h : PInv n S p) {i : Nat} {s : Step} (hi : p.trail.steps[i]? = some s)
    (hr : s.reason = .decision) : 1 ≤ s.level ∧ p.trail.decisions[s.level]? = some i := by
  have := h.reasons i s hi
  unfold ReasonOK at this
  rw [hr] at this
  exact this

theorem PInv.top_of_level (h : PInv n S p) (h0 : p.trail.decisionLevel = 0) : Cdcl.Top p.trail.marked := by
  intro x hx
  obtain ⟨st, h1, rfl⟩ := List.mem_map.1 hx
  refine decide_eq_false fun hr => ?_
  obtain ⟨i, hi⟩ := List.mem_iff_getElem?.1 h1
  have h2 := (h.decision_at hi hr).1
  have h3 := h.trail.level_le i st hi
  omega

/-- The part of the trail before the first decision. -/
theorem PInv.takeWhile_marked (h : PInv n S p) {target : Nat} (hd : p.trail.decisions[1]? = some target) :
    p.trail.marked.takeWhile (fun x => !x.2) = (p.trail.steps.take target).map Step.mark := by
  obtain ⟨st, h1, h2, _⟩ := h.trail.decs 1 target (Nat.le_refl _) hd
  unfold Trail.marked
  rw [marked_split h1 h2, List.takeWhile_append_of_pos, List.takeWhile_cons_of_neg (by simp), List.append_nil]
  intro x hx
  obtain ⟨s, h3, rfl⟩ := List.mem_map.1 hx
  obtain ⟨i, h4, h5⟩ := mem_take_iff.1 h3
  simp only [Step.mark, Bool.not_eq_true', decide_eq_false_iff_not]
  intro hr
  have h6 := (h.decision_at h5 hr).1
  have := (h.trail.level i s h5 1 target (Nat.le_refl _) hd).1 h6
  omega

theorem PInv.takeWhile_top (h : PInv n S p) (h0 : p.trail.decisionLevel = 0) :
    p.trail.marked.takeWhile (fun x => !x.2) = p.trail.marked := by
  have := List.takeWhile_append_of_pos (p := fun x : Lit × Bool => !x.2) (l₁ := p.trail.marked) (l₂ := []) (by
    intro x hx
    rw [h.top_of_level h0 x hx]; rfl)
  simpa using this

/-- Reasons are known clauses. -/
theorem PInv.justified {F L : DB} (h : PInv n S p) (d : DBInv F L S p.binary p.trail.steps p.unsat) :
    Cdcl.Justified (F + L) p.trail.marked := by
  intro M1 l M2 e
  have hlen : M1.length < p.trail.steps.length := by
    have := congrArg List.length e
    unfold Trail.marked at this
    simp at this
    omega
  obtain ⟨st, hst⟩ : ∃ st, p.trail.steps[M1.length]? = some st := ⟨_, List.getElem?_eq_getElem hlen⟩
  have hm : st.mark = (l, false) := by
    have := congrArg (fun x => x[M1.length]?) e
    unfold Trail.marked at this
    simp only [List.getElem?_map, hst, Option.map_some, List.getElem?_append_right (Nat.le_refl _),
      Nat.sub_self, List.getElem?_cons_zero, Option.some.injEq] at this
    exact this
  have hM1 : M1 = (p.trail.steps.take M1.length).map Step.mark := by
    have := congrArg (List.take M1.length) e
    unfold Trail.marked at this
    rw [List.take_append_of_le_length (Nat.le_refl _), List.take_length, ← List.map_take] at this
    exact this.symm
  have before : ∀ o, Before p.trail.steps M1.length o → Cdcl.Holds M1 o := by
    rintro o ⟨j, t, h1, h2, h3⟩
    rw [hM1, holds_marked]
    exact ⟨t, mem_take_iff.2 ⟨j, h1, h2⟩, h3⟩
  have hl : st.lit = l := congrArg Prod.fst hm
  have hr : st.reason ≠ .decision := by
    have := congrArg Prod.snd hm
    simpa [Step.mark] using this
  subst hl
  have hk := h.reasons M1.length st hst
  unfold ReasonOK at hk
  cases hx : st.reason with
  | decision => exact absurd hx hr
  | unit => exact ⟨0, d.unit st (List.mem_of_getElem? hst) hx, by intro o ho; simp at ho⟩
  | binary o =>
    rw [hx] at hk
    obtain ⟨⟨bs, h1, h2⟩, h3⟩ := hk
    refine ⟨{o}, d.bin _ _ _ h1 h2, ?_⟩
    intro o' ho
    rw [Multiset.mem_singleton.1 ho]
    exact before _ h3
  | long c =>
    rw [hx] at hk
    obtain ⟨e, h1, _, rest, h2, h3⟩ := hk
    refine ⟨(rest : Multiset Lit), ?_, fun o ho => before _ (h3 o (by simpa using ho))⟩
    have := d.mem h1 (LC.live_iff.2 (by rw [h2]; simp))
    unfold LC.cl at this
    rwa [h2] at this

/-- The clause learned from a conflict. -/
theorem Asserting.rule {F L : DB} {D : Multiset Lit} {C : List Lit} {lvl target : Nat} (h : PInv n S p)
    (A : Asserting (F + L) p.trail C lvl) (hd : p.trail.decisions[lvl + 1]? = some target) (hD : D ∈ F + L)
    (hf : Cdcl.Falsified p.trail.marked D) {a : Lit} {rest : List Lit} (hC : C = a :: rest) :
    Cdcl.Step F n ⟨p.trail.marked, L⟩ .learn
      ⟨(p.trail.steps.take target).map Step.mark ++ [(a, false)], (C : Multiset Lit) ::ₘ L⟩ := by
  have ht := h.trail
  have hlt := A.lt
  obtain ⟨k, u, rest', e, hu, hul, hr⟩ := A.head
  rw [e] at hC
  simp only [List.cons.injEq] at hC
  obtain ⟨rfl, rfl⟩ := hC
  obtain ⟨dl, hdl⟩ : ∃ d, p.trail.decisions[p.trail.decisionLevel]? = some d := by
    unfold Trail.decisionLevel at hlt ⊢
    exact ⟨_, List.getElem?_eq_getElem (by omega)⟩
  obtain ⟨sd, hsd, hsr, hsl⟩ := ht.decs _ dl (by omega) hdl
  obtain ⟨se, hse, hser, hsel⟩ := ht.decs _ target (by omega) hd
  have hget : ∀ st ∈ p.trail.steps.take dl, st ∈ p.trail.steps ∧ st.level < p.trail.decisionLevel := by
    intro st hst
    obtain ⟨i, h1, h2⟩ := mem_take_iff.1 hst
    refine ⟨List.mem_of_getElem? h2, ?_⟩
    by_contra hge
    have := (ht.level i st h2 _ dl (by omega) hdl).1 (by omega)
    omega
  have hmu := List.mem_of_getElem? hu
  have hrest : ∀ o ∈ rest', ∃ (i : Nat) (s : Step), p.trail.steps[i]? = some s ∧ s.lit = o.neg ∧ s.level ≤ lvl := by
    intro o ho
    obtain ⟨i, s, ⟨_, s', h1, h2, _⟩, hs, hle⟩ := hr o ho
    obtain rfl : s' = s := Option.some.inj (h1.symm.trans hs)
    exact ⟨i, s', hs, h2, hle⟩
  have hcut : ∀ (k d : Nat), lvl < k → p.trail.decisions[k]? = some d →
      Cdcl.Falsified ((p.trail.steps.take d).map Step.mark) (rest' : Multiset Lit) := by
    intro k d hk hd o ho
    obtain ⟨i, s, hs, e, hle⟩ := hrest o (by simpa using ho)
    rw [holds_marked]
    refine ⟨s, mem_take_iff.2 ⟨i, ?_, hs⟩, e⟩
    by_contra hge
    have := (ht.level i s hs k d (by omega) hd).2 (by omega)
    omega
  have hC : (C : Multiset Lit) = u.lit.neg ::ₘ (rest' : Multiset Lit) := by rw [e]; rfl
  rw [hC]
  refine .learn (M1 := (p.trail.steps.take target).map Step.mark) (A := (p.trail.steps.take dl).map Step.mark) hD hf
    (hC ▸ A.rup) ?_ (marked_split hsd hsr) ?_ ?_ ?_ (hcut _ dl hlt hdl) (marked_split hse hser)
    (hcut _ target (by omega) hd) ?_
  · rw [← hC]; exact A.nodup
  · intro x hx
    obtain ⟨st, h1, rfl⟩ := List.mem_map.1 hx
    refine decide_eq_false fun hr' => ?_
    obtain ⟨i, hi⟩ := List.mem_iff_getElem?.1 h1
    rw [List.getElem?_drop] at hi
    obtain ⟨h2, h3⟩ := h.decision_at hi hr'
    have h4 := ht.mono_level hsd hi (by omega)
    have h5 := ht.level_le _ _ hi
    rw [show st.level = p.trail.decisionLevel by omega, hdl] at h3
    simp at h3
    omega
  · constructor
    · rw [holds_marked]
      rintro ⟨st, h1, h2⟩
      obtain ⟨h3, h4⟩ := hget st h1
      exact ht.not_both h3 hmu h2
    · rw [holds_marked]
      rintro ⟨st, h1, h2⟩
      obtain ⟨h3, h4⟩ := hget st h1
      have := ht.level_congr h3 hmu (by rw [h2, Lit.neg_neg])
      omega
  · show Cdcl.Holds (p.trail.steps.map Step.mark) _
    rw [holds_marked]
    exact ⟨u, hmu, by rw [Lit.neg_neg]⟩
  · intro M3 f M4 eM hfal
    -- the decision `f`
    have hlen : M3.length < (p.trail.steps.take target).length := by
      have := congrArg List.length eM
      simp only [List.length_map, List.length_append, List.length_cons] at this
      omega
    obtain ⟨st, hst⟩ : ∃ st, (p.trail.steps.take target)[M3.length]? = some st := ⟨_, List.getElem?_eq_getElem hlen⟩
    have hm : st.mark = (f, true) := by
      have := congrArg (fun x => x[M3.length]?) eM
      simp only [List.getElem?_map, hst, Option.map_some, List.getElem?_append_right (Nat.le_refl _),
        Nat.sub_self, List.getElem?_cons_zero, Option.some.injEq] at this
      exact this
    obtain ⟨h1, h2⟩ := getElem?_take_some.1 hst
    obtain ⟨h3, h4⟩ := h.decision_at h2 (by simpa [Step.mark] using congrArg Prod.snd hm)
    have h5 : st.level ≤ lvl := by
      by_contra hge
      have := (ht.level _ st h2 (lvl + 1) target (by omega) hd).1 (by omega)
      omega
    have hM3 : M3 = (p.trail.steps.take M3.length).map Step.mark := by
      have := congrArg (List.take M3.length) eM
      rw [List.take_append_of_le_length (Nat.le_refl _), List.take_length, ← List.map_take, List.take_take,
        Nat.min_eq_left (Nat.le_of_lt h1)] at this
      exact this.symm
    match rest', e with
    | [], e =>
      have := A.single (by rw [e]; rfl)
      omega
    | o :: rest'', e =>
      obtain ⟨i, s, ⟨_, s', k1, k2, _⟩, hs, hle⟩ := A.second o (by rw [e]; rfl)
      obtain rfl : s' = s := Option.some.inj (k1.symm.trans hs)
      have hh := hfal o (by simp)
      rw [hM3, holds_marked] at hh
      obtain ⟨s2, h6, h7⟩ := hh
      obtain ⟨j, h8, h9⟩ := mem_take_iff.1 h6
      have h10 := ht.level_congr (List.mem_of_getElem? h9) (List.mem_of_getElem? hs) (by rw [h7, k2])
      have h11 := ht.level j s2 h9 st.level M3.length h3 h4
      omega

end

section
variable {env : Env} {F : List (List Lit)} {s s' : Solver} {p1 p : PropState} {ctx : Ctx}
  {r : Option ConflictClause} {log : List ProofStep}

theorem Solver.cdcl_eq (hl : s.ctx.proof = some log) :
    s.cdcl = ⟨s.search.prop.trail.marked, addedClauses log - deletedClauses log⟩ := by
  unfold Solver.cdcl
  rw [hl]

/-- Propagation only uses the rule for it. -/
theorem Solver.Propagating.rules (h : Solver.Propagating env F s p1 ctx p r) (hl : s.ctx.proof = some log)
    {A : Cdcl.State} {rs : List Cdcl.Rule} (hr : Cdcl.Run (toDB F) (formulaVars F) A rs s.cdcl) :
    ∃ k, Cdcl.Run (toDB F) (formulaVars F) A (rs ++ List.replicate k .propagate)
      ⟨p.trail.marked, addedClauses log - deletedClauses log⟩ := by
  obtain ⟨L, S, S2, hi, q⟩ := h.phase
  obtain ⟨L1, S1, hi1, d1, _⟩ := h.inv
  obtain ⟨hst, new, e, hn⟩ := C07_reasons h
  have hgc : p1.trail.marked = s.search.prop.trail.marked := by
    rcases (collectGarbage_spec hi.prop).ok_elim h.gc with rfl | ⟨ρ, hg⟩
    · rfl
    · obtain ⟨a, rfl⟩ := hg.eq
      unfold Trail.marked
      simp only [List.map_map]
      refine List.map_congr_left fun st _ => ?_
      obtain ⟨l, v, r⟩ := st
      cases r <;> rfl
  have hmem : ∀ c, Stored p c → c ∈ toDB F + (addedClauses log - deletedClauses log) := by
    intro c hc
    rw [learned_of_log hi hl]
    have d2 := q.db _ _ hi.db
    cases hc with
    | unit h1 h2 => exact d2.unit _ h1 h2
    | binary h1 h2 => exact d2.bin _ _ _ h1 h2
    | long h1 =>
      obtain ⟨e, he, hl, rfl, rfl, rfl⟩ := q.inv.rep.storedAt_iff.1 h1
      exact d2.mem he hl
  have key : ∀ k, k ≤ new.length → Cdcl.Run (toDB F) (formulaVars F) A (rs ++ List.replicate k .propagate)
      ⟨(p1.trail.steps ++ new.take k).map Step.mark, addedClauses log - deletedClauses log⟩ := by
    intro k
    induction k with
    | zero =>
      intro _
      rw [Solver.cdcl_eq hl, ← hgc] at hr
      simpa [Trail.marked] using hr
    | succ k ih =>
      intro hk
      have h1 := ih (by omega)
      have hs := List.getElem?_eq_getElem (show k < new.length by omega)
      obtain ⟨_, _, h2, h3, rest, _, h4, h5⟩ := hn k _ hs
      rw [List.replicate_succ', ← List.append_assoc]
      refine .snoc h1 ?_
      rw [List.take_add_one, hs, Option.toList_some, ← List.append_assoc, List.map_append (l₂ := [_])]
      have hm : [new[k]].map Step.mark = [(new[k].lit, false)] := by simp [Step.mark, h3]
      rw [hm]
      refine .propagate (hmem _ h4) ?_ ?_
      · intro o ho
        rw [holds_marked]
        exact h5 o (by simpa using ho)
      · constructor
        · rw [holds_marked]
          rintro ⟨t, k1, k2⟩
          exact h2 t k1 (by rw [k2])
        · rw [holds_marked]
          rintro ⟨t, k1, k2⟩
          exact h2 t k1 (by rw [k2, Lit.index_neg])
  refine ⟨new.length, ?_⟩
  have := key new.length (Nat.le_refl _)
  rwa [List.take_length, ← e] at this

/-- Propagation without a conflict is complete. -/
theorem Solver.Propagating.complete (h : Solver.Propagating env F s p1 ctx p none) (hl : s.ctx.proof = some log) :
    Cdcl.Complete (toDB F + (addedClauses log - deletedClauses log)) p.trail.marked := by
  obtain ⟨L, S, S2, hi, q⟩ := h.phase
  have ht := q.inv.trail
  have hv : ∀ {l : Lit} {b : Option Bool}, p.values.value l = .ok b → p.values.val l = b := by
    intro l b hv
    by_cases hlt : l.index < p.values.assigned.length
    · rw [PartialAssignment.value_eq hlt] at hv; exact Except.ok.inj hv
    · unfold PartialAssignment.value at hv
      obtain ⟨x, h1, _⟩ := bind_eq_ok.1 hv
      rw [idx_eq_ok] at h1
      exact absurd (List.getElem?_eq_some_iff.1 h1).1 hlt
  have hh : ∀ l, Cdcl.Holds p.trail.marked l ↔ p.values.val l = some true := by
    intro l
    unfold Trail.marked
    rw [holds_marked, ht.val_iff]
  have hneg : ∀ l, Cdcl.Holds p.trail.marked l → ¬ Cdcl.Holds p.trail.marked l.neg := by
    intro l h1 h2
    rw [hh] at h1 h2
    rw [PartialAssignment.val_neg ht.vwf, h1] at h2
    simp at h2
  have key : ∀ c ∈ toDB F + (addedClauses log - deletedClauses log), (∃ l ∈ c, Cdcl.Holds p.trail.marked l) ∨
      ∃ a b R, c = a ::ₘ b ::ₘ R ∧ ¬ Cdcl.Holds p.trail.marked a.neg ∧ ¬ Cdcl.Holds p.trail.marked b.neg := by
    intro c hc
    rcases h.checker hl hc with hs | ⟨a, rfl, st, h1, rfl⟩
    · rcases C08_pair h hs with ⟨l, h1, h2⟩ | ⟨a, b, R, e, h1, h2⟩
      · exact .inl ⟨l, h1, (hh l).2 (hv h2)⟩
      · refine .inr ⟨a, b, R, e, ?_, ?_⟩
        · rw [hh, PartialAssignment.val_neg ht.vwf, hv h1]; simp
        · rw [hh, PartialAssignment.val_neg ht.vwf, hv h2]; simp
    · exact .inl ⟨st.lit, Multiset.mem_singleton_self _, holds_marked.2 ⟨st, h1, rfl⟩⟩
  constructor
  · intro C hC hf
    rcases key C hC with ⟨l, h1, h2⟩ | ⟨a, b, R, rfl, h1, h2⟩
    · exact hneg l h2 (hf l h1)
    · exact h1 (hf a (by simp))
  · intro l R hR hf
    rcases key _ hR with ⟨a, h1, h2⟩ | ⟨a, b, R', e, h1, h2⟩
    · rcases Multiset.mem_cons.1 h1 with rfl | h1
      · exact h2
      · exact absurd (hf a h1) (hneg a h2)
    · exfalso
      rcases Multiset.cons_eq_cons.1 e with ⟨_, h3⟩ | ⟨_, cs, h3, _⟩
      · exact h2 (hf b (by rw [h3]; simp))
      · exact h1 (hf a (by rw [h3]; simp))

/-- A conflict is a falsified clause. -/
theorem Solver.Propagating.falsified {c : ConflictClause} (h : Solver.Propagating env F s p1 ctx p (some c))
    (hl : s.ctx.proof = some log) :
    ∃ D ∈ toDB F + (addedClauses log - deletedClauses log), Cdcl.Falsified p.trail.marked D := by
  obtain ⟨L, S, S2, hi, q⟩ := h.phase
  obtain ⟨ls, _, h2, h3, h4⟩ := q.inv.conflict (q.db _ _ hi.db) (q.conflict c rfl)
  refine ⟨ls, by rw [learned_of_log hi hl]; exact h4, fun o ho => ?_⟩
  exact holds_marked.2 (h2 o (by simpa using ho))

theorem addClauseVerbatim_refuted {ctx' : Ctx} {p p' : PropState} {hd : LongHeader} {ls : List Lit} {x : AddedClause}
    {n : Nat} {S : List LC} (hp : PInv n S p) (hi : ∀ l ∈ ls, l.index < n)
    (e : addClauseVerbatim ctx p hd ls = .ok (ctx', p', x)) (hu : p'.unsat = true) :
    p.unsat = true ∨ Cdcl.Falsified p.trail.marked (ls : Multiset Lit) := by
  match ls with
  | [] => exact .inr (by intro o ho; simp at ho)
  | [a] =>
    simp only [addClauseVerbatim] at e
    rw [hp.isFalse (hi a (by simp)), bind_ok] at e
    by_cases hv : p.values.val a = some false
    · refine .inr fun o ho => ?_
      rw [Multiset.coe_singleton, Multiset.mem_singleton] at ho
      subst ho
      exact holds_marked.2 ((hp.trail.val_false_iff o).1 hv)
    · left
      rw [if_neg (by simpa using hv)] at e
      obtain ⟨p1, e1, e⟩ := bind_eq_ok.1 e
      cases e
      unfold PropState.assignUnit at e1
      split at e1
      · obtain ⟨_, _, e1⟩ := bind_eq_ok.1 e1
        obtain ⟨_, _, e1⟩ := bind_eq_ok.1 e1
        cases e1
        exact hu
      · cases e1
  | [a, b] =>
    simp only [addClauseVerbatim] at e
    obtain ⟨_, _, e⟩ := bind_eq_ok.1 e
    cases e
    exact .inl hu
  | a :: b :: c :: ls =>
    simp only [addClauseVerbatim] at e
    obtain ⟨x, _, e⟩ := bind_eq_ok.1 e
    match x with
    | none => cases e
    | some (long, r) =>
      simp only at e
      obtain ⟨_, _, e⟩ := bind_eq_ok.1 e
      cases e
      exact .inl hu

theorem ensureVars_unsat {m : Nat} (e : s.ensureVars m = .ok s') :
    s'.search.prop.unsat = s.search.prop.unsat := by
  unfold Solver.ensureVars at e
  split at e
  · unfold Solver.resize at e
    obtain ⟨a, _, e⟩ := bind_eq_ok.1 e
    cases e
    rfl
  · cases e; rfl

/-- If the formula is found unsatisfiable before the search, a clause of it is falsified by unit clauses. -/
theorem Solver.Input.falsified (h : Solver.Input env F s) (hu : s.search.prop.unsat = true) :
    ∃ D ∈ toDB F, Cdcl.Falsified s.search.prop.trail.marked D := by
  induction h with
  | new => cases hu
  | proof _ ih => exact ih hu
  | @add F s s' c h hc e ih =>
    obtain ⟨S, hi⟩ := h.inv
    obtain ⟨s1, e1, h1, _⟩ := ensureVars_spec hi (varCount_le hc)
    unfold Solver.addClause at e
    rw [e1, bind_ok] at e
    obtain ⟨⟨ctx, p, r⟩, e3, e⟩ := bind_eq_ok.1 e
    cases e
    simp only at hu ⊢
    have hgrow : ∀ x ∈ s1.search.prop.trail.marked, x ∈ p.trail.marked := by
      intro x hx
      obtain ⟨st, k1, rfl⟩ := List.mem_map.1 hx
      refine List.mem_map_of_mem ?_
      rcases (addClauseVerbatim_trail e3).2.2 with k | ⟨a, _, k⟩
      · rw [k]; exact k1
      · rw [k]; exact List.mem_append_left _ k1
    have hdb : ∀ D, D ∈ toDB (F ++ [c]) ↔ D ∈ toDB F ∨ D = (c : Multiset Lit) := by
      intro D
      unfold toDB
      simp only [List.map_append, List.map_cons, List.map_nil, Multiset.mem_coe, List.mem_append, List.mem_singleton]
    rcases addClauseVerbatim_refuted h1.prop (fun l hl => by have := varCount_lt hl; omega) e3 hu with k | k
    · rw [ensureVars_unsat e1] at k
      obtain ⟨D, hD, hf⟩ := ih k
      have hs : s1.search.prop.trail.marked = s.search.prop.trail.marked := by
        unfold Trail.marked; rw [ensureVars_steps e1]
      rw [← hs] at hf
      exact ⟨D, (hdb D).2 (.inl hD), fun o ho => (hf o ho).mono hgrow⟩
    · exact ⟨c, (hdb _).2 (.inr rfl), fun o ho => (k o ho).mono hgrow⟩

theorem Solver.Input.calculus (h : Solver.Input env F s) : Cdcl.Init (toDB F) s.cdcl := by
  obtain ⟨S, hi⟩ := h.inv
  refine ⟨?_, ?_, ?_⟩
  · intro x hx
    obtain ⟨st, h1, rfl⟩ := List.mem_map.1 hx
    have hr := hi.units st h1
    refine ⟨decide_eq_false (by rw [hr]; simp), ?_⟩
    have := hi.db.unit st h1 hr
    simpa [Step.mark] using this
  · intro l k1 k2
    obtain ⟨st, h1, h2⟩ := holds_marked.1 k1
    obtain ⟨st', h3, h4⟩ := holds_marked.1 k2
    exact hi.prop.trail.not_both h3 h1 (by rw [h4, h2])
  · unfold Solver.cdcl
    rcases hi.proof with e | e
    · rw [e]
    · rw [e]; rfl

/-- What a run of the calculus says about the counters of the solver. -/
structure Traced (F : List (List Lit)) (s : Solver) (rs : List Cdcl.Rule) : Prop where
  run : ∃ A, Cdcl.Init (toDB F) A ∧ Cdcl.Run (toDB F) (formulaVars F) A rs s.cdcl
  decisions : s.ctx.search.decisions = rs.count .decide
  restarts : s.ctx.search.restarts = rs.count .restart
  reductions : s.ctx.search.reductions = rs.count .forget
  conflicts : ∃ e ≤ 1, s.ctx.search.conflicts = rs.count .learn + e ∧ (s.search.prop.unsat = false → e = 0)

theorem Traced.restart {rs : List Cdcl.Rule} (h : Solver.Reachable env F s) (t : Traced F s rs)
    (hl : s.ctx.proof = some log) (e : s.maybeRestart = .ok s') : ∃ rs', Traced F s' rs' := by
  rcases C55_restart h e with ⟨_, rfl⟩ | ⟨h0, _, h2, h3, h4, h5, h6, h7, _⟩
  · exact ⟨rs, t⟩
  obtain ⟨L, S, hi⟩ := h.inv
  obtain ⟨s1, e1, _, hr⟩ := maybeRestart_spec hi
  cases e.symm.trans e1
  obtain ⟨A, a1, a2⟩ := t.run
  have hstep : Cdcl.Step (toDB F) (formulaVars F) s.cdcl .restart s'.cdcl := by
    rw [Solver.cdcl_eq hl, Solver.cdcl_eq (h6.trans hl)]
    have key : s'.search.prop.trail.marked = s.search.prop.trail.marked.takeWhile (fun x => !x.2) := by
      rcases hr with ⟨hr, _⟩ | ⟨_, hr, _⟩
      · omega
      · obtain ⟨ctx', t, e2, _, _, _, _, hb⟩ := restart_spec hi
        cases hr.symm.trans e2
        rcases hb with ⟨b1, b2⟩ | ⟨target, b1, b2⟩
        · rw [b2, hi.prop.takeWhile_top b1]
        · rw [b2.trail, hi.prop.takeWhile_marked b1]; rfl
    rw [key]
    exact .restart
  obtain ⟨x, x1, x2, x3⟩ := t.conflicts
  refine ⟨rs ++ [.restart], ⟨A, a1, .snoc a2 hstep⟩, ?_, ?_, ?_, x, x1, ?_, ?_⟩
  · rw [h4, t.decisions]; simp
  · rw [h2, t.restarts]; simp
  · rw [h5, t.reductions]; simp
  · rw [h3, x2]; simp
  · rw [h7]; exact x3

theorem Traced.reduce {rs : List Cdcl.Rule} (h : Solver.Reachable env F s) (t : Traced F s rs)
    (hl : s.ctx.proof = some log) (e : s.maybeReduce env = .ok s') : ∃ rs', Traced F s' rs' := by
  rcases C55_reduce h e with ⟨_, rfl⟩ | ⟨h0, h1, h2, h3, _, h5, h6, h7, h8⟩
  · exact ⟨rs, t⟩
  obtain ⟨L, S, hi⟩ := h.inv
  obtain ⟨s1, e1, _, hr⟩ := maybeReduce_spec hi
  cases e.symm.trans e1
  obtain ⟨new, hl', _⟩ := h8.2 log hl
  obtain ⟨A, a1, a2⟩ := t.run
  have hstep : Cdcl.Step (toDB F) (formulaVars F) s.cdcl .forget s'.cdcl := by
    rcases hr with ⟨hr, _⟩ | ⟨_, hr, _⟩
    · omega
    obtain ⟨ctx', t, L', D, S', e2, hi', hp, _⟩ := reduce_inv (env := env) hi
    cases hr.symm.trans e2
    rw [Solver.cdcl_eq hl, Solver.cdcl_eq hl', learned_of_log hi hl, learned_of_log hi' hl', h1]
    obtain ⟨K, rfl, hK⟩ := hp.del.split
    refine .forget hK ?_
    rw [← h1]
    exact hi'.prop.justified hi'.db
  obtain ⟨x, x1, x2, x3⟩ := t.conflicts
  refine ⟨rs ++ [.forget], ⟨A, a1, .snoc a2 hstep⟩, ?_, ?_, ?_, x, x1, ?_, ?_⟩
  · rw [h6, t.decisions]; simp
  · rw [h7, t.restarts]; simp
  · rw [h3, t.reductions]; simp
  · rw [h5, x2]; simp
  · rw [h2]; exact x3

theorem Solver.Propagating.decided {x : Nat} {v : Vsids} {l : Lit} (hp : Solver.Propagating env F s p1 ctx p none)
    (e1 : s.search.cb.vsids.popDecisionVar p.values = .ok (some x, v))
    (e2 : decidePhase s.search.cb.phases x = .ok l) :
    l.index < formulaVars F ∧ Cdcl.Undef p.trail.marked l := by
  obtain ⟨L, S, S2, hi, q⟩ := hp.phase
  obtain ⟨r, v', e', _, _, _, h2⟩ := popDecisionVar_spec hi.cb q.inv.trail.vwf q.inv.sized.values
    q.inv.sized.n_le (q.covers hi.prop hi.covers)
  rw [e1] at e'
  simp only [Except.ok.injEq, Prod.mk.injEq] at e'
  obtain ⟨rfl, rfl⟩ := e'
  obtain ⟨hx, hn, _⟩ := h2 x rfl
  have hmx : x ≤ MAX_INDEX := by have := q.inv.sized.n_le; omega
  unfold decidePhase at e2
  obtain ⟨b, _, e2⟩ := bind_eq_ok.1 e2
  simp only [pure_eq, Except.ok.injEq] at e2
  have e2 : litOf x b = l := e2
  subst e2
  exact ⟨by rw [litOf_index hmx]; exact hx, q.inv.trail.undef (hn b)⟩

theorem Traced.step {rs : List Cdcl.Rule} (h : Solver.Reachable env F s) (t : Traced F s rs)
    (hl : s.ctx.proof = some log) {search : Search} {b : Option Bool}
    (e : searchStep env s.ctx s.search = .ok (ctx, search, b)) :
    ∃ rs', Traced F { s with ctx := ctx, search := search } rs' := by
  obtain ⟨A, a1, a2⟩ := t.run
  obtain ⟨x, x1, x2, x3⟩ := t.conflicts
  cases searchStep_cases h e with
  | already => exact ⟨rs, t⟩
  | fail hp h0 =>
    obtain ⟨k, hk⟩ := hp.rules hl a2
    have hx := x3 hp.unsat
    subst hx
    refine ⟨rs ++ List.replicate k .propagate, ⟨A, a1, ?_⟩, ?_, ?_, ?_, 1, Nat.le_refl _, ?_, fun hu => by cases hu⟩
    · rw [Solver.cdcl_eq (log := log) (by simp [Ctx.conflict, hp.proof, hl])]
      exact hk
    · simp [Ctx.conflict, hp.search, t.decisions, List.count_replicate]
    · simp [Ctx.conflict, hp.search, t.restarts, List.count_replicate]
    · simp [Ctx.conflict, hp.search, t.reductions, List.count_replicate]
    · simp [Ctx.conflict, hp.search, x2, List.count_replicate]
  | @learn p1 p p' ctx1 ctx' c an cb hp h0 ea =>
    obtain ⟨k, hk⟩ := hp.rules hl a2
    have hx := x3 hp.unsat
    subst hx
    obtain ⟨D, hD, hf⟩ := hp.falsified hl
    obtain ⟨L, S, S2, hi, q⟩ := hp.phase
    obtain ⟨S', C, lvl, target, B⟩ := (analyzeConflict_spec (env := env) (ctx := ctx1.conflict) q.inv
      (q.db _ _ hi.db) hi.an hi.min hi.cb (q.conflict c rfl) h0).ok_elim ea
    obtain ⟨a, rest, rr, hC, hrr, ht, _⟩ := B.trail
    rw [learned_of_log hi hl] at hk hD
    have hrule := B.asserting.rule q.inv B.cutpos hD hf hC
    have hproof : ctx.proof = some (log ++ [.add C]) := by
      rw [B.proof]; simp [Ctx.logProof, Ctx.conflict, hp.proof, hl]
    have hr := h.step e
    obtain ⟨L3, S3, hi3⟩ := hr.inv
    refine ⟨(rs ++ List.replicate k .propagate) ++ [.learn], ⟨A, a1, .snoc hk ?_⟩, ?_, ?_, ?_, 0, by omega, ?_,
      fun _ => rfl⟩
    · rw [Solver.cdcl_eq (log := log ++ [.add C]) hproof]
      have hL : addedClauses (log ++ [.add C]) - deletedClauses (log ++ [.add C]) = (C : Multiset Lit) ::ₘ L := by
        have hacc : (addedClauses log) = L + deletedClauses log := by
          obtain ⟨log', hacc, hl', _⟩ := hi.proof
          rw [hl] at hl'
          simp only [reduceCtorEq, Option.some.injEq, false_or] at hl'
          subst hl'
          exact hacc.balance
        rw [addedClauses_append, deletedClauses_append, hacc]
        simp only [addedClauses, deletedClauses, add_zero]
        rw [show L + deletedClauses log + (C : Multiset Lit) ::ₘ 0 =
          ((C : Multiset Lit) ::ₘ L) + deletedClauses log by
            rw [Multiset.cons_zero, ← Multiset.singleton_add, add_comm, add_assoc]]
        exact Multiset.add_sub_cancel_right
      rw [hL]
      have hM : p'.trail.marked = (p.trail.steps.take target).map Step.mark ++ [(a, false)] := by
        unfold Trail.marked
        rw [ht]
        simp [Trail.push, Trail.cut, Step.mark, hrr]
      simp only
      rw [hM]
      exact hrule
    · simp [B.search, Ctx.conflict, hp.search, t.decisions, List.count_replicate]
    · simp [B.search, Ctx.conflict, hp.search, t.restarts, List.count_replicate]
    · simp [B.search, Ctx.conflict, hp.search, t.reductions, List.count_replicate]
    · simp [B.search, Ctx.conflict, hp.search, x2, List.count_replicate]
  | @decide p1 p p' ctx1 y v l hp e1 e2 e3 =>
    obtain ⟨k, hk⟩ := hp.rules hl a2
    have hx := x3 hp.unsat
    subst hx
    obtain ⟨L, S, S2, hi, q⟩ := hp.phase
    obtain ⟨d1, _, d2⟩ := assignDecision_trail q.inv.trail e3
    obtain ⟨k1, k2⟩ := hp.decided e1 e2
    refine ⟨(rs ++ List.replicate k .propagate) ++ [.decide], ⟨A, a1, .snoc hk ?_⟩, ?_, ?_, ?_, 0, by omega, ?_,
      fun _ => rfl⟩
    · rw [Solver.cdcl_eq (log := log) (by simp [Ctx.decision, hp.proof, hl])]
      have hM : p'.trail.marked = p.trail.marked ++ [(l, true)] := by
        unfold Trail.marked
        rw [d1]
        simp [Step.mark]
      simp only
      rw [hM]
      exact .decide (hp.complete hl) k1 k2
    · simp [Ctx.decision, hp.search, t.decisions, List.count_replicate]
    · simp [Ctx.decision, hp.search, t.restarts, List.count_replicate]
    · simp [Ctx.decision, hp.search, t.reductions, List.count_replicate]
    · simp [Ctx.decision, hp.search, x2, List.count_replicate]
  | sat hp e1 =>
    obtain ⟨k, hk⟩ := hp.rules hl a2
    have hx := x3 hp.unsat
    subst hx
    refine ⟨rs ++ List.replicate k .propagate, ⟨A, a1, ?_⟩, ?_, ?_, ?_, 0, by omega, ?_, fun _ => rfl⟩
    · rw [Solver.cdcl_eq (log := log) (by simp [hp.proof, hl])]
      exact hk
    · simp [hp.search, t.decisions, List.count_replicate]
    · simp [hp.search, t.restarts, List.count_replicate]
    · simp [hp.search, t.reductions, List.count_replicate]
    · simp [hp.search, x2, List.count_replicate]

/-- C89: every state of every run is reached by rules of the calculus from a first state.  The solver's counters are
the numbers of times that the rules were used; the conflict that ends the search is counted too. -/
theorem C89_run (h : Solver.Reachable env F s) (hl : s.ctx.proof = some log) : ∃ rs, Traced F s rs := by
  induction h generalizing log with
  | input h =>
    have hst := h.start
    refine ⟨[], ⟨_, h.calculus, .nil⟩, ?_, ?_, ?_, 0, by omega, ?_, fun _ => rfl⟩ <;> rw [hst.search] <;> rfl
  | @restart s s' h e ih =>
    obtain ⟨L, S, hi⟩ := h.inv
    have hl0 : s.ctx.proof = some log := by
      rcases C55_restart h e with ⟨_, rfl⟩ | ⟨_, _, _, _, _, _, h6, _⟩
      · exact hl
      · rw [← h6]; exact hl
    obtain ⟨rs, t⟩ := ih hl0
    exact t.restart h hl0 e
  | @reduce s s' h e ih =>
    cases hl0 : s.ctx.proof with
    | none =>
      rcases C55_reduce h e with ⟨_, rfl⟩ | ⟨_, _, _, _, _, _, _, _, h8⟩
      · rw [hl] at hl0; cases hl0
      · rw [h8.1 hl0] at hl; cases hl
    | some log0 =>
      obtain ⟨rs, t⟩ := ih hl0
      exact t.reduce h hl0 e
  | @step s ctx search b h e ih =>
    cases hl0 : s.ctx.proof with
    | none =>
      have : ctx.proof = none := by
        cases searchStep_cases h e with
        | already => exact hl0
        | fail hp => simp [Ctx.conflict, hp.proof, hl0]
        | learn hp h0 ea =>
          obtain ⟨_, _, _, _, _, _, A⟩ := hp.analyze h0 ea
          rw [A.proof]; simp [Ctx.logProof, Ctx.conflict, hp.proof, hl0]
        | decide hp => simp [Ctx.decision, hp.proof, hl0]
        | sat hp => rw [hp.proof, hl0]
      simp only at hl
      rw [this] at hl; cases hl
    | some log0 =>
      obtain ⟨rs, t⟩ := ih hl0
      exact t.step h hl0 e

/-- The last step of the search: with an answer the calculus has failed or succeeded. -/
theorem C89_step (h : Solver.Reachable env F s) (hu : s.search.prop.unsat = false) (hl : s.ctx.proof = some log)
    {search : Search} {b : Bool} (e : searchStep env s.ctx s.search = .ok (ctx, search, some b))
    (hs : s' = { s with ctx := ctx, search := search }) :
    (b = false → Cdcl.Fail (toDB F) s'.cdcl) ∧ (b = true → Cdcl.Success (toDB F) (formulaVars F) s'.cdcl) := by
  subst hs
  generalize hb : some b = b' at e
  cases searchStep_cases h e with
  | already hu' => rw [hu] at hu'; cases hu'
  | fail hp h0 =>
    cases hb
    refine ⟨fun _ => ?_, fun hb => by cases hb⟩
    obtain ⟨L, S, S2, hi, q⟩ := hp.phase
    rw [Solver.cdcl_eq (log := log) (by simp [Ctx.conflict, hp.proof, hl])]
    exact ⟨q.inv.top_of_level h0, hp.falsified hl⟩
  | learn => cases hb
  | decide => cases hb
  | @sat p1 p ctx1 v hp e1 =>
    cases hb
    refine ⟨(fun hb => by cases hb), fun _ => ?_⟩
    obtain ⟨L, S, S2, hi, q⟩ := hp.phase
    rw [Solver.cdcl_eq (log := log) (by simp [hp.proof, hl])]
    refine ⟨fun l hlt hun => ?_, (hp.complete hl).1⟩
    obtain ⟨r, v', e', _, _, h1, _⟩ := popDecisionVar_spec hi.cb q.inv.trail.vwf q.inv.sized.values
      q.inv.sized.n_le (q.covers hi.prop hi.covers)
    rw [e1] at e'
    simp only [Except.ok.injEq, Prod.mk.injEq] at e'
    obtain ⟨rfl, rfl⟩ := e'
    have := h1 rfl l hlt
    cases hv : p.values.val l with
    | none => exact this hv
    | some b =>
      cases b with
      | true => exact hun.1 (holds_marked.2 ((q.inv.trail.val_iff l).1 hv))
      | false => exact hun.2 (holds_marked.2 ((q.inv.trail.val_false_iff l).1 hv))

theorem solve_calculus : ∀ {k : Nat} {s s' : Solver} {log : List ProofStep} {b : Bool}, Solver.Reachable env F s →
    s.search.prop.unsat = false → s.ctx.proof = some log → s.solve env k = .ok (s', some b) →
    (b = false → Cdcl.Fail (toDB F) s'.cdcl) ∧ (b = true → Cdcl.Success (toDB F) (formulaVars F) s'.cdcl) := by
  intro k
  induction k with
  | zero =>
    intro s s' log b _ _ _ e
    simp only [Solver.solve, pure_eq, Except.ok.injEq, Prod.mk.injEq, reduceCtorEq, and_false] at e
  | succ k ih =>
    intro s s' log b h hu hl e
    simp only [Solver.solve] at e
    obtain ⟨⟨s1, r1⟩, e1, e⟩ := bind_eq_ok.1 e
    obtain ⟨s3, s2, ctx, search, e4, e2, e3, es⟩ := Solver.scheduleStep_eq e1
    have hr3 := h.restart e4
    have hr2 := hr3.reduce e2
    have k3 : s3.search.prop.unsat = false ∧ s3.ctx.proof = some log := by
      rcases C55_restart h e4 with ⟨_, rfl⟩ | ⟨_, _, _, _, _, _, h6, h7, _⟩
      · exact ⟨hu, hl⟩
      · exact ⟨h7.trans hu, h6.trans hl⟩
    have k2 : s2.search.prop.unsat = false ∧ ∃ log', s2.ctx.proof = some log' := by
      rcases C55_reduce hr3 e2 with ⟨_, rfl⟩ | ⟨_, _, h7, _, _, _, _, _, h8⟩
      · exact ⟨k3.1, log, k3.2⟩
      · obtain ⟨new, h9, _⟩ := h8.2 log k3.2
        exact ⟨h7.trans k3.1, _, h9⟩
    obtain ⟨hu2, log2, hl2⟩ := k2
    cases r1 with
    | some b1 =>
      simp only [pure_eq, Except.ok.injEq, Prod.mk.injEq, Option.some.injEq] at e
      obtain ⟨rfl, rfl⟩ := e
      exact C89_step hr2 hu2 hl2 e3 es
    | none =>
      have k1 : s1.search.prop.unsat = false ∧ ∃ log', s1.ctx.proof = some log' := by
        obtain ⟨_, _, _, _, _, _, hk⟩ := C55_step hr2 hu2 e3
        subst es
        cases hk with
        | @learned _ _ _ C h1 h2 h3 h4 => exact ⟨h3, log2 ++ [.add C], by simp only; rw [h2, hl2]; rfl⟩
        | decided h1 h2 h3 h4 h5 => exact ⟨h3, log2, by simp only; rw [h2, hl2]⟩
      obtain ⟨hu1, log1, hl1⟩ := k1
      exact ih (h.schedule e1) hu1 hl1 e

/-- C89: if `solve()` answers "unsatisfiable", a clause is falsified without decisions; if it answers "satisfiable", all
variables have values and no clause is falsified. -/
theorem C89_answer {k : Nat} {b : Bool} (h : Solver.Input env F s) (hl : s.ctx.proof = some log)
    (e : s.solve env k = .ok (s', some b)) :
    (b = false → Cdcl.Fail (toDB F) s'.cdcl) ∧ (b = true → Cdcl.Success (toDB F) (formulaVars F) s'.cdcl) := by
  cases hu : s.search.prop.unsat with
  | false => exact solve_calculus (.input h) hu hl e
  | true =>
    cases k with
    | zero => simp only [Solver.solve, pure_eq, Except.ok.injEq, Prod.mk.injEq, reduceCtorEq, and_false] at e
    | succ k =>
      simp only [Solver.solve] at e
      obtain ⟨⟨s1, r1⟩, e1, e⟩ := bind_eq_ok.1 e
      obtain ⟨s3, s2, ctx, search, e4, e2, e3, es⟩ := Solver.scheduleStep_eq e1
      have hr := Solver.Reachable.input h
      have hr3 := hr.restart e4
      obtain ⟨D, hD, hf⟩ := h.falsified hu
      obtain ⟨S, hi⟩ := h.inv
      have h0 : s.search.prop.trail.decisionLevel = 0 := by
        unfold Trail.decisionLevel; rw [hi.decisions]; rfl
      have k3 : s3.search.prop = s.search.prop := by
        obtain ⟨L, S, hi⟩ := hr.inv
        obtain ⟨s1, e1, _, hr⟩ := maybeRestart_spec hi
        cases e4.symm.trans e1
        rcases hr with ⟨_, rfl⟩ | ⟨_, hr, _⟩
        · rfl
        · obtain ⟨ctx', t, e2, _, _, _, _, hb⟩ := restart_spec hi
          cases hr.symm.trans e2
          rcases hb with ⟨_, b2⟩ | ⟨target, b1, _⟩
          · rw [b2]
          · unfold Trail.decisionLevel at h0
            have := (List.getElem?_eq_some_iff.1 b1).1
            omega
      have k2 : s2.search.prop.unsat = true ∧ s2.search.prop.trail = s.search.prop.trail := by
        rcases C55_reduce hr3 e2 with ⟨_, rfl⟩ | ⟨_, h1, h2, _⟩
        · rw [k3]; exact ⟨hu, rfl⟩
        · rw [h1, h2, k3]; exact ⟨hu, rfl⟩
      unfold searchStep at e3
      rw [if_pos k2.1] at e3
      cases e3
      simp only [pure_eq, Except.ok.injEq, Prod.mk.injEq, Option.some.injEq] at e
      obtain ⟨rfl, rfl⟩ := e
      refine ⟨fun _ => ?_, fun hb => by cases hb⟩
      subst es
      have hm : s2.cdcl.trail = s.search.prop.trail.marked := by
        show s2.search.prop.trail.marked = _
        rw [k2.2]
      show Cdcl.Fail (toDB F) s2.cdcl
      refine ⟨?_, D, Multiset.mem_add.2 (.inl hD), ?_⟩
      · rw [hm]; exact hi.prop.top_of_level h0
      · rw [hm]; exact hf

end

/-- C89: the calculus itself is sound, for every formula and every order of rules: if it fails the formula has no model,
if it succeeds the assigned literals are one. -/
theorem C89_calculus {N : DB} {n : Nat} {A B : Cdcl.State} {rs : List Cdcl.Rule} (h : Cdcl.Init N A)
    (e : Cdcl.Run N n A rs B) : (Cdcl.Fail N B → ∀ α, ¬ DBSat α N) ∧
    (Cdcl.Success N n B → (∀ C ∈ N, ∀ l ∈ C, l.index < n) →
      ∃ α, (∀ l, Cdcl.Holds B.trail l → LitSat α l) ∧ DBSat α N) :=
  ⟨e.unsat h, e.sat h⟩

/-- A case for C89: a run on a pigeonhole formula with 6 conflicts, the last one at the top level, 6 decisions, a
restart and a reduction. -/
theorem C89_example : ∃ s s', Solver.Input Example.env (Example.cnf (Example.php 4 3)) s ∧ s.ctx.proof = some [] ∧
    s.solve Example.env 100 = .ok (s', some false) ∧ s'.ctx.search = ⟨6, 6, 1, 1⟩ ∧ s'.ctx.proof ≠ none := by
  have h : (do
      let s ← Example.load (Example.php 4 3)
      let (s', r) ← s.solve Example.env 100
      pure (s.ctx.proof, r, s'.ctx.search, s'.ctx.proof.isSome) : M _) =
      .ok (some [], some false, ⟨6, 6, 1, 1⟩, true) := by decide +kernel
  obtain ⟨s, h1, h⟩ := bind_eq_ok.1 h
  obtain ⟨⟨s', r⟩, h2, h⟩ := bind_eq_ok.1 h
  simp only [pure_eq, Except.ok.injEq, Prod.mk.injEq] at h
  obtain ⟨h3, rfl, h4, h5⟩ := h
  have hi := Solver.Input.addClauses _ (.proof (.new (env := Example.env)))
    (Example.ok_valid (F := Example.php 4 3) (by decide +kernel)) h1
  refine ⟨s, s', by simpa using hi, h3, h2, h4, ?_⟩
  intro hn
  rw [hn] at h5
  cases h5

end Starlit
