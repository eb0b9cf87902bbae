import Verif.Props.ResolutionRun
import Verif.Props.FirstUip

/-!
# C93: learned clauses are resolvents

C84 gives a resolution derivation of a part of each learned clause.  Here the learned clause itself is derived: conflict
analysis and minimisation do nothing but resolution, so every class of clauses that is closed under resolution and has
the clauses of the formula has all learned clauses.
-/

namespace Starlit
open Resolution

/-- The clauses that are derived from the formula by resolution. -/
inductive Resolved (F : List (List Lit)) : Finset Lit → Prop where
  | clause {c : List Lit} : c ∈ F → Resolved F c.toFinset
  | resolvent {C D E : Finset Lit} : Resolved F C → Resolved F D → Resolvent C D E → Resolved F E

/-! ## One conflict -/

section
variable {n : Nat} {F L : DB} {S : List LC} {p : PropState}

/-- Changes of headers do not change the literals of a reason. -/
theorem OnlyHeaders.reasonPerm {S' : List LC} {p' : PropState} (hp : PInv n S p) (h : OnlyHeaders n S p S' p') {i : Nat}
    {s : Step} (hs : p.trail.steps[i]? = some s) {rs rs' : List Lit} (e : p.reasonLits s.reason = .ok rs)
    (e' : p'.reasonLits s.reason = .ok rs') : rs.Perm rs' := by
  have ht : p'.trail = p.trail := by obtain ⟨a, rfl⟩ := h.eq; rfl
  have hr1 := hp.reasons i s hs
  have hr2 := h.inv.reasons i s (ht ▸ hs)
  unfold ReasonOK at hr1 hr2
  cases hr : s.reason with
  | decision => rw [hr] at e e'; cases e; cases e'; exact .refl _
  | unit => rw [hr] at e e'; cases e; cases e'; exact .refl _
  | binary o => rw [hr] at e e'; cases e; cases e'; exact .refl _
  | long c =>
    rw [hr] at hr1 hr2 e e'
    obtain ⟨x, he, c1, rest, h1, h2⟩ := hr1
    obtain ⟨x', he', c1', rest', h1', h2'⟩ := hr2
    obtain ⟨x2, he2, hsim⟩ := h.sim.symm_mem he
    have k1 := hp.rep.lits_ok he
    have k2 := h.inv.rep.lits_ok he2
    have k3 := h.inv.rep.lits_ok he'
    rw [hsim.ref, c1, ← c1', k3] at k2
    have k4 : x'.lits = x2.lits := Except.ok.inj k2
    have hperm := hsim.lits
    rw [← k4, h1', h1] at hperm
    have hperm := (List.perm_cons _).1 hperm
    subst c1
    have e3 : p.reasonLits (.long x.ref) = .ok rest := by
      simp only [PropState.reasonLits]
      rw [k1, h1]; rfl
    have e4 : p'.reasonLits (.long x.ref) = .ok rest' := by
      simp only [PropState.reasonLits]
      rw [← c1', k3, h1']; rfl
    cases e.symm.trans e3
    cases e'.symm.trans e4
    exact hperm.symm

theorem OnlyHeaders.recorded {S' : List LC} {p' : PropState} (hp : PInv n S p) (h : OnlyHeaders n S p S' p')
    {A : Lit → Prop} {l : Lit} (hr : Recorded p' A l) : Recorded p A l := by
  have ht : p'.trail = p.trail := by obtain ⟨a, rfl⟩ := h.eq; rfl
  induction hr with
  | asm h => exact .asm h
  | top h1 h2 => exact .top (ht ▸ h1) h2
  | @step st rs h1 h2 h3 _ ih =>
    rw [ht] at h1
    obtain ⟨i, hi⟩ := List.mem_iff_getElem?.1 h1
    obtain ⟨rs', b1, _⟩ := hp.reason hi
    have := h.reasonPerm hp hi b1 h3
    exact .step h1 h2 b1 fun o ho => ih o (this.mem_iff.1 ho)

/-- What is recorded for a literal that is not assumed. -/
theorem Recorded.inv {A : Lit → Prop} {i : Nat} {st : Step} (h : PInv n S p) (hr : Recorded p A st.lit)
    (hs : p.trail.steps[i]? = some st) (ha : ¬ A st.lit) :
    st.reason ≠ .decision ∧ ∀ rs, p.reasonLits st.reason = .ok rs → ∀ o ∈ rs, Recorded p A o.neg := by
  by_cases h0 : st.level = 0
  · have hk := h.reasons i st hs
    unfold ReasonOK at hk
    refine ⟨fun hd => ?_, fun rs e o ho => ?_⟩
    · rw [hd] at hk
      simp only at hk
      omega
    · obtain ⟨rs', b1, b2, _⟩ := h.reason hs
      cases e.symm.trans b1
      obtain ⟨j, t, c1, c2, c3⟩ := b2 o ho
      have := h.trail.level_mono c2 hs (by omega)
      rw [← c3]
      exact .top (List.mem_of_getElem? c2) (by omega)
  · generalize hl : st.lit = l at hr ha
    cases hr with
    | asm h => exact absurd h ha
    | @top s2 h1 h2 =>
      have := h.trail.level_unique h1 (List.mem_of_getElem? hs) hl.symm
      omega
    | @step s2 rs h1 h2 h3 h4 =>
      obtain ⟨j, hj⟩ := List.mem_iff_getElem?.1 h1
      obtain ⟨_, rfl⟩ := h.pos_unique hs hj hl.symm h0
      refine ⟨h2, fun rs' e => ?_⟩
      cases e.symm.trans h3
      exact h4

/-- The involved variables follow from the negations of the minimised clause. -/
theorem FirstUip.recorded {conf : List Lit} {xs : List Nat} {c1 C : List Lit} {u : Nat} {su : Step} (h : PInv n S p)
    (hu : FirstUip p conf xs c1 u su) (hm : ∀ l ∈ c1, Recorded p (fun x => ∃ y ∈ C, x = y.neg) l.neg) : ∀ (i : Nat) (st : Step), p.trail.steps[i]? = some st →
    st.lit.index ∈ xs → Recorded p (fun x => ∃ y ∈ C, x = y.neg) st.lit := by
  intro i
  induction i using Nat.strong_induction_on with
  | _ i ih =>
    intro st hs hx
    by_cases hc : u < i ∧ st.level = p.trail.decisionLevel
    · obtain ⟨hlt, hlev⟩ := hc
      have hk := h.reasons i st hs
      unfold ReasonOK at hk
      have hd : st.reason ≠ .decision := by
        intro hd
        rw [hd] at hk
        simp only at hk
        have := (h.trail.level u su hu.step st.level i hk.1 hk.2).1 (by rw [hu.level, hlev])
        omega
      obtain ⟨rs, b1, b2, _⟩ := h.reason hs
      refine .step (List.mem_of_getElem? hs) hd b1 fun o ho => ?_
      obtain ⟨j, t, k1, k2, k3⟩ := b2 o ho
      rw [← k3]
      by_cases h0 : t.level = 0
      · exact .top (List.mem_of_getElem? k2) h0
      · refine ih j k1 t k2 (hu.involved.closed i st _ hlt hs hx ⟨st, rs, hs, b1, o, ho, ?_⟩
          ⟨t, List.mem_of_getElem? k2, rfl, h0⟩)
        rw [k3, Lit.index_neg]
    · have hin : st.lit.neg ∈ c1 := by
        rw [hu.clause]
        have hle := h.trail.level_le i st hs
        by_cases hlev : st.level = p.trail.decisionLevel
        · have := hu.sole i st hs hlev hx
          obtain rfl : i = u := by omega
          cases hs.symm.trans hu.step
          exact .inl rfl
        · exact .inr ⟨st, List.mem_of_getElem? hs, by rw [Lit.neg_neg], by omega, hx⟩
      have := hm _ hin
      rwa [Lit.neg_neg] at this

/-- The clause while the steps from position `m` on are resolved. -/
structure Resolving (p : PropState) (xs : List Nat) (C : List Lit) (u m : Nat) (D : Finset Lit) : Prop where
  low : ∀ o ∈ D, o ∉ C → ∃ (j : Nat) (t : Step), j < m ∧ p.trail.steps[j]? = some t ∧ t.lit = o.neg ∧
    Recorded p (fun x => ∃ y ∈ C, x = y.neg) t.lit
  src : ∀ (j : Nat) (st : Step), p.trail.steps[j]? = some st → st.level ≠ 0 → st.lit.index ∈ xs →
    j < m ∨ st.lit.neg ∈ C → st.lit.neg ∈ D ∨ ∃ (i : Nat) (si : Step), i < m ∧ u < i ∧ p.trail.steps[i]? = some si ∧
      si.lit.index ∈ xs ∧ InReason p i st.lit.index

theorem Resolving.down {Q : Finset Lit → Prop} {conf : List Lit} {xs : List Nat} {c1 C : List Lit} {u : Nat} {su : Step}
    (h : PInv n S p) (hQ : ∀ C D E, Q C → Q D → Resolvent C D E → Q E)
    (hR : ∀ (i : Nat) (st : Step) (rs : List Lit), p.trail.steps[i]? = some st → st.reason ≠ .decision →
      p.reasonLits st.reason = .ok rs → Q (st.lit :: rs).toFinset)
    (hu : FirstUip p conf xs c1 u su) (hC : ∀ l ∈ C, l ∈ c1) {m : Nat} {D : Finset Lit}
    (hD : Resolving p xs C u (m + 1) D) (hq : Q D) : ∃ E, Resolving p xs C u m E ∧ Q E := by
  have levelled : ∀ {i : Nat} {si : Step}, p.trail.steps[i]? = some si → si.lit.index ∈ xs → si.level ≠ 0 := by
    intro i si hs hx
    have hl := hu.involved.lifted _ hx
    obtain ⟨y, hy, hy1, hy2⟩ := hl
    obtain ⟨j, hj⟩ := List.mem_iff_getElem?.1 hy
    have := h.trail.lifted_unique (hu.involved.lifted _ hx) hs rfl hj hy1
    subst this
    cases hs.symm.trans hj
    exact hy2
  by_cases hst : ∃ st, p.trail.steps[m]? = some st ∧ st.lit.neg ∈ D ∧ st.lit.neg ∉ C
  · obtain ⟨st, hs, hmem, hn⟩ := hst
    have hrec : Recorded p (fun x => ∃ y ∈ C, x = y.neg) st.lit := by
      obtain ⟨j, t, _, _, k3, k4⟩ := hD.low _ hmem hn
      rwa [k3, Lit.neg_neg] at k4
    obtain ⟨hd, hrs⟩ := hrec.inv h hs (by
      rintro ⟨y, hy, e⟩
      exact hn (by rw [e, Lit.neg_neg]; exact hy))
    obtain ⟨rs, b1, b2, _⟩ := h.reason hs
    have hres : Resolvent D (st.lit :: rs).toFinset (D.erase st.lit.neg ∪ (st.lit :: rs).toFinset.erase st.lit) :=
      ⟨st.lit.neg, hmem, by simp, by rw [Lit.neg_neg]⟩
    refine ⟨_, ⟨?_, ?_⟩, hQ _ _ _ hq (hR m st rs hs hd b1) hres⟩
    · intro o ho hoC
      rcases Finset.mem_union.1 ho with ho | ho
      · obtain ⟨ho1, ho2⟩ := Finset.mem_erase.1 ho
        obtain ⟨j, t, k1, k2, k3, k4⟩ := hD.low o ho2 hoC
        refine ⟨j, t, ?_, k2, k3, k4⟩
        have : j ≠ m := by
          rintro rfl
          cases k2.symm.trans hs
          exact ho1 (by rw [k3, Lit.neg_neg])
        omega
      · obtain ⟨ho1, ho2⟩ := Finset.mem_erase.1 ho
        have ho3 : o ∈ rs := by
          simp only [List.toFinset_cons, Finset.mem_insert, List.mem_toFinset] at ho2
          exact ho2.resolve_left ho1
        obtain ⟨j, t, k1, k2, k3⟩ := b2 o ho3
        exact ⟨j, t, k1, k2, k3, by rw [k3]; exact hrs rs b1 o ho3⟩
    · intro j sj hj hj0 hjx hor
      rcases hD.src j sj hj hj0 hjx (hor.imp (fun h => by omega) id) with hm | ⟨i, si, k1, k2, k3, k4, k5⟩
      · left
        refine Finset.mem_union.2 (.inl (Finset.mem_erase.2 ⟨fun e => ?_, hm⟩))
        have e' : st.lit = sj.lit := by simpa using (congrArg Lit.neg e).symm
        obtain ⟨rfl, _⟩ := h.pos_unique hj hs e' hj0
        rcases hor with hor | hor
        · omega
        · exact hn (e ▸ hor)
      · by_cases him : i = m
        · subst him
          cases k3.symm.trans hs
          have hp := h.premise hj hj0 k5
          have hlt := h.premise_lt hp hj hj0
          obtain ⟨s1, s2, rs', a1, a2, a3, a4⟩ := hp
          cases a1.symm.trans hj
          cases a2.symm.trans hs
          cases a3.symm.trans b1
          left
          refine Finset.mem_union.2 (.inr (Finset.mem_erase.2 ⟨fun e => ?_, by simp [a4]⟩))
          have := h.trail.lifted_unique (hu.involved.lifted _ hjx) hj rfl hs
            (by rw [← e, Lit.index_neg])
          omega
        · exact .inr ⟨i, si, by omega, k2, k3, k4, k5⟩
  · refine ⟨D, ⟨?_, ?_⟩, hq⟩
    · intro o ho hoC
      obtain ⟨j, t, k1, k2, k3, k4⟩ := hD.low o ho hoC
      refine ⟨j, t, ?_, k2, k3, k4⟩
      have : j ≠ m := by
        rintro rfl
        have e : t.lit.neg = o := by rw [k3, Lit.neg_neg]
        exact hst ⟨t, k2, by rw [e]; exact ho, by rw [e]; exact hoC⟩
      omega
    · intro j sj hj hj0 hjx hor
      rcases hD.src j sj hj hj0 hjx (hor.imp (fun h => by omega) id) with hm | ⟨i, si, k1, k2, k3, k4, k5⟩
      · exact .inl hm
      · by_cases him : i = m
        · exfalso
          subst him
          have hi0 := levelled k3 k4
          refine hst ⟨si, k3, ?_, ?_⟩
          · rcases hD.src i si k3 hi0 k4 (.inl (by omega)) with hm | ⟨i', si', a1, a2, a3, a4, a5⟩
            · exact hm
            · have := h.premise_lt (h.premise k3 hi0 a5) k3 hi0
              omega
          · intro hin
            rcases (hu.clause _).1 (hC _ hin) with e | ⟨y, hy, e, hy2, _⟩
            · have e' : su.lit = si.lit := by simpa using (congrArg Lit.neg e).symm
              obtain ⟨rfl, _⟩ := h.pos_unique k3 hu.step e' hi0
              omega
            · obtain ⟨w, hw⟩ := List.mem_iff_getElem?.1 hy
              rw [Lit.neg_neg] at e
              obtain ⟨rfl, rfl⟩ := h.pos_unique k3 hw e hi0
              have := h.trail.level_mono hu.step k3 (by omega)
              have := hu.level
              omega
        · exact .inr ⟨i, si, by omega, k2, k3, k4, k5⟩

/-- The minimised clause is derived from the falsified clause and the reasons by resolution. -/
theorem FirstUip.resolved {Q : Finset Lit → Prop} {conf : List Lit} {xs : List Nat} {c1 C : List Lit} {u : Nat}
    {su : Step} (h : PInv n S p) (hQ : ∀ C D E, Q C → Q D → Resolvent C D E → Q E)
    (hR : ∀ (i : Nat) (st : Step) (rs : List Lit), p.trail.steps[i]? = some st → st.reason ≠ .decision →
      p.reasonLits st.reason = .ok rs → Q (st.lit :: rs).toFinset)
    (hu : FirstUip p conf xs c1 u su) (hC : ∀ l ∈ C, l ∈ c1)
    (hm : ∀ l ∈ c1, Recorded p (fun x => ∃ y ∈ C, x = y.neg) l.neg)
    (hf : ∀ l ∈ conf, ∃ y ∈ p.trail.steps, y.lit = l.neg) (hq : Q conf.toFinset) (hl : p.trail.decisionLevel ≠ 0) :
    Q C.toFinset := by
  have start : Resolving p xs C u p.trail.steps.length conf.toFinset := by
    constructor
    · intro o ho _
      obtain ⟨y, hy, e⟩ := hf o (by simpa using ho)
      obtain ⟨j, hj⟩ := List.mem_iff_getElem?.1 hy
      refine ⟨j, y, (List.getElem?_eq_some_iff.1 hj).1, hj, e, ?_⟩
      by_cases h0 : y.level = 0
      · exact .top hy h0
      · refine hu.recorded h hm j y hj ?_
        have := hu.involved.start o (by simpa using ho) ⟨y, hy, by rw [e, Lit.index_neg], h0⟩
        rwa [e, Lit.index_neg]
    · intro j st hj h0 hx _
      rcases hu.involved.src _ hx with ⟨l, hl, e⟩ | ⟨i, si, k1, k2, k3, k4⟩
      · left
        obtain ⟨y, hy, ey⟩ := hf l hl
        obtain ⟨w, hw⟩ := List.mem_iff_getElem?.1 hy
        have := h.trail.lifted_unique (hu.involved.lifted _ hx) hj rfl hw (by rw [ey, Lit.index_neg, e])
        subst this
        cases hj.symm.trans hw
        rw [ey, Lit.neg_neg]
        simpa using hl
      · exact .inr ⟨i, si, (List.getElem?_eq_some_iff.1 k2).1, by omega, k2, k3, k4⟩
  have all : ∀ m D, Resolving p xs C u m D → Q D → ∃ E, Resolving p xs C u 0 E ∧ Q E := by
    intro m
    induction m with
    | zero => exact fun D h1 h2 => ⟨D, h1, h2⟩
    | succ m ih =>
      intro D h1 h2
      obtain ⟨E, h3, h4⟩ := h1.down h hQ hR hu hC h2
      exact ih E h3 h4
  obtain ⟨E, h1, h2⟩ := all _ _ start hq
  suffices e : E = C.toFinset from e ▸ h2
  ext o
  rw [List.mem_toFinset]
  constructor
  · intro ho
    by_contra hoC
    obtain ⟨j, t, k1, _⟩ := h1.low o ho hoC
    omega
  · intro ho
    rcases (hu.clause o).1 (hC o ho) with rfl | ⟨y, hy, e, _, hx⟩
    · rcases h1.src u su hu.step (by rw [hu.level]; exact hl) hu.mem (.inr ho) with h | ⟨i, _, k, _⟩
      · exact h
      · omega
    · obtain ⟨w, hw⟩ := List.mem_iff_getElem?.1 hy
      have h0 : y.level ≠ 0 := by
        obtain ⟨z, hz, hz1, hz2⟩ := hu.involved.lifted _ hx
        obtain ⟨v, hv⟩ := List.mem_iff_getElem?.1 hz
        have := h.trail.lifted_unique (hu.involved.lifted _ hx) hw rfl hv hz1
        subst this
        cases hw.symm.trans hv
        exact hz2
      have eo : y.lit.neg = o := by rw [e, Lit.neg_neg]
      rcases h1.src w y hw h0 hx (.inr (by rw [eo]; exact ho)) with h | ⟨i, _, k, _⟩
      · rwa [eo] at h
      · omega

end

/-- The clause that conflict analysis learns is derived from known clauses by resolution. -/
theorem analyzeConflict_resolved {env : Env} {n : Nat} {F L : DB} {S : List LC} {ctx ctx' : Ctx} {p p' : PropState}
    {an an' : Analysis} {cb cb' : Callbacks} {c : ConflictClause} {Q : Finset Lit → Prop} (h : PInv n S p)
    (d : DBInv F L S p.binary p.trail.steps p.unsat) (ha : AnIdle an) (hm : MinIdle an.minimize)
    (hcb : CbInv env n cb) (hc : ConflictOK S p c) (hl : p.trail.decisionLevel ≠ 0)
    (e : Analysis.analyzeConflict env ctx an p c cb = .ok (ctx', an', p', cb'))
    (hQ : ∀ C D E, Q C → Q D → Resolvent C D E → Q E) (hK : ∀ K ∈ F + L, Q K.toFinset) :
    Q an'.derivedClause.toFinset := by
  obtain ⟨conf, ec, hf, _, hcdb⟩ := h.conflict d hc
  unfold Analysis.analyzeConflict at e
  obtain ⟨_, _, e⟩ := bind_eq_ok.1 e
  obtain ⟨⟨an1, p1, cb1⟩, e1, e⟩ := bind_eq_ok.1 e
  obtain ⟨⟨an2, level⟩, e2, e⟩ := bind_eq_ok.1 e
  obtain ⟨⟨p2, cb2⟩, e3, e⟩ := bind_eq_ok.1 e
  obtain ⟨⟨ctx3, an3, p3⟩, e4, e⟩ := bind_eq_ok.1 e
  cases e
  obtain ⟨conf', xs, ec', hd⟩ := derive1uip_bumps h d ha hcb hc hl e1
  cases ec.symm.trans ec'
  obtain ⟨_, _, _, S1, e0, o1, k1, c1, m1, hu⟩ := derive1uip_spec h d ha hcb hc hl
  rw [e1] at e0
  simp only [Except.ok.injEq, Prod.mk.injEq] at e0
  obtain ⟨rfl, rfl, rfl⟩ := e0
  have hp1 : p1.trail = p.trail ∧ p1.binary = p.binary ∧ p1.unsat = p.unsat := by
    obtain ⟨a, rfl⟩ := o1.eq; exact ⟨rfl, rfl, rfl⟩
  have hder := learnAndAssign_derived e4
  obtain ⟨m', c', lvl', e5, hm', has, hsub, hres⟩ := minimizeDerived_spec (F := F) (L := L) o1.inv
    (by rw [hp1.1, hp1.2.1, hp1.2.2]; exact d.sim o1.sim) (m1 ▸ hm) (hp1.1 ▸ hu) (hp1.1 ▸ hl)
  rw [e2] at e5
  simp only [Except.ok.injEq, Prod.mk.injEq] at e5
  obtain ⟨rfl, rfl⟩ := e5
  simp only at hder
  rw [hder]
  obtain ⟨u, su, hfu⟩ := hd.first
  have hfs : ∀ (l : List Lit), (l : Multiset Lit) ∈ F + L → Q l.toFinset := fun l hl => by
    have := hK _ hl
    rwa [List.toFinset_coe] at this
  refine hfu.resolved h hQ (fun i st rs h1 h2 h3 => ?_) hsub (fun l hl => o1.recorded h (hres.removed l hl)) hf
    (hfs _ hcdb) hl
  have := h.reason_db d h1 h2 h3
  rw [Multiset.cons_coe] at this
  exact hfs _ this

/-! ## Runs -/

section
variable {env : Env} {F : List (List Lit)} {s s' : Solver} {log : List ProofStep}

/-- All learned clauses are resolvents. -/
structure ResolvedInv (env : Env) (F : List (List Lit)) (L : DB) (S : List LC) (s : Solver) : Prop where
  inv : SInv env (formulaVars F) (toDB F) L S s.ctx s.search
  known : ∀ K ∈ L, Resolved F K.toFinset
  log : ∀ log, s.ctx.proof = some log → ∀ c, .add c ∈ log → Resolved F c.toFinset

theorem resolved_formula : ∀ K ∈ toDB F, Resolved F K.toFinset := by
  intro K hK
  unfold toDB at hK
  obtain ⟨d, hd, rfl⟩ := List.mem_map.1 (Multiset.mem_coe.1 hK)
  rw [List.toFinset_coe]
  exact .clause hd

theorem Solver.Reachable.resolvedInv (h : Solver.Reachable env F s) : ∃ L S, ResolvedInv env F L S s := by
  induction h with
  | @input s h =>
    obtain ⟨S, hi⟩ := h.inv
    refine ⟨0, S, hi.sinv, by simp, ?_⟩
    intro log e
    rcases hi.proof with e' | e'
    · rw [e'] at e; cases e
    · rw [e'] at e; cases e
      simp
  | @restart s s' hr e ih =>
    obtain ⟨L, S, h⟩ := ih
    obtain ⟨s1, e1, hi, hcase⟩ := maybeRestart_spec h.inv
    cases e.symm.trans e1
    rcases hcase with ⟨_, rfl⟩ | ⟨_, h2, _⟩
    · exact ⟨L, S, h⟩
    obtain ⟨ctx', t, e2, _, hc, _⟩ := restart_spec h.inv
    rw [h2] at e2
    simp only [Except.ok.injEq, Prod.mk.injEq] at e2
    exact ⟨L, S, hi, h.known, by rw [e2.1, hc]; exact h.log⟩
  | @reduce s s' hr e ih =>
    obtain ⟨L, S, h⟩ := ih
    obtain ⟨s1, e1, _, hcase⟩ := maybeReduce_spec h.inv
    cases e.symm.trans e1
    rcases hcase with ⟨_, rfl⟩ | ⟨_, h2, _⟩
    · exact ⟨L, S, h⟩
    have hd := reduce_deletes h2
    obtain ⟨ctx', t, L', D, S', e2, hi, q, _⟩ := reduce_inv h.inv
    rw [h2] at e2
    simp only [Except.ok.injEq, Prod.mk.injEq] at e2
    obtain ⟨K, hK, _⟩ := q.del.split
    refine ⟨L', S', by rw [e2.1, e2.2]; exact hi, fun c hc => h.known c ?_, ?_⟩
    · rw [hK]; exact Multiset.mem_add.2 (.inl hc)
    · intro log hl
      cases hp : s.ctx.proof with
      | none => rw [hd.1 hp] at hl; cases hl
      | some old =>
        obtain ⟨new, e1, e2⟩ := hd.2 old hp
        rw [e1] at hl
        cases hl
        intro c hc
        rcases List.mem_append.1 hc with hc | hc
        · exact h.log old hp c hc
        · exfalso
          obtain ⟨a, b, rfl⟩ := List.append_of_mem hc
          rw [additions_append] at e2
          simp [additions] at e2
  | @step s ctx search r hr e ih =>
    obtain ⟨L, S, h⟩ := ih
    obtain ⟨L', S', hi', post⟩ := (searchStep_spec h.inv).ok_elim e
    suffices hx : (∀ K ∈ L', Resolved F K.toFinset) ∧
        ∀ log, ctx.proof = some log → ∀ c, .add c ∈ log → Resolved F c.toFinset from ⟨L', S', hi', hx.1, hx.2⟩
    cases post with
    | already => exact ⟨h.known, h.log⟩
    | fail hu q h0 h1 h2 => exact ⟨h.known, by rw [h2]; exact h.log⟩
    | decide hu q hx hun hph pp h1 h2 => exact ⟨h.known, by rw [h2]; exact h.log⟩
    | sat hu q hall pp h1 h2 => exact ⟨h.known, by rw [h2]; exact h.log⟩
    | @learn _ _ _ ctx1 _ _ _ C lvl target hu _ _ h1 h2 A =>
      have hcl := A.clause
      have hproof := A.proof
      have hsearch := A.search
      clear A
      cases searchStep_cases hr e with
      | @decide p1 p p' ctx1 x v l hp e1 e2 e3 =>
        exfalso
        rw [h1] at hsearch
        simp only [Ctx.decision, hp.search] at hsearch
        have := congrArg SearchStats.conflicts hsearch
        simp at this
      | @learn p1 p p' ctx2 ctx' c an cb hp h0 ea =>
      simp only at hcl
      subst hcl
      obtain ⟨⟨S2, q⟩, _⟩ := (phase_spec h.inv.prop s.ctx).ok_elim (a := (ctx2, p, some c))
        (bind_eq_ok.2 ⟨p1, hp.gc, hp.prop⟩)
      have hnew : Resolved F an.derivedClause.toFinset :=
        analyzeConflict_resolved q.inv (q.db _ _ h.inv.db) h.inv.an h.inv.min h.inv.cb (q.conflict c rfl) h0 ea
          (fun _ _ _ => .resolvent) fun K hK => (Multiset.mem_add.1 hK).elim (resolved_formula K) (h.known K)
      refine ⟨fun K hK => ?_, fun log hl c hc => ?_⟩
      · rcases Multiset.mem_cons.1 hK with rfl | hK
        · rw [List.toFinset_coe]; exact hnew
        · exact h.known K hK
      · rw [hproof] at hl
        unfold Ctx.logProof at hl
        simp only at hl
        rw [h2] at hl
        obtain ⟨old, e1, rfl⟩ := Option.map_eq_some_iff.1 hl
        rcases List.mem_append.1 hc with hc | hc
        · exact h.log old e1 c hc
        · simp only [List.mem_singleton, ProofStep.add.injEq] at hc
          rw [hc]; exact hnew

/-- C93: every learned clause is derived from the formula by resolution, with nothing added. -/
theorem C93_resolved (h : Solver.Reachable env F s) (hl : s.ctx.proof = some log) {c : List Lit} (hc : .add c ∈ log) :
    Resolved F c.toFinset := by
  obtain ⟨L, S, hi⟩ := h.resolvedInv
  exact hi.log log hl c hc

/-- C93: so is every clause that is stored, with or without a proof. -/
theorem C93_stored (h : Solver.Reachable env F s) {D : Multiset Lit} (hD : Stored s.search.prop D) :
    Resolved F D.toFinset := by
  obtain ⟨L, S, hi⟩ := h.resolvedInv
  have : D ∈ toDB F + L := by
    cases hD with
    | unit h1 h2 => exact hi.inv.db.unit _ h1 h2
    | binary h1 h2 => exact hi.inv.db.bin _ _ _ h1 h2
    | long h1 =>
      obtain ⟨e, he, hl, rfl, rfl, rfl⟩ := hi.inv.prop.rep.storedAt_iff.1 h1
      exact hi.inv.db.mem he hl
  exact (Multiset.mem_add.1 this).elim (resolved_formula D) (hi.known D)

theorem Resolved.closed {Q : Finset Lit → Prop} {C : Finset Lit} (h : Resolved F C) (hF : ∀ c ∈ F, Q c.toFinset)
    (hQ : ∀ C D E, Q C → Q D → Resolvent C D E → Q E) : Q C := by
  induction h with
  | clause hc => exact hF _ hc
  | resolvent _ _ h ih1 ih2 => exact hQ _ _ _ ih1 ih2 h

/-- C93: every class of clauses that is closed under resolution and contains the formula has all learned clauses. -/
theorem C93_closed (h : Solver.Reachable env F s) (hl : s.ctx.proof = some log) {Q : Finset Lit → Prop}
    (hF : ∀ c ∈ F, Q c.toFinset) (hQ : ∀ C D E, Q C → Q D → Resolvent C D E → Q E) {c : List Lit}
    (hc : .add c ∈ log) : Q c.toFinset :=
  (C93_resolved h hl hc).closed hF hQ

/-- C93: if the variables are in parts such that no clause of the formula has variables of two parts, no learned clause
has, and each is derived from the clauses of its part alone. -/
theorem C93_parts (h : Solver.Reachable env F s) (hl : s.ctx.proof = some log) {part : Nat → Nat}
    (hF : ∀ c ∈ F, ∃ k, ∀ l ∈ c, part l.index = k) {c : List Lit} (hc : .add c ∈ log) :
    ∃ k, (∀ l ∈ c, part l.index = k) ∧ Resolved (F.filter fun d => d.all fun l => part l.index == k) c.toFinset := by
  have := C93_closed h hl (Q := fun C => ∃ k, (∀ l ∈ C, part l.index = k) ∧
    Resolved (F.filter fun d => d.all fun l => part l.index == k) C) ?_ ?_ hc
  · simpa using this
  · intro c hc
    obtain ⟨k, hk⟩ := hF c hc
    exact ⟨k, by simpa using hk, .clause (List.mem_filter.2 ⟨hc, by simpa using hk⟩)⟩
  · rintro C D E ⟨k, h1, h2⟩ ⟨k', h3, h4⟩ hr
    obtain ⟨l, a1, a2, rfl⟩ := id hr
    have : k' = k := by rw [← h1 l a1, ← h3 _ a2, Lit.index_neg]
    subst this
    refine ⟨k', fun o ho => ?_, .resolvent h2 h4 hr⟩
    rcases Finset.mem_union.1 ho with ho | ho
    · exact h1 o (Finset.mem_of_mem_erase ho)
    · exact h3 o (Finset.mem_of_mem_erase ho)

/-- C93: an autarky, that is a partial assignment that satisfies each clause of the formula in which it makes a literal
false, satisfies each learned clause in which it makes a literal false. -/
theorem C93_autarky (h : Solver.Reachable env F s) (hl : s.ctx.proof = some log) {τ : Lit → Prop}
    (hτ : ∀ l, τ l → ¬ τ l.neg) (hF : ∀ c ∈ F, (∃ l ∈ c, τ l.neg) → ∃ l ∈ c, τ l) {c : List Lit} (hc : .add c ∈ log) :
    (∃ l ∈ c, τ l.neg) → ∃ l ∈ c, τ l := by
  have := C93_closed h hl (Q := fun C => (∃ l ∈ C, τ l.neg) → ∃ l ∈ C, τ l) ?_ ?_ hc
  · simpa using this
  · intro c hc
    simpa using hF c hc
  · rintro C D E h1 h2 ⟨l, a1, a2, rfl⟩ ⟨e, he, hte⟩
    have inC : (∃ c ∈ C, τ c) → ∃ o ∈ C.erase l ∪ D.erase l.neg, τ o := by
      rintro ⟨c0, k1, k2⟩
      by_cases e0 : c0 = l
      · subst e0
        obtain ⟨d0, k3, k4⟩ := h2 ⟨c0.neg, a2, by rwa [Lit.neg_neg]⟩
        refine ⟨d0, Finset.mem_union.2 (.inr (Finset.mem_erase.2 ⟨?_, k3⟩)), k4⟩
        rintro rfl
        exact hτ _ k2 k4
      · exact ⟨c0, Finset.mem_union.2 (.inl (Finset.mem_erase.2 ⟨e0, k1⟩)), k2⟩
    have inD : (∃ d ∈ D, τ d) → ∃ o ∈ C.erase l ∪ D.erase l.neg, τ o := by
      rintro ⟨d0, k1, k2⟩
      by_cases e0 : d0 = l.neg
      · subst e0
        exact inC (h1 ⟨l, a1, k2⟩)
      · exact ⟨d0, Finset.mem_union.2 (.inr (Finset.mem_erase.2 ⟨e0, k1⟩)), k2⟩
    rcases Finset.mem_union.1 he with he | he
    · exact inC (h1 ⟨e, Finset.mem_of_mem_erase he, hte⟩)
    · exact inD (h2 ⟨e, Finset.mem_of_mem_erase he, hte⟩)

/-- C93: clauses learned from Horn clauses are Horn clauses. -/
theorem C93_horn (h : Solver.Reachable env F s) (hl : s.ctx.proof = some log)
    (hF : ∀ c ∈ F, ∀ l ∈ c, ∀ m ∈ c, l.isPositive = true → m.isPositive = true → l = m) {c : List Lit}
    (hc : .add c ∈ log) : ∀ l ∈ c, ∀ m ∈ c, l.isPositive = true → m.isPositive = true → l = m := by
  have := C93_closed h hl
    (Q := fun C => ∀ l ∈ C, ∀ m ∈ C, l.isPositive = true → m.isPositive = true → l = m) ?_ ?_ hc
  · simpa using this
  · intro c hc
    simpa using hF c hc
  · rintro C D E h1 h2 ⟨l, a1, a2, rfl⟩ x hx y hy px py
    simp only [Finset.mem_union, Finset.mem_erase] at hx hy
    by_cases hp : l.isPositive = true
    · have no : ∀ z, z ≠ l ∧ z ∈ C → z.isPositive = true → False := fun z hz pz => hz.1 (h1 z hz.2 l a1 pz hp)
      rcases hx with hx | hx
      · exact (no x hx px).elim
      · rcases hy with hy | hy
        · exact (no y hy py).elim
        · exact h2 x hx.2 y hy.2 px py
    · have hp' : l.neg.isPositive = true := by rw [Lit.isPositive_neg]; simpa using hp
      have no : ∀ z, z ≠ l.neg ∧ z ∈ D → z.isPositive = true → False := fun z hz pz => hz.1 (h2 z hz.2 _ a2 pz hp')
      rcases hx with hx | hx
      · rcases hy with hy | hy
        · exact h1 x hx.2 y hy.2 px py
        · exact (no y hy py).elim
      · exact (no x hx px).elim

end

/-- Two parts, with the variables 1 to 5 and 6 to 10. -/
def Example.twoParts : List (List Int) :=
  [[1, 2, 3], [1, 2, -3], [1, -2, 4], [1, -2, -4], [-1, 5], [6, 7, 8], [6, 7, -8], [6, -7, 9], [6, -7, -9], [-6, 10]]

/-- A case for C93: a run that learns clauses in both parts of a formula.  The assignment of 6, 10 and -7 is an autarky that
makes a literal of the clause `7 6` false. -/
theorem C93_example : ∃ s log, Solver.Reachable Example.env (Example.cnf Example.twoParts) s ∧
    s.ctx.proof = some log ∧ .add ([7, 6].map Example.lit) ∈ log ∧ .add ([1, 3].map Example.lit) ∈ log ∧
    (∀ c ∈ Example.cnf Example.twoParts, ∃ k, ∀ l ∈ c, l.index / 5 = k) ∧
    (∀ c ∈ Example.cnf Example.twoParts, (∃ l ∈ c, l.neg ∈ [6, 10, -7].map Example.lit) →
      ∃ l ∈ c, l ∈ [6, 10, -7].map Example.lit) := by
  have h : (do
      let s ← Example.load Example.twoParts
      let (s', _) ← s.solve Example.env 20
      pure s'.ctx.proof : M _) = .ok (some [.add ([7, 6].map Example.lit), .add ([6].map Example.lit),
        .add ([1, 3].map Example.lit)]) := by decide +kernel
  obtain ⟨s, h1, h⟩ := bind_eq_ok.1 h
  obtain ⟨⟨s', r⟩, h2, h⟩ := bind_eq_ok.1 h
  simp only [pure_eq, Except.ok.injEq] at h
  have hi := Solver.Input.addClauses _ (.proof (.new (env := Example.env)))
    (Example.ok_valid (F := Example.twoParts) (by decide +kernel)) h1
  rw [List.nil_append] at hi
  refine ⟨s', _, Solver.Reachable.solve (.input hi) h2, h, by simp, by simp, ?_, ?_⟩
  · have : ∀ c ∈ Example.cnf Example.twoParts, (∀ l ∈ c, l.index / 5 = 0) ∨ ∀ l ∈ c, l.index / 5 = 1 := by
      decide +kernel
    exact fun c hc => (this c hc).elim (fun h => ⟨0, h⟩) fun h => ⟨1, h⟩
  · decide +kernel

end Starlit
