import Verif.Props.Analysis
import Verif.Props.Activity

/-!
# C62: the derived clause is cut at the first unique implication point

The implication graph of a conflict has the steps of the trail as nodes and an edge from each step to the
steps whose reason contains its negation; the conflict itself is reached from the steps whose negation is in
the falsified clause.  A unique implication point is a step on all paths from the last decision to the
conflict.
-/

namespace Starlit

/-! ## The implication graph -/

/-- An edge: the negation of the literal assigned by step `i` is in the reason of step `j`. -/
def Premise (p : PropState) (i j : Nat) : Prop :=
  ∃ (si sj : Step) (rs : List Lit), p.trail.steps[i]? = some si ∧ p.trail.steps[j]? = some sj ∧
    p.reasonLits sj.reason = .ok rs ∧ si.lit.neg ∈ rs

/-- A path to the conflict with the literals `conf`. -/
inductive Path (p : PropState) (conf : List Lit) : List Nat → Prop
  | last {i : Nat} {s : Step} : p.trail.steps[i]? = some s → s.lit.neg ∈ conf → Path p conf [i]
  | cons {i j : Nat} {xs : List Nat} : Premise p i j → Path p conf (j :: xs) → Path p conf (i :: j :: xs)

/-- A unique implication point: a step on all paths from the last decision to the conflict. -/
def Uip (p : PropState) (conf : List Lit) (u : Nat) : Prop :=
  ∀ (d : Nat) (xs : List Nat), p.trail.decisions[p.trail.decisionLevel]? = some d →
    Path p conf (d :: xs) → u ∈ d :: xs

/-! ## Paths -/

section
variable {n : Nat} {S : List LC} {p : PropState} {conf : List Lit}

theorem Premise.inReason {i j : Nat} {s : Step} (h : Premise p i j) (hs : p.trail.steps[i]? = some s) :
    InReason p j s.lit.index := by
  obtain ⟨si, sj, rs, h1, h2, h3, h4⟩ := h
  cases hs.symm.trans h1
  exact ⟨sj, rs, h2, h3, _, h4, Lit.index_neg _⟩

/-- A step with a variable of a reason is one of its premises. -/
theorem PInv.premise (h : PInv n S p) {i j : Nat} {s : Step} (hs : p.trail.steps[i]? = some s)
    (h0 : s.level ≠ 0) (hr : InReason p j s.lit.index) : Premise p i j := by
  obtain ⟨sj, rs, h2, h3, o, h4, h5⟩ := hr
  obtain ⟨rs', b1, b2, _⟩ := h.reason h2
  cases h3.symm.trans b1
  obtain ⟨m, sm, c1, c2, c3⟩ := b2 o h4
  have := h.trail.lifted_unique ⟨s, List.mem_iff_getElem?.2 ⟨i, hs⟩, rfl, h0⟩ hs rfl c2
    (by rw [c3, Lit.index_neg, h5])
  subst this
  cases hs.symm.trans c2
  exact ⟨s, sj, rs, hs, h2, h3, by rw [c3, Lit.neg_neg]; exact h4⟩

/-- Premises come first. -/
theorem PInv.premise_lt (h : PInv n S p) {i j : Nat} {s : Step} (hp : Premise p i j)
    (hs : p.trail.steps[i]? = some s) (h0 : s.level ≠ 0) : i < j := by
  obtain ⟨si, sj, rs, h1, h2, h3, h4⟩ := hp
  cases hs.symm.trans h1
  obtain ⟨rs', b1, b2, _⟩ := h.reason h2
  cases h3.symm.trans b1
  obtain ⟨m, sm, c1, c2, c3⟩ := b2 _ h4
  rw [Lit.neg_neg] at c3
  obtain ⟨rfl, _⟩ := h.pos_unique hs c2 c3 h0
  exact c1

theorem Path.head {i : Nat} {xs : List Nat} (h : Path p conf (i :: xs)) :
    ∃ s, p.trail.steps[i]? = some s := by
  cases h with
  | last h1 _ => exact ⟨_, h1⟩
  | cons h1 _ => obtain ⟨s, _, _, h, _⟩ := h1; exact ⟨s, h⟩

/-- Paths go up on the trail. -/
theorem Path.lt (h : PInv n S p) {ys : List Nat} (hp : Path p conf ys) : ∀ {i : Nat} {xs : List Nat} {s : Step},
    ys = i :: xs → p.trail.steps[i]? = some s → s.level ≠ 0 → ∀ j ∈ xs, i < j := by
  induction hp with
  | last => intro i xs s e; cases e; simp
  | @cons a b zs h1 h2 ih =>
    intro i xs s e hs h0 j hj
    cases e
    have hlt := h.premise_lt h1 hs h0
    obtain ⟨sb, hb⟩ := h2.head
    have := h.trail.level_mono hs hb (by omega)
    rcases List.mem_cons.1 hj with rfl | hj
    · exact hlt
    · have := ih rfl hb (by omega) j hj
      omega

/-- Each part of a path that leads to the conflict is a path. -/
theorem Path.suffix {xs ys : List Nat} {i : Nat} (h : Path p conf (xs ++ i :: ys)) : Path p conf (i :: ys) := by
  induction xs with
  | nil => exact h
  | cons x xs ih =>
    refine ih ?_
    cases xs with
    | nil => cases h with | cons _ h => exact h
    | cons y xs => cases h with | cons _ h => exact h

/-- Above the last step, the involved variables are those with a path over these steps. -/
theorem Involved.path (h : PInv n S p) (hf : ∀ l ∈ conf, ∃ y ∈ p.trail.steps, y.lit = l.neg) {k : Nat}
    {xs : List Nat} (hi : Involved p conf k xs) : ∀ (m i : Nat) (s : Step),
    m + i = p.trail.steps.length → p.trail.steps[i]? = some s → s.lit.index ∈ xs →
    ∃ ys, Path p conf (i :: ys) ∧ ∀ j ∈ ys, k ≤ j := by
  intro m
  induction m using Nat.strong_induction_on with
  | _ m ih =>
    intro i s hm hs hx
    obtain ⟨s', hs', e, h0⟩ := hi.lifted _ hx
    obtain ⟨i', hi'⟩ := List.mem_iff_getElem?.1 hs'
    have := h.trail.lifted_unique (hi.lifted _ hx) hs rfl hi' e
    subst this
    cases hs.symm.trans hi'
    rcases hi.src _ hx with ⟨l, hl, e⟩ | ⟨j, sj, hkj, hj, hjx, hr⟩
    · refine ⟨[], .last hs ?_, by simp⟩
      obtain ⟨y, hy, ey⟩ := hf l hl
      obtain ⟨iy, hiy⟩ := List.mem_iff_getElem?.1 hy
      have := h.trail.lifted_unique (hi.lifted _ hx) hs rfl hiy (by rw [ey, Lit.index_neg, e])
      subst this
      cases hs.symm.trans hiy
      rw [ey, Lit.neg_neg]; exact hl
    · have hp := h.premise hs h0 hr
      have := h.premise_lt hp hs h0
      have := (List.getElem?_eq_some_iff.1 hj).1
      obtain ⟨ys, h1, h2⟩ := ih (p.trail.steps.length - j) (by omega) j sj (by omega) hj hjx
      refine ⟨j :: ys, .cons hp h1, ?_⟩
      intro x hx
      rcases List.mem_cons.1 hx with rfl | hx
      · exact hkj
      · exact h2 x hx

theorem Path.involved (h : PInv n S p) {k : Nat} {xs : List Nat} (hi : Involved p conf k xs) {zs : List Nat}
    (hp : Path p conf zs) : ∀ {i : Nat} {ys : List Nat} {s : Step}, zs = i :: ys →
    p.trail.steps[i]? = some s → s.level ≠ 0 → (∀ j ∈ ys, k ≤ j) → s.lit.index ∈ xs := by
  induction hp with
  | @last i s h1 h2 =>
    intro j ys s' e hs h0 _
    cases e
    cases hs.symm.trans h1
    have := hi.start _ h2 ⟨s, List.mem_iff_getElem?.2 ⟨_, hs⟩, by simp, h0⟩
    simpa using this
  | @cons a b zs h1 h2 ih =>
    intro i ys s e hs h0 hk
    cases e
    have hlt := h.premise_lt h1 hs h0
    obtain ⟨sb, hb⟩ := h2.head
    have := h.trail.level_mono hs hb (by omega)
    have hx := ih rfl hb (by omega) (fun j hj => hk j (by simp [hj]))
    exact hi.closed b sb _ (hk b (by simp)) hb hx (h1.inReason hs) ⟨s, List.mem_iff_getElem?.2 ⟨_, hs⟩, rfl, h0⟩

/-- A path from a step of the conflict level is reached from the last decision. -/
theorem PInv.extend (h : PInv n S p) (hl : p.trail.decisionLevel ≠ 0) {d : Nat}
    (hd : p.trail.decisions[p.trail.decisionLevel]? = some d) (w : Nat) : ∀ {ys : List Nat} {s : Step},
    p.trail.steps[w]? = some s → s.level = p.trail.decisionLevel → Path p conf (w :: ys) →
    ∃ zs, Path p conf (d :: zs) ∧ ∀ j ∈ d :: zs, j ≤ w ∨ j ∈ ys := by
  induction w using Nat.strong_induction_on with
  | _ w ih =>
    intro ys s hs hlev hp
    by_cases hr : s.reason = .decision
    · have := h.reasons w s hs
      unfold ReasonOK at this
      rw [hr, hlev, hd] at this
      obtain ⟨_, e⟩ := this
      cases e
      refine ⟨ys, hp, ?_⟩
      intro j hj
      rcases List.mem_cons.1 hj with rfl | hj
      · exact .inl (Nat.le_refl _)
      · exact .inr hj
    · obtain ⟨rs, hrs, _⟩ := h.reason hs
      obtain ⟨o, ho, i, x, hiw, hx, e, hxl⟩ := h.reason_level hs (by omega) hr hrs
      obtain ⟨zs, h1, h2⟩ := ih i hiw hx (by omega)
        (.cons ⟨x, s, rs, hx, hs, hrs, by rw [e, Lit.neg_neg]; exact ho⟩ hp)
      refine ⟨zs, h1, fun j hj => ?_⟩
      rcases h2 j hj with h3 | h3
      · left; omega
      · rcases List.mem_cons.1 h3 with rfl | h3
        · exact .inl (Nat.le_refl _)
        · exact .inr h3

theorem mem_split_path {u : Nat} {ys : List Nat} (hu : u ∈ ys) : ∃ as bs, ys = as ++ u :: bs :=
  List.append_of_mem hu

/-- The derivation stops at the unique implication point that is last on the trail. -/
theorem FirstUip.uip (h : PInv n S p) (hf : ∀ l ∈ conf, ∃ y ∈ p.trail.steps, y.lit = l.neg)
    (hl : p.trail.decisionLevel ≠ 0) {xs : List Nat} {c : List Lit} {u : Nat} {s : Step}
    (hu : FirstUip p conf xs c u s) : Uip p conf u ∧ ∀ v, Uip p conf v → v ≤ u := by
  obtain ⟨d, hd⟩ : ∃ d, p.trail.decisions[p.trail.decisionLevel]? = some d := by
    have : p.trail.decisionLevel < p.trail.decisions.length := by
      unfold Trail.decisionLevel at hl ⊢; omega
    exact ⟨_, List.getElem?_eq_getElem this⟩
  obtain ⟨sd, hsd, _, hsdl⟩ := h.trail.decs _ d (by omega) hd
  have hdu : d ≤ u := (h.trail.level u s hu.step _ d (by omega) hd).1 hu.level.ge
  have hlen := (List.getElem?_eq_some_iff.1 hu.step).1
  constructor
  · intro d' ys hd' hp
    cases hd.symm.trans hd'
    by_contra hne
    -- the steps of the path above `u` are involved, so the first one below is
    have key : ∀ (zs : List Nat), Path p conf zs → u ∉ zs → (∀ i ∈ zs, d ≤ i) → ∀ i ∈ zs, u < i := by
      intro zs hz
      induction hz with
      | @last i st h1 h2 =>
        intro hn hdi j hj
        obtain rfl := List.mem_singleton.1 hj
        have hst := (h.trail.level j st h1 _ d (by omega) hd).2 (hdi j (by simp))
        have hle := h.trail.level_le j st h1
        have := hu.involved.start _ h2 ⟨st, List.mem_iff_getElem?.2 ⟨_, h1⟩, by simp, by omega⟩
        have := hu.sole j st h1 (by omega) (by simpa using this)
        simp only [List.mem_singleton] at hn
        omega
      | @cons a b zs h1 h2 ih =>
        intro hn hdi
        have ih := ih (fun hc => hn (by simp [hc])) (fun i hi => hdi i (by simp [hi]))
        obtain ⟨st, hst⟩ : ∃ st, p.trail.steps[a]? = some st := by
          obtain ⟨st, _, _, h, _⟩ := h1; exact ⟨st, h⟩
        have hlev := (h.trail.level a st hst _ d (by omega) hd).2 (hdi a (by simp))
        have hle := h.trail.level_le a st hst
        have hx := (Path.cons h1 h2).involved h hu.involved rfl hst (by omega)
          (fun j hj => by have := ih j hj; omega)
        have := hu.sole a st hst (by omega) hx
        intro j hj
        rcases List.mem_cons.1 hj with rfl | hj
        · have : u ≠ j := fun hc => hn (by simp [hc])
          omega
        · exact ih j hj
    have hge := hp.lt h rfl hsd (by omega)
    have := key _ hp hne (by
      intro i hi
      rcases List.mem_cons.1 hi with rfl | hi
      · exact Nat.le_refl _
      · exact (hge i hi).le) d (by simp)
    omega
  · intro v hv
    by_contra hvu
    have hvu : u < v := by omega
    -- a path from the decision through `u`
    obtain ⟨ys, hp, hys⟩ := hu.involved.path h hf (p.trail.steps.length - u) u s (by omega) hu.step hu.mem
    have lev : ∀ {i : Nat} {st : Step}, p.trail.steps[i]? = some st → u ≤ i → st.level = p.trail.decisionLevel := by
      intro i st hst hui
      have h1 := h.trail.level_mono hu.step hst hui
      have h2 := h.trail.level_le i st hst
      have h3 := hu.level
      omega
    have hvx : ∃ st, p.trail.steps[v]? = some st ∧ st.lit.index ∈ xs := by
      obtain ⟨zs, h1, h2⟩ := h.extend hl hd u hu.step hu.level hp
      have hvm := hv d zs hd h1
      have hvy : v ∈ ys := by
        rcases h2 v hvm with h | h
        · omega
        · exact h
      obtain ⟨as, bs, rfl⟩ := mem_split_path hvy
      have hpv : Path p conf (v :: bs) := Path.suffix (xs := u :: as) hp
      obtain ⟨st, hst⟩ := hpv.head
      exact ⟨st, hst, hpv.involved h hu.involved rfl hst (by rw [lev hst hvu.le]; exact hl)
        (fun j hj => hys j (by simp [hj]))⟩
    obtain ⟨st, hst, hstx⟩ := hvx
    obtain ⟨w, y, hwv, hw, hwl, hwx, hsrc⟩ := hu.passed v st hvu hst hstx
    have hpw : ∃ zs, Path p conf (w :: zs) ∧ ∀ j ∈ zs, v < j := by
      rcases hsrc with ⟨l, hlc, e⟩ | ⟨i, z, hvi, hi, hix, hr⟩
      · refine ⟨[], .last hw ?_, by simp⟩
        obtain ⟨y', hy', ey⟩ := hf l hlc
        obtain ⟨iy, hiy⟩ := List.mem_iff_getElem?.1 hy'
        have := h.trail.lifted_unique (hu.involved.lifted _ hwx) hw rfl hiy (by rw [ey, Lit.index_neg, e])
        subst this
        cases hw.symm.trans hiy
        rw [ey, Lit.neg_neg]; exact hlc
      · have hil := (List.getElem?_eq_some_iff.1 hi).1
        obtain ⟨zs, h1, _⟩ := hu.involved.path h hf (p.trail.steps.length - i) i z (by omega) hi hix
        have hz := lev hi (by omega)
        have h3 := h1.lt h rfl hi (by omega)
        refine ⟨i :: zs, .cons (h.premise hw (by omega) hr) h1, ?_⟩
        intro j hj
        rcases List.mem_cons.1 hj with rfl | hj
        · exact hvi
        · have := h3 j hj; omega
    obtain ⟨zs, h1, h2⟩ := hpw
    obtain ⟨ts, h3, h4⟩ := h.extend hl hd w hw hwl h1
    rcases h4 v (hv d ts hd h3) with h5 | h5
    · omega
    · have := h2 v h5; omega

end

/-! ## C62 -/

section
variable {env : Env} {F : List (List Lit)} {s : Solver} {p1 p p' : PropState} {ctx ctx' : Ctx}
  {c : ConflictClause} {an1 : Analysis} {cb' : Callbacks} {search : Search} {r : Option Bool}

theorem Solver.Propagating.false (h : Solver.Propagating env F s p1 ctx p (some c)) {conf : List Lit}
    (hc : c.lits p = .ok conf) : ∀ l ∈ conf, ∃ y ∈ p.trail.steps, y.lit = l.neg := by
  obtain ⟨L, S, S2, hi, q⟩ := h.phase
  obtain ⟨conf', e, hf, _⟩ := q.inv.conflict q.inv.storedInv (q.conflict c rfl)
  cases hc.symm.trans e
  exact hf

/-- C62, position: the derived clause ends with the negation of the literal of the unique implication point
that is closest to the conflict: all paths of the implication graph from the last decision to the conflict
go through it, and no later step has this property. -/
theorem C62_first (h : Solver.Propagating env F s p1 ctx p (some c)) (h0 : p.trail.decisionLevel ≠ 0)
    (e1 : Analysis.derive1uip env s.search.analysis p c s.search.cb = .ok (an1, p', cb')) :
    ∃ conf u st, c.lits p = .ok conf ∧ p.trail.steps[u]? = some st ∧
      an1.derivedClause.getLast? = some st.lit.neg ∧ Uip p conf u ∧ ∀ v, Uip p conf v → v ≤ u := by
  obtain ⟨L, S, S2, hi, q⟩ := h.phase
  obtain ⟨conf, xs, hc, hd⟩ := derive1uip_bumps q.inv q.inv.storedInv hi.an hi.cb (q.conflict c rfl) h0 e1
  obtain ⟨u, st, hu⟩ := hd.first
  obtain ⟨h1, h2⟩ := hu.uip q.inv (h.false hc) h0
  exact ⟨conf, u, st, hc, hu.step, hu.last, h1, h2⟩

/-- C62, learned clauses: minimisation keeps the literal of the unique implication point and puts it first. -/
theorem C62_learned (h : Solver.Propagating env F s p1 ctx p (some c)) (h0 : p.trail.decisionLevel ≠ 0)
    (e : searchStep env s.ctx s.search = .ok (ctx', search, r)) :
    ∃ conf u st, c.lits p = .ok conf ∧ p.trail.steps[u]? = some st ∧
      search.analysis.derivedClause.head? = some st.lit.neg ∧ Uip p conf u ∧ ∀ v, Uip p conf v → v ≤ u := by
  obtain ⟨ctx', an, p', cb, ea, rfl⟩ := searchStep_conflict h h0 e
  obtain ⟨L, S, S2, hi, q⟩ := h.phase
  obtain ⟨conf, xs, hc, _, _, _, _, u, st, h6, h7, _, _, _, hu⟩ := analyzeConflict_act q.inv q.inv.storedInv
    hi.an hi.min hi.cb (q.conflict _ rfl) h0 ea
  obtain ⟨h1, h2⟩ := hu.uip q.inv (h.false hc) h0
  exact ⟨conf, u, st, hc, h6, h7, h1, h2⟩

/-- C62, paths: the property is not vacuous, for the last decision is connected with the conflict and is a
unique implication point itself. -/
theorem C62_decision (h : Solver.Propagating env F s p1 ctx p (some c)) (h0 : p.trail.decisionLevel ≠ 0) :
    ∃ conf d st, c.lits p = .ok conf ∧ p.trail.decisions[p.trail.decisionLevel]? = some d ∧
      p.trail.steps[d]? = some st ∧ st.reason = .decision ∧ Uip p conf d ∧ ∃ xs, Path p conf (d :: xs) := by
  obtain ⟨L, S, S2, hi, q⟩ := h.phase
  obtain ⟨an', p2, cb2, _, e1, _⟩ := derive1uip_spec (env := env) q.inv
    q.inv.storedInv hi.an hi.cb (q.conflict c rfl) h0
  obtain ⟨conf, xs, hc, hd⟩ := derive1uip_bumps q.inv q.inv.storedInv hi.an hi.cb (q.conflict c rfl) h0 e1
  obtain ⟨u, su, hu⟩ := hd.first
  obtain ⟨d, hdd⟩ : ∃ d, p.trail.decisions[p.trail.decisionLevel]? = some d := by
    have : p.trail.decisionLevel < p.trail.decisions.length := by
      unfold Trail.decisionLevel at h0 ⊢; omega
    exact ⟨_, List.getElem?_eq_getElem this⟩
  obtain ⟨sd, hsd, hr, hsdl⟩ := q.inv.trail.decs _ d (by omega) hdd
  have hlen := (List.getElem?_eq_some_iff.1 hu.step).1
  obtain ⟨ys, hp, _⟩ := hu.involved.path q.inv (h.false hc) (p.trail.steps.length - u) u su (by omega)
    hu.step hu.mem
  obtain ⟨zs, h1, _⟩ := q.inv.extend h0 hdd u hu.step hu.level hp
  refine ⟨conf, d, sd, hc, hdd, hsd, hr, ?_, zs, h1⟩
  intro d' _ hd' _
  cases hdd.symm.trans hd'
  simp

/-- C62, literals: the derived clause consists of the negations of the literals that are assigned above the
top level, not after the unique implication point, and have a path to the conflict on which all other steps
are after it. -/
theorem C62_clause (h : Solver.Propagating env F s p1 ctx p (some c)) (h0 : p.trail.decisionLevel ≠ 0)
    (e1 : Analysis.derive1uip env s.search.analysis p c s.search.cb = .ok (an1, p', cb'))
    {conf : List Lit} (hc : c.lits p = .ok conf) {u : Nat} (hu : Uip p conf u)
    (hmax : ∀ v, Uip p conf v → v ≤ u) (l : Lit) :
    l ∈ an1.derivedClause ↔ ∃ i st xs, p.trail.steps[i]? = some st ∧ st.lit = l.neg ∧ st.level ≠ 0 ∧ i ≤ u ∧
      Path p conf (i :: xs) ∧ ∀ j ∈ xs, u < j := by
  obtain ⟨L, S, S2, hi, q⟩ := h.phase
  obtain ⟨conf', xs, hc', hd⟩ := derive1uip_bumps q.inv q.inv.storedInv hi.an hi.cb (q.conflict c rfl) h0 e1
  cases hc.symm.trans hc'
  obtain ⟨u', su, hu'⟩ := hd.first
  obtain ⟨h1, h2⟩ := hu'.uip q.inv (h.false hc) h0
  have : u' = u := Nat.le_antisymm (hmax _ h1) (h2 _ hu)
  subst this
  have ht := q.inv.trail
  rw [hu'.clause]
  have path : ∀ {i : Nat} {st : Step}, p.trail.steps[i]? = some st → st.lit.index ∈ xs →
      ∃ ys, Path p conf (i :: ys) ∧ ∀ j ∈ ys, u' < j := by
    intro i st hst hx
    have := (List.getElem?_eq_some_iff.1 hst).1
    exact hu'.involved.path q.inv (h.false hc) (p.trail.steps.length - i) i st (by omega) hst hx
  constructor
  · rintro (rfl | ⟨y, hy, e, hlt, hx⟩)
    · obtain ⟨ys, hp, hys⟩ := path hu'.step hu'.mem
      exact ⟨u', su, ys, hu'.step, (Lit.neg_neg _).symm, by rw [hu'.level]; exact h0, Nat.le_refl _, hp, hys⟩
    · obtain ⟨i, hi⟩ := List.mem_iff_getElem?.1 hy
      obtain ⟨ys, hp, hys⟩ := path hi hx
      obtain ⟨y', hy', e', h0'⟩ := hu'.involved.lifted _ hx
      obtain ⟨i', hi'⟩ := List.mem_iff_getElem?.1 hy'
      have := ht.lifted_unique (hu'.involved.lifted _ hx) hi rfl hi' e'
      subst this
      cases hi.symm.trans hi'
      refine ⟨i, y, ys, hi, e, h0', ?_, hp, hys⟩
      by_contra hc
      have := ht.level_mono hu'.step hi (by omega)
      have := hu'.level
      omega
  · rintro ⟨i, st, ys, hst, e, hl0, hiu, hp, hys⟩
    have hx := hp.involved q.inv hu'.involved rfl hst hl0 hys
    by_cases hlev : st.level = p.trail.decisionLevel
    · have := hu'.sole i st hst hlev hx
      have : i = u' := by omega
      subst this
      cases hst.symm.trans hu'.step
      left
      rw [e, Lit.neg_neg]
    · have := ht.level_le i st hst
      exact .inr ⟨st, List.mem_iff_getElem?.2 ⟨i, hst⟩, e, by omega, hx⟩

end

/-- The hypotheses of C62 are met by a conflict at level 4 in which the first unique implication point is the
step after the decision. -/
theorem C62_example : ∃ s p1 ctx p c an1 p' cb' conf,
    Solver.Propagating Example.env (Example.cnf (Example.php 4 3)) s p1 ctx p (some c) ∧
    p.trail.decisionLevel ≠ 0 ∧
    Analysis.derive1uip Example.env s.search.analysis p c s.search.cb = .ok (an1, p', cb') ∧
    c.lits p = .ok conf ∧ p.trail.decisions[p.trail.decisionLevel]? = some 6 ∧
    an1.derivedClause = [4, 1, -8].map Example.lit ∧ Uip p conf 7 ∧ ∀ v, Uip p conf v → v ≤ 7 := by
  have h : (do
      let x ← Example.mid (Example.php 4 3) 4
      match x.2.2.2.2 with
      | none => throw .panic
      | some c => do
        let y ← Analysis.derive1uip Example.env x.1.search.analysis x.2.2.2.1 c x.1.search.cb
        pure (x.2.2.2.1.trail.decisions, y.1.derivedClause,
          (x.2.2.2.1.trail.steps[7]?).map fun s => (s.lit, s.level)) :
        M (List Nat × List Lit × Option (Lit × Nat))) =
      .ok ([0, 0, 1, 2, 6], [⟨7⟩, ⟨1⟩, ⟨14⟩], some (⟨15⟩, 4)) := by
    decide +kernel
  obtain ⟨⟨s, p1, ctx, p, r⟩, h1, h2⟩ := bind_eq_ok.1 h
  cases r with
  | none => cases h2
  | some c =>
    simp only at h2
    obtain ⟨⟨an1, p', cb'⟩, h3, h4⟩ := bind_eq_ok.1 h2
    have h4 := Except.ok.inj h4
    simp only [Prod.mk.injEq] at h4
    obtain ⟨h5, h6, h7⟩ := h4
    have hp := Example.mid_propagating (by decide +kernel) h1
    have h0 : p.trail.decisionLevel = 4 := by unfold Trail.decisionLevel; rw [h5]; rfl
    obtain ⟨conf, u, st, a1, a2, a3, a4, a5⟩ := C62_first hp (by omega) h3
    obtain ⟨L, S, S2, hi, q⟩ := hp.phase
    obtain ⟨x, hx, hxe⟩ := Option.map_eq_some_iff.1 h7
    simp only [Prod.mk.injEq] at hxe
    obtain ⟨b1, b2⟩ := hxe
    have hl : st.lit = x.lit := by
      rw [h6] at a3
      have := congrArg Lit.neg (Option.some.inj a3)
      rw [Lit.neg_neg] at this
      rw [← this, b1]
      rfl
    obtain ⟨rfl, _⟩ := q.inv.pos_unique hx a2 hl (by omega)
    exact ⟨s, p1, ctx, p, c, an1, p', cb', conf, hp, by omega, h3, a1, by rw [h0, h5]; rfl,
      h6.trans (by decide), a4, a5⟩

end Starlit
