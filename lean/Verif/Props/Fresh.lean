import Verif.Props.Counters
import Verif.Props.Activity
import Verif.Props.Solver

/-!
# C59: learned clauses are new

The clauses added to the proof in a run, compared with the clauses known at that time.
-/

namespace Starlit

/-- In the log, every added clause is not empty, has no literal twice and no literal together with its
negation, has literals of the formula only, and no clause that is known at this time (in the formula, or added
before and not deleted) and has no literal twice is contained in it. -/
def FreshLog (F : List (List Lit)) (log : List ProofStep) : Prop :=
  ∀ (pre post : List ProofStep) (c : List Lit), log = pre ++ .add c :: post →
    c ≠ [] ∧ c.Nodup ∧ (∀ l ∈ c, l.neg ∉ c) ∧ (∀ l ∈ c, ∃ d ∈ F, l ∈ d) ∧
    ∀ D ∈ toDB F + (addedClauses pre - deletedClauses pre), D.Nodup → ∃ l ∈ D, l ∉ c

section
variable {env : Env} {n : Nat} {F L : DB} {S : List LC} {p : PropState}

/-- Where the negations of the literals of a learned clause are on the trail. -/
theorem Asserting.on_trail {D : DB} {c : List Lit} {lvl : Nat} (h : Asserting D p.trail c lvl) :
    (∀ l ∈ c, ∃ s ∈ p.trail.steps, s.lit = l.neg) ∧
    ∃ a, c.head? = some a ∧ ∀ l ∈ c, l ≠ a → ∃ (i : Nat) (s : Step), p.trail.steps[i]? = some s ∧
      s.lit = l.neg ∧ s.level < p.trail.decisionLevel := by
  obtain ⟨k, u, rest, rfl, hu, -, hr⟩ := h.head
  have key : ∀ l ∈ rest, ∃ (i : Nat) (s : Step), p.trail.steps[i]? = some s ∧
      s.lit = l.neg ∧ s.level < p.trail.decisionLevel := by
    intro l hl
    obtain ⟨i, s, ⟨_, s', h1, h2, _⟩, hs, hle⟩ := hr l hl
    have : s' = s := Option.some.inj (h1.symm.trans hs)
    subst this
    exact ⟨i, s', hs, h2, Nat.lt_of_le_of_lt hle h.lt⟩
  refine ⟨fun l hl => ?_, u.lit.neg, rfl, fun l hl hne => ?_⟩
  · rcases List.mem_cons.1 hl with rfl | hl
    · exact ⟨u, List.mem_of_getElem? hu, by simp⟩
    · obtain ⟨i, s, hs, e, _⟩ := key l hl
      exact ⟨s, List.mem_of_getElem? hs, e⟩
  · rcases List.mem_cons.1 hl with rfl | hl
    · exact absurd rfl hne
    · exact key l hl

/-- A clause that is stored and has no literal twice has a literal that is not in the learned clause. -/
theorem Asserting.fresh {D : DB} {c : List Lit} {lvl : Nat} (h : Asserting D p.trail c lvl)
    (hp : PInv n S p) {E : Multiset Lit} (hE : Stored p E) (hn : E.Nodup) : ∃ l ∈ E, l ∉ c := by
  obtain ⟨hon, a, _, hlow⟩ := h.on_trail
  by_contra hc
  have hc : ∀ l ∈ E, l ∈ c := fun l hl => by
    by_contra hx
    exact hc ⟨l, hl, hx⟩
  -- no literal of the clause is true
  have hno : ∀ l ∈ E, ∀ t ∈ p.trail.steps, t.lit ≠ l := by
    intro l hl t ht e
    obtain ⟨s, hs, e'⟩ := hon l (hc l hl)
    exact hp.trail.not_both ht hs (by rw [e, e', Lit.neg_neg])
  -- literals other than the asserting one were falsified and processed
  have hproc : ∀ l ∈ E, l ≠ a → ∃ (i : Nat) (s : Step), i < p.trail.propagated ∧
      p.trail.steps[i]? = some s ∧ s.lit = l.neg := by
    intro l hl hne
    obtain ⟨i, s, hs, e, hlt⟩ := hlow l (hc l hl) hne
    refine ⟨i, s, ?_, hs, e⟩
    by_contra hge
    have := hp.trail.prop_level i s (by omega) hs
    omega
  cases hE with
  | unit hs _ => exact hno _ (by simp) _ hs rfl
  | @binary x y bs hx hy =>
    have hne : x ≠ y := by
      rw [Multiset.nodup_cons] at hn
      intro e
      exact hn.1 (by simp [e])
    have hb : ∀ (x y : Lit) (bs : List Lit), p.binary[x.code]? = some bs → y ∈ bs →
        x ∈ (x ::ₘ {y} : Multiset Lit) → (∀ t ∈ p.trail.steps, t.lit ≠ y) → (∃ (i : Nat) (s : Step),
          i < p.trail.propagated ∧ p.trail.steps[i]? = some s ∧ s.lit = x.neg) → False := by
      intro x y bs hx hy _ hf ⟨i, s, hi, hs, e⟩
      obtain ⟨t, ht, e', _⟩ := hp.bsat x bs hx y hy i s hi hs e
      exact hf t ht e'
    by_cases hxa : x = a
    · -- then the other literal was processed
      have hya : y ≠ a := fun e => hne (hxa.trans e.symm)
      have hlt : y.code < p.binary.length := by
        rw [hp.sized.bin]; exact Lit.code_lt_of_index_lt (hp.bs.idx _ _ hx _ hy)
      have hys := List.getElem?_eq_getElem hlt
      have hcnt := hp.bs.symm x y _ bs hx hys
      have hpos : 0 < bs.count y := List.count_pos_iff.2 hy
      rw [hcnt] at hpos
      exact hb y x _ hys (List.count_pos_iff.1 hpos) (by simp) (hno x (by simp))
        (hproc y (by simp) hya)
    · exact hb x y bs hx hy (by simp) (hno y (by simp)) (hproc x (by simp) hxa)
  | @long r hd ls hs =>
    obtain ⟨e, he, hl, rfl, rfl, rfl⟩ := hp.rep.storedAt_iff.1 hs
    have hlen := (hp.long.len e he hl).1
    have hn : e.lits.Nodup := by simpa using hn
    obtain ⟨x, y, rest, hls⟩ : ∃ x y rest, e.lits = x :: y :: rest := by
      match e.lits, hlen with
      | x :: y :: rest, _ => exact ⟨x, y, rest, rfl⟩
    have hne : x ≠ y := by
      rw [hls] at hn
      intro e
      simp [e] at hn
    have key : ∀ w ∈ e.lits.take 2, w ≠ a → False := by
      intro w hw hwa
      obtain ⟨i, s, hi, hs, e'⟩ := hproc w (by simpa using List.mem_of_mem_take hw) hwa
      obtain ⟨t, ht, hm, _⟩ := hp.wsat e he hl w hw i s hi hs e'
      exact hno t.lit (by simpa using hm) t ht rfl
    by_cases hxa : x = a
    · exact key y (by simp [hls]) fun h => hne (hxa.trans h.symm)
    · exact key x (by simp [hls]) hxa

/-- The literals of the learned clause are literals of the clauses it was derived from. -/
theorem analyzeConflict_lits {ctx ctx' : Ctx} {p' : PropState} {an an' : Analysis} {cb cb' : Callbacks}
    {c : ConflictClause} (h : PInv n S p) (d : DBInv F L S p.binary p.trail.steps p.unsat)
    (ha : AnIdle an) (hm : MinIdle an.minimize) (hcb : CbInv env n cb) (hc : ConflictOK S p c)
    (hl : p.trail.decisionLevel ≠ 0)
    (e : Analysis.analyzeConflict env ctx an p c cb = .ok (ctx', an', p', cb')) :
    ∀ l ∈ an'.derivedClause, ∃ E ∈ F + L, l ∈ E := by
  obtain ⟨S', C, lvl, target, A⟩ := (analyzeConflict_spec (env := env) (ctx := ctx) h d ha hm hcb hc hl).ok_elim e
  obtain ⟨conf, xs, h1, _, _, _, h2, u, st, _, _, h3, _⟩ := analyzeConflict_act h d ha hm hcb hc hl e
  obtain ⟨conf', g1, g2, _, g4⟩ := h.conflict d hc
  cases h1.symm.trans g1
  obtain ⟨hon, _⟩ := A.asserting.on_trail
  intro l hlc
  obtain ⟨s, hs, es⟩ := hon l (A.clause ▸ hlc)
  -- a false literal of the same variable is the same literal
  have same : ∀ o : Lit, o.index = l.index → (∃ t ∈ p.trail.steps, t.lit = o.neg) → o = l := by
    intro o ho ⟨t, ht, et⟩
    rcases Lit.eq_or_eq_neg ho with e | e
    · exact e
    · refine absurd ?_ (h.trail.not_both ht hs)
      rw [et, es, e]
  rcases h3.src _ (h2 l hlc) with ⟨o, ho, eo⟩ | ⟨i, s', _, hs', _, s'', rs, hs'', hrs, o, ho, eo⟩
  · cases same o eo (g2 o ho)
    exact ⟨_, g4, by simpa using ho⟩
  · have : s'' = s' := Option.some.inj (hs''.symm.trans hs')
    subst this
    obtain ⟨rs', r1, r2, _⟩ := h.reason hs'
    cases hrs.symm.trans r1
    obtain ⟨j, t, _, ht, et⟩ := r2 o ho
    cases same o eo ⟨t, List.mem_of_getElem? ht, et⟩
    have hd : s''.reason ≠ .decision := by
      intro e
      rw [e] at hrs
      cases hrs
      simp at ho
    exact ⟨_, h.reason_db d hs' hd hrs, by simp [ho]⟩

/-- The learned unit and binary clauses are stored, and no learned clause is empty. -/
structure SmallKept (L : DB) (p : PropState) : Prop where
  nonempty : ∀ c ∈ L, c ≠ 0
  bin : ∀ a b : Lit, (a ::ₘ {b} : Multiset Lit) ∈ L → ∃ bs, p.binary[a.code]? = some bs ∧ b ∈ bs
  unit : ∀ a : Lit, ({a} : Multiset Lit) ∈ L → ∃ s ∈ p.trail.steps, s.lit = a ∧ s.level = 0

theorem SmallKept.keep {p' : PropState} {L' : DB} (h : SmallKept L p) (hL : ∀ c ∈ L', c ∈ L)
    (hb : p'.binary = p.binary)
    (hs : ∀ s ∈ p.trail.steps, s.level = 0 → ∃ s' ∈ p'.trail.steps, s'.lit = s.lit ∧ s'.level = 0) :
    SmallKept L' p' := by
  refine ⟨fun c hc => h.nonempty c (hL c hc), fun a b hc => by rw [hb]; exact h.bin a b (hL _ hc),
    fun a hc => ?_⟩
  obtain ⟨s, h1, h2, h3⟩ := h.unit a (hL _ hc)
  obtain ⟨s', k1, k2, k3⟩ := hs s h1 h3
  exact ⟨s', k1, k2.trans h2, k3⟩

theorem Phase.small {S2 : List LC} {p2 : PropState} {r : Option ConflictClause}
    (q : Phase n S p S2 p2 r) (h : SmallKept L p) : SmallKept L p2 := by
  refine h.keep (fun _ h => h) q.binary fun s hs h0 => ?_
  obtain ⟨ρ, new, e, _⟩ := q.steps
  refine ⟨s.ren ρ, ?_, rfl, h0⟩
  rw [e, List.mem_append]
  exact .inl (List.mem_map_of_mem hs)

/-- All known clauses with no literal twice have a literal that is not in the learned clause. -/
theorem Asserting.fresh_db {D : DB} {c : List Lit} {lvl : Nat} (h : Asserting D p.trail c lvl)
    (hp : PInv n S p) (d : DBInv F L S p.binary p.trail.steps p.unsat) (hk : SmallKept L p)
    (hu : p.unsat = false) {E : Multiset Lit} (hE : E ∈ F + L) (hn : E.Nodup) : ∃ l ∈ E, l ∉ c := by
  have hlong : ∀ e ∈ S, e.live = true → Stored p e.cl := fun e he hl =>
    .long (hp.rep.storedAt_iff.2 ⟨e, he, hl, rfl, rfl, rfl⟩)
  have hunit : ∀ a : Lit, E = {a} → (∃ s ∈ p.trail.steps, s.lit = a ∧ s.level = 0) →
      ∃ l ∈ E, l ∉ c := by
    rintro a rfl ⟨s, hs, rfl, _⟩
    refine ⟨s.lit, by simp, fun hc => ?_⟩
    obtain ⟨t, ht, e⟩ := h.on_trail.1 _ hc
    exact hp.trail.not_both hs ht (by rw [e, Lit.neg_neg])
  rcases Nat.lt_or_ge E.card 3 with hlt | hge
  · have : E.card = 0 ∨ E.card = 1 ∨ E.card = 2 := by omega
    rcases this with h0 | h1 | h2
    · rw [Multiset.card_eq_zero] at h0
      subst h0
      rcases Multiset.mem_add.1 hE with hE | hE
      · rw [d.fempty hE] at hu; cases hu
      · exact absurd rfl (hk.nonempty _ hE)
    · obtain ⟨a, rfl⟩ := Multiset.card_eq_one.1 h1
      refine hunit a rfl ?_
      rcases Multiset.mem_add.1 hE with hE | hE
      · rcases d.funit a hE with h' | h'
        · rw [h'] at hu; cases hu
        · exact h'
      · exact hk.unit a hE
    · obtain ⟨a, b, rfl⟩ := Multiset.card_eq_two.1 h2
      refine h.fresh hp (E := a ::ₘ {b}) ?_ hn
      rcases Multiset.mem_add.1 hE with hE | hE
      · obtain ⟨bs, k1, k2⟩ := d.fbin a b hE
        exact .binary k1 k2
      · obtain ⟨bs, k1, k2⟩ := hk.bin a b hE
        exact .binary k1 k2
  · refine h.fresh hp ?_ hn
    rcases Multiset.mem_add.1 hE with hE | hE
    · obtain ⟨e, he, hl, rfl⟩ := d.stored hE hge
      exact hlong e he hl
    · have : E ∈ liveRed S := by rw [d.red]; exact Multiset.mem_filter.2 ⟨hE, hge⟩
      obtain ⟨_, e, he, hl, rfl⟩ := card_of_live hp.long (.inr this)
      exact hlong e he hl

end

section
variable {env : Env} {F : List (List Lit)} {s s' : Solver}

/-- The invariant behind C59. -/
structure FreshInv (env : Env) (F : List (List Lit)) (L : DB) (S : List LC) (s : Solver) : Prop where
  inv : SInv env (formulaVars F) (toDB F) L S s.ctx s.search
  small : SmallKept L s.search.prop
  lits : ∀ c ∈ L, ∀ l ∈ c, ∃ d ∈ F, l ∈ d
  log : ∀ log, s.ctx.proof = some log → FreshLog F log

theorem FreshLog.deletes {log new : List ProofStep} (h : FreshLog F log) (hn : additions new = 0) :
    FreshLog F (log ++ new) := by
  intro pre post c e
  rw [List.append_eq_append_iff] at e
  rcases e with ⟨as, rfl, e⟩ | ⟨bs, rfl, e⟩
  · rw [e, additions_append] at hn
    simp [additions] at hn
  · cases bs with
    | nil =>
      simp only [List.nil_append] at e
      rw [← e] at hn
      simp [additions] at hn
    | cons x bs =>
      simp only [List.cons_append, List.cons.injEq] at e
      obtain ⟨rfl, rfl⟩ := e
      exact h pre bs c rfl

theorem FreshInv.restart {L : DB} {S : List LC} (h : FreshInv env F L S s) (hr : Solver.Reachable env F s)
    (e : s.maybeRestart = .ok s') : FreshInv env F L S s' := by
  obtain ⟨s1, e1, hi, hcase⟩ := maybeRestart_spec h.inv
  cases e.symm.trans e1
  rcases hcase with ⟨_, rfl⟩ | ⟨_, h2, _⟩
  · exact h
  obtain ⟨ctx', t, e2, _, hc, hl, _, hb⟩ := restart_spec h.inv
  rw [h2] at e2
  simp only [Except.ok.injEq, Prod.mk.injEq] at e2
  refine ⟨hi, ?_, h.lits, ?_⟩
  · rw [e2.2]
    rcases hb with ⟨_, rfl⟩ | ⟨target, ht, hb⟩
    · exact h.small
    · refine h.small.keep (fun _ h => h) hb.binary fun st hs h0 => ⟨st, ?_, rfl, h0⟩
      rw [hb.trail]
      simp only [Trail.cut]
      rw [(h.inv.prop.trail.take_eq_filter ht).1]
      exact List.mem_filter.2 ⟨hs, by simp [h0]⟩
  · rw [e2.1, hc]; exact h.log

theorem FreshInv.reduce {L : DB} {S : List LC} (h : FreshInv env F L S s)
    (e : s.maybeReduce env = .ok s') : ∃ L' S', FreshInv env F L' S' s' := by
  obtain ⟨s1, e1, _, hcase⟩ := maybeReduce_spec h.inv
  cases e.symm.trans e1
  rcases hcase with ⟨_, rfl⟩ | ⟨_, h2, _⟩
  · exact ⟨L, S, h⟩
  have hd := reduce_deletes h2
  obtain ⟨ctx', t, L', D, S', e2, hi, q, _⟩ := reduce_inv h.inv
  rw [h2] at e2
  simp only [Except.ok.injEq, Prod.mk.injEq] at e2
  obtain ⟨K, hK, _⟩ := q.del.split
  have hsub : ∀ c ∈ L', c ∈ L := fun c hc => by rw [hK]; exact Multiset.mem_add.2 (.inl hc)
  obtain ⟨a, ha⟩ := q.eq
  refine ⟨L', S', by rw [e2.1, e2.2]; exact hi, ?_, fun c hc => h.lits c (hsub c hc), ?_⟩
  · rw [e2.2, ha]
    exact h.small.keep hsub rfl fun st hs h0 => ⟨st, hs, rfl, h0⟩
  · intro log hl
    cases hp : s.ctx.proof with
    | none => rw [hd.1 hp] at hl; cases hl
    | some old =>
      obtain ⟨new, e1, e2⟩ := hd.2 old hp
      rw [e1] at hl
      cases hl
      exact (h.log old hp).deletes e2

theorem FreshInv.step {L : DB} {S : List LC} (h : FreshInv env F L S s) (hr : Solver.Reachable env F s)
    {ctx : Ctx} {search : Search} {r : Option Bool}
    (e : searchStep env s.ctx s.search = .ok (ctx, search, r)) :
    ∃ L' S', FreshInv env F L' S' ⟨ctx, search, s.schedule⟩ := by
  obtain ⟨L', S', hi', post⟩ := (searchStep_spec h.inv).ok_elim e
  suffices hx : SmallKept L' search.prop ∧ (∀ c ∈ L', ∀ l ∈ c, ∃ d ∈ F, l ∈ d) ∧
      ∀ log, ctx.proof = some log → FreshLog F log from ⟨L', S', hi', hx.1, hx.2.1, hx.2.2⟩
  cases post with
  | already => exact ⟨h.small, h.lits, h.log⟩
  | fail hu q h0 h1 h2 =>
    exact ⟨(q.small h.small).keep (fun _ h => h) rfl fun st hs h0 => ⟨st, hs, rfl, h0⟩, h.lits,
      by rw [h2]; exact h.log⟩
  | decide hu q hx hun hph pp h1 h2 =>
    refine ⟨(q.small h.small).keep (fun _ h => h) rfl fun st hs h0 => ⟨st, ?_, rfl, h0⟩, h.lits,
      by rw [h2]; exact h.log⟩
    simp [Trail.decide, Trail.push, hs]
  | sat hu q hall pp h1 h2 =>
    exact ⟨q.small h.small, h.lits, by rw [h2]; exact h.log⟩
  | @learn _ _ _ ctx1 _ _ _ C lvl target hu _ _ h1 h2 A =>
    have hcl := A.clause
    have hproof := A.proof
    have hsearch := A.search
    clear A
    cases searchStep_cases hr e with
    | @decide p1 p p' ctx1 x v l hp e1 e2 e3 =>
      exfalso
      rw [h1] at hsearch
      simp only [Ctx.decision, hp.search] at hsearch
      have := congrArg SearchStats.conflicts hsearch
      simp at this
    | @learn p1 p p' ctx2 ctx' c an cb hp h0 ea =>
    simp only at hcl
    subst hcl
    obtain ⟨⟨S2, q⟩, _⟩ := (phase_spec h.inv.prop s.ctx).ok_elim (a := (ctx2, p, some c))
      (bind_eq_ok.2 ⟨p1, hp.gc, hp.prop⟩)
    have hk := q.small h.small
    have d := q.db _ _ h.inv.db
    have hu' : p.unsat = false := q.unsat.trans hu
    have hlits : ∀ l ∈ an.derivedClause, ∃ d ∈ F, l ∈ d := by
      intro l hl
      obtain ⟨E, hE, hlE⟩ := analyzeConflict_lits q.inv d h.inv.an h.inv.min h.inv.cb
            (q.conflict c rfl) h0 ea l hl
      rcases Multiset.mem_add.1 hE with hE | hE
      · unfold toDB at hE
        obtain ⟨d, hd, rfl⟩ := List.mem_map.1 (Multiset.mem_coe.1 hE)
        exact ⟨d, hd, by simpa using hlE⟩
      · exact h.lits E hE l hlE
    obtain ⟨S3, C, lvl, target, A⟩ := (analyzeConflict_spec (env := env) q.inv q.inv.storedInv h.inv.an
      h.inv.min h.inv.cb (q.conflict c rfl) h0).ok_elim ea
    have hcl := A.clause
    subst hcl
    obtain ⟨hon, _⟩ := A.asserting.on_trail
    obtain ⟨a', rest, rr, hC, hrr, ht, hrl⟩ := A.trail
    have hne : an.derivedClause ≠ [] := by rw [hC]; simp
    simp only at h2 hproof ⊢
    refine ⟨⟨?_, ?_, ?_⟩, ?_, ?_⟩
    · intro E hE
      rcases Multiset.mem_cons.1 hE with rfl | hE
      · simpa using hne
      · exact hk.nonempty E hE
    · intro a b hE
      rcases Multiset.mem_cons.1 hE with hE | hE
      · have hlast : p'.trail.steps[(p.trail.steps.take target).length]? = some ⟨a', lvl, rr⟩ := by
          rw [ht]; simp [Trail.push, Trail.cut]
        have := A.inv.reason_db A.inv.storedInv hlast hrr hrl
        simp only [Multiset.cons_coe] at this
        rw [← hC, ← hE] at this
        rcases Multiset.mem_add.1 this with this | this
        · exact A.inv.storedInv.fbin a b this
        · have := (card_of_live A.inv.long (.inr this)).1
          simp at this
      · obtain ⟨bs, k1, k2⟩ := hk.bin a b hE
        refine A.db.fbin a b ?_
        rcases Multiset.mem_add.1 (q.inv.storedInv.bin a b bs k1 k2) with this | this
        · exact this
        · have := (card_of_live q.inv.long (.inr this)).1
          simp at this
    · intro a hE
      rw [ht]
      rcases Multiset.mem_cons.1 hE with hE | hE
      · have hC' : an.derivedClause = [a] := by
          have := hE.symm
          rwa [Multiset.coe_eq_singleton] at this
        have hsing := A.asserting.single (by rw [hC']; rfl)
        rw [hC'] at hC
        cases hC
        exact ⟨⟨a', lvl, rr⟩, by simp [Trail.push], rfl, hsing⟩
      · obtain ⟨st, k1, k2, k3⟩ := hk.unit a hE
        refine ⟨st, ?_, k2, k3⟩
        simp only [Trail.push, Trail.cut, List.mem_append]
        left
        rw [(q.inv.trail.take_eq_filter A.cutpos).1]
        exact List.mem_filter.2 ⟨k1, by simp [k3]⟩
    · intro E hE l hl
      rcases Multiset.mem_cons.1 hE with rfl | hE
      · exact hlits l (by simpa using hl)
      · exact h.lits E hE l hl
    · intro log hl
      rw [hproof] at hl
      unfold Ctx.logProof at hl
      simp only at hl
      rw [h2] at hl
      obtain ⟨old, e1, rfl⟩ := Option.map_eq_some_iff.1 hl
      have hold := h.log old e1
      obtain ⟨log', hacc, hl', _⟩ := h.inv.proof
      rw [e1] at hl'
      simp only [reduceCtorEq, Option.some.injEq, false_or] at hl'
      subst hl'
      have hbal := hacc.balance
      intro pre post c e
      rw [List.append_eq_append_iff] at e
      rcases e with ⟨as, rfl, e⟩ | ⟨bs, e', e⟩
      · cases as with
        | cons x as => simp at e
        | nil =>
          simp only [List.nil_append, List.cons.injEq, ProofStep.add.injEq] at e
          obtain ⟨rfl, _⟩ := e
          refine ⟨hne, A.asserting.nodup, ?_, hlits, ?_⟩
          · intro l hl hn
            obtain ⟨s1, k1, k2⟩ := hon l hl
            obtain ⟨s2, k3, k4⟩ := hon _ hn
            exact q.inv.trail.not_both k3 k1 (by rw [k2, k4])
          · intro D hD hn
            rw [List.append_nil, hbal, Multiset.add_sub_cancel_right] at hD
            exact A.asserting.fresh_db q.inv d hk hu' hD hn
      · cases bs with
        | nil =>
          simp only [List.nil_append, List.cons.injEq, ProofStep.add.injEq] at e
          obtain ⟨rfl, _⟩ := e
          rw [List.append_nil] at e'
          subst e'
          refine ⟨hne, A.asserting.nodup, ?_, hlits, ?_⟩
          · intro l hl hn
            obtain ⟨s1, k1, k2⟩ := hon l hl
            obtain ⟨s2, k3, k4⟩ := hon _ hn
            exact q.inv.trail.not_both k3 k1 (by rw [k2, k4])
          · intro D hD hn
            rw [hbal, Multiset.add_sub_cancel_right] at hD
            exact A.asserting.fresh_db q.inv d hk hu' hD hn
        | cons x bs =>
          simp only [List.cons_append, List.cons.injEq] at e
          obtain ⟨rfl, _⟩ := e
          exact hold pre bs c e'

/-- The invariant holds in every state of every run. -/
theorem Solver.Reachable.freshInv (h : Solver.Reachable env F s) : ∃ L S, FreshInv env F L S s := by
  induction h with
  | @input s h =>
    obtain ⟨S, hi⟩ := h.inv
    refine ⟨0, S, hi.sinv, ⟨by simp, by simp, by simp⟩, by simp, ?_⟩
    intro log e
    rcases hi.proof with e' | e'
    · rw [e'] at e; cases e
    · rw [e'] at e; cases e
      intro pre post c e
      simp at e
  | restart hr e ih =>
    obtain ⟨L, S, ih⟩ := ih
    exact ⟨L, S, ih.restart hr e⟩
  | reduce hr e ih =>
    obtain ⟨L, S, ih⟩ := ih
    exact ih.reduce e
  | step hr e ih =>
    obtain ⟨L, S, ih⟩ := ih
    exact ih.step hr e

/-- C59: every clause added to the proof in a run is new: it is not empty, has no literal twice and no literal
together with its negation, has literals of the formula only, and no known clause without repeated literals is
contained in it. -/
theorem C59_new (h : Solver.Reachable env F s) {log : List ProofStep} (hl : s.ctx.proof = some log) :
    FreshLog F log := by
  obtain ⟨L, S, hi⟩ := h.freshInv
  exact hi.log log hl

/-- C59, for each conflict: the learned clause contains none of the stored clauses that have no literal
twice. -/
theorem C59_conflict {p1 p p' : PropState} {ctx ctx1 ctx2 : Ctx} {c : ConflictClause} {an : Analysis}
    {cb' : Callbacks} (h : Solver.Propagating env F s p1 ctx p (some c)) (h0 : p.trail.decisionLevel ≠ 0)
    (e : Analysis.analyzeConflict env ctx1 s.search.analysis p c s.search.cb = .ok (ctx2, an, p', cb'))
    {D : Multiset Lit} (hD : Stored p D) (hn : D.Nodup) : ∃ l ∈ D, l ∉ an.derivedClause := by
  obtain ⟨S2, S', C, lvl, target, hi, A⟩ := h.analyze h0 e
  rw [A.clause]
  exact A.asserting.fresh hi hD hn

theorem FreshLog.prefix {log new : List ProofStep} (h : FreshLog F (log ++ new)) : FreshLog F log :=
  fun pre post c e => h pre (post ++ new) c (by rw [e]; simp)

/-- C59: the learned clauses that have not been deleted are different from each other, and different from the
clauses of the formula. -/
theorem C59_distinct (h : Solver.Reachable env F s) {log : List ProofStep} (hl : s.ctx.proof = some log) :
    (addedClauses log - deletedClauses log).Nodup ∧
      ∀ c ∈ addedClauses log - deletedClauses log, c ∉ toDB F := by
  have hf := C59_new h hl
  obtain ⟨L, S, hi⟩ := h.inv
  obtain ⟨log', hacc, hl', hx⟩ := hi.proof
  clear hx
  rw [hl] at hl'
  simp only [reduceCtorEq, Option.some.injEq, false_or] at hl'
  subst hl'
  rw [hacc.balance, Multiset.add_sub_cancel_right]
  clear hl hi h
  induction hacc with
  | nil => simp
  | @add log L c ha _ _ ih =>
    obtain ⟨h1, h2⟩ := ih hf.prefix
    obtain ⟨_, hn, _, _, hnew⟩ := hf log [] c rfl
    rw [ha.balance, Multiset.add_sub_cancel_right] at hnew
    have key : (c : Multiset Lit) ∉ toDB F + L := by
      intro hm
      obtain ⟨l, k1, k2⟩ := hnew _ hm (by simpa using hn)
      exact k2 (by simpa using k1)
    rw [Multiset.mem_add, not_or] at key
    refine ⟨Multiset.nodup_cons.2 ⟨key.2, h1⟩, ?_⟩
    intro d hd
    rcases Multiset.mem_cons.1 hd with rfl | hd
    · exact key.1
    · exact h2 d hd
  | @delete log L c _ _ ih =>
    obtain ⟨h1, h2⟩ := ih hf.prefix
    exact ⟨(Multiset.nodup_cons.1 h1).2, fun d hd => h2 d (Multiset.mem_cons_of_mem hd)⟩

/-- C59: in every state of every run the stored clauses have literals of the formula only. -/
theorem C59_literals (h : Solver.Reachable env F s) {D : Multiset Lit} (hD : Stored s.search.prop D) :
    ∀ l ∈ D, ∃ d ∈ F, l ∈ d := by
  obtain ⟨L, S, hi⟩ := h.freshInv
  have hm : D ∈ toDB F + L := by
    cases hD with
    | unit h1 h2 => exact hi.inv.db.unit _ h1 h2
    | binary h1 h2 => exact hi.inv.db.bin _ _ _ h1 h2
    | long h1 =>
      obtain ⟨e, he, hl, rfl, rfl, rfl⟩ := hi.inv.prop.rep.storedAt_iff.1 h1
      exact hi.inv.db.mem he hl
  intro l hl
  rcases Multiset.mem_add.1 hm with hm | hm
  · unfold toDB at hm
    obtain ⟨d, hd, rfl⟩ := List.mem_map.1 (Multiset.mem_coe.1 hm)
    exact ⟨d, hd, by simpa using hl⟩
  · exact hi.lits D hm l hl

end

/-- The hypotheses of C59 are met by a run with 14 additions and one deletion. -/
theorem C59_example : ∃ s log, Solver.Reachable Example.envReduce (Example.cnf (Example.php 5 4)) s ∧
    s.ctx.proof = some log ∧ log.length = 15 ∧ additions log = 14 := by
  have h : (Example.runReduce (Example.php 5 4) 33).map (fun x => x.1.ctx.proof.map fun log =>
      (log.length, additions log)) = .ok (some (15, 14)) := by decide +kernel
  obtain ⟨⟨s, r⟩, h1, h2⟩ := Example.of_map h
  obtain ⟨log, h3, h4⟩ := Option.map_eq_some_iff.1 h2
  simp only [Prod.mk.injEq] at h4
  exact ⟨s, log, Example.runReduce_reachable (by decide +kernel) h1, h3, h4⟩

/-- Clauses with repeated literals have to be left out: the formula `[[1, 1, 1]]` makes the solver learn
`[1]`. -/
theorem C59_repeated : ∃ s, Solver.Reachable Example.env (Example.cnf [[1, 1, 1]]) s ∧
    s.ctx.proof = some [.add [Example.lit 1]] := by
  have h : (Example.after [[1, 1, 1]] 100).map (fun s => s.ctx.proof) = .ok (some [.add [Example.lit 1]]) := by
    decide +kernel
  obtain ⟨s, h1, h2⟩ := Example.of_map h
  exact ⟨s, Example.after_reachable (by decide +kernel) h1, h2⟩

end Starlit
