import Verif.Props.Fresh

/-!
# C63: the proof checker and the solver have the same clauses

A checker that reads the proof file has, at any time, the clauses of the formula, and those that were added and not
deleted: `toDB F + (addedClauses log - deletedClauses log)`.  The theorems compare it with the data of the solver:
the arena (`C63_long`, with multiplicities), the lists of binary clauses (`C63_binary`, with multiplicities), and
the trail (`C63_unit`).  A solver that forgets to log a deletion, logs it too early, twice or for the wrong clause,
or drops a clause without logging it violates them; most of these bugs are not bugs of the proof, which stays
correct, and are not seen in C05.
-/

namespace Starlit

/-! ## Binary clauses -/

/-- The lists of binary clauses contain exactly the clauses with two literals of `D`: each is entered for both
of its literals. -/
def BinExact (D : DB) (B : List (List Lit)) : Prop :=
  ∀ (a b : Lit) (bs : List Lit), B[a.code]? = some bs →
    bs.count b = (if a = b then 2 else 1) * D.count (a ::ₘ {b})

theorem pair_eq_pair {a b x y : Lit} : (x ::ₘ {y} : Multiset Lit) = a ::ₘ {b} ↔ (x = a ∧ y = b) ∨ (x = b ∧ y = a) := by
  constructor
  · intro e
    have hx : x ∈ (a ::ₘ {b} : Multiset Lit) := by rw [← e]; simp
    rcases Multiset.mem_cons.1 hx with rfl | hx
    · left
      rw [Multiset.cons_inj_right] at e
      simpa using e
    · obtain rfl := Multiset.mem_singleton.1 hx
      right
      rw [show (a ::ₘ {x} : Multiset Lit) = x ::ₘ {a} from Multiset.cons_swap a x 0, Multiset.cons_inj_right] at e
      simpa using e
  · rintro (⟨rfl, rfl⟩ | ⟨rfl, rfl⟩)
    · rfl
    · exact Multiset.cons_swap x y 0

theorem binaryAdd_exact {D : DB} {B B' : List (List Lit)} {a b : Lit} (h : BinExact D B)
    (e : binaryAdd B a b = .ok B') : BinExact ((a ::ₘ {b}) ::ₘ D) B' := by
  unfold binaryAdd at e
  obtain ⟨la, e1, e⟩ := bind_eq_ok.1 e
  obtain ⟨B1, e2, e⟩ := bind_eq_ok.1 e
  obtain ⟨lb, e3, e⟩ := bind_eq_ok.1 e
  rw [idx_eq_ok] at e1 e3
  rw [upd_eq_ok] at e2 e
  obtain ⟨l2, rfl⟩ := e2
  obtain ⟨l4, rfl⟩ := e
  intro x y bs hbs
  rw [Multiset.count_cons]
  simp only [pair_eq_pair]
  have inj : ∀ {u v : Lit}, u.code = v.code ↔ u = v := Lit.code_inj
  rw [List.getElem?_set] at hbs e3
  split at hbs
  · next hbx =>
    obtain rfl := inj.1 hbx
    cases hbs
    rw [List.count_append, List.count_singleton]
    split at e3
    · next hab =>
      obtain rfl := inj.1 hab
      cases e3
      have := h a y la e1
      rw [List.count_append, List.count_singleton, this]
      by_cases hy : a = y
      · subst hy; simp; omega
      · have : y ≠ a := fun h => hy h.symm
        simp [hy, this]
    · next hab =>
      have hab : a ≠ b := fun h => hab (inj.2 h)
      have := h b y lb e3
      rw [this]
      by_cases hy : b = y
      · subst hy
        simp [hab, hab.symm]
      · by_cases hya : a = y
        · subst hya
          simp [hab, hab.symm]
        · have h1 : y ≠ a := fun h => hya h.symm
          simp [hy, hya, h1, hab.symm]
  · next hbx =>
    have hbx : b ≠ x := fun h => hbx (inj.2 h)
    rw [List.getElem?_set] at hbs
    split at hbs
    · next hax =>
      obtain rfl := inj.1 hax
      cases hbs
      have := h a y la e1
      rw [List.count_append, List.count_singleton, this]
      by_cases hy : y = b
      · subst hy
        simp [hbx, hbx.symm]
      · have : b ≠ y := fun h => hy h.symm
        simp [hy, this, hbx.symm]
    · next hax =>
      have hax : a ≠ x := fun h => hax (inj.2 h)
      have := h x y bs hbs
      rw [this]
      simp [hax.symm, hbx.symm]

/-- Only clauses with two literals matter. -/
theorem BinExact.congr {D D' : DB} {B : List (List Lit)} (h : BinExact D B)
    (e : ∀ a b : Lit, D'.count (a ::ₘ {b}) = D.count (a ::ₘ {b})) : BinExact D' B := by
  intro a b bs hb
  rw [e]
  exact h a b bs hb

theorem count_pair_cons {D : DB} {c : Multiset Lit} (hc : c.card ≠ 2) (a b : Lit) :
    (c ::ₘ D).count (a ::ₘ {b}) = D.count (a ::ₘ {b}) := by
  rw [Multiset.count_cons_of_ne]
  rintro rfl
  simp at hc

theorem assignUnit_binary {p p' : PropState} {s : Step} (e : p.assignUnit s = .ok p') : p'.binary = p.binary := by
  unfold PropState.assignUnit at e
  split at e
  · obtain ⟨_, _, e⟩ := bind_eq_ok.1 e
    obtain ⟨_, _, e⟩ := bind_eq_ok.1 e
    cases e; rfl
  · cases e

theorem addClauseVerbatim_exact {D : DB} {ctx ctx' : Ctx} {p p' : PropState} {hd : LongHeader} {c : List Lit}
    {ad : AddedClause} (h : BinExact D p.binary) (e : addClauseVerbatim ctx p hd c = .ok (ctx', p', ad)) :
    BinExact ((c : Multiset Lit) ::ₘ D) p'.binary := by
  match c, e with
  | [], e => cases e; exact h.congr (count_pair_cons (by simp))
  | [a], e =>
    simp only [addClauseVerbatim] at e
    obtain ⟨b, _, e⟩ := bind_eq_ok.1 e
    refine BinExact.congr (D := D) ?_ (count_pair_cons (by simp))
    split at e
    · cases e; exact h
    · obtain ⟨p1, e1, e⟩ := bind_eq_ok.1 e
      cases e
      rw [assignUnit_binary e1]; exact h
  | [a, b], e =>
    simp only [addClauseVerbatim] at e
    obtain ⟨bin, e1, e⟩ := bind_eq_ok.1 e
    cases e
    exact binaryAdd_exact h e1
  | a :: b :: x :: ls, e =>
    simp only [addClauseVerbatim] at e
    obtain ⟨r, _, e⟩ := bind_eq_ok.1 e
    refine BinExact.congr (D := D) ?_ (count_pair_cons (by simp))
    cases r with
    | none => cases e
    | some r =>
      obtain ⟨w, _, e⟩ := bind_eq_ok.1 e
      cases e
      exact h

theorem learnAndAssign_exact {D : DB} {ctx ctx' : Ctx} {an an' : Analysis} {p p' : PropState}
    (h : BinExact D p.binary) (e : Analysis.learnAndAssign ctx an p = .ok (ctx', an', p')) :
    BinExact ((an'.derivedClause : Multiset Lit) ::ₘ D) p'.binary := by
  rw [learnAndAssign_derived e]
  unfold Analysis.learnAndAssign at e
  obtain ⟨_, _, e⟩ := bind_eq_ok.1 e
  obtain ⟨⟨an1, hd⟩, e1, e⟩ := bind_eq_ok.1 e
  obtain ⟨⟨c1, p1, ad⟩, e2, e⟩ := bind_eq_ok.1 e
  have h1 : an1.derivedClause = an.derivedClause := by
    unfold Analysis.learnedHeader at e1
    split at e1
    · obtain ⟨_, _, e1⟩ := bind_eq_ok.1 e1
      cases e1; rfl
    · cases e1; rfl
  rw [← h1]
  have hx := addClauseVerbatim_exact h e2
  have hassign : ∀ {p' : PropState} {s : Step}, p1.assign s = .ok p' → p'.binary = p1.binary := by
    intro p' s e
    unfold PropState.assign at e
    obtain ⟨_, _, e⟩ := bind_eq_ok.1 e
    obtain ⟨_, _, e⟩ := bind_eq_ok.1 e
    exact assignUnit_binary e
  cases ad with
  | empty => cases e; exact hx
  | unit => cases e; exact hx
  | binary a b =>
    obtain ⟨_, _, e⟩ := bind_eq_ok.1 e
    obtain ⟨_, e3, e⟩ := bind_eq_ok.1 e
    cases e
    rw [hassign e3]; exact hx
  | long c =>
    obtain ⟨_, _, e⟩ := bind_eq_ok.1 e
    obtain ⟨_, e3, e⟩ := bind_eq_ok.1 e
    cases e
    rw [hassign e3]; exact hx

section
variable {env : Env} {n : Nat} {F L D : DB} {S : List LC} {p p' : PropState}

theorem analyzeConflict_exact {ctx ctx' : Ctx} {an an' : Analysis} {cb cb' : Callbacks}
    {c : ConflictClause} (h : PInv n S p) (d : DBInv F L S p.binary p.trail.steps p.unsat)
    (ha : AnIdle an) (hm : MinIdle an.minimize) (hcb : CbInv env n cb) (hc : ConflictOK S p c)
    (hl : p.trail.decisionLevel ≠ 0) (hx : BinExact D p.binary)
    (e : Analysis.analyzeConflict env ctx an p c cb = .ok (ctx', an', p', cb')) :
    BinExact ((an'.derivedClause : Multiset Lit) ::ₘ D) p'.binary := by
  unfold Analysis.analyzeConflict at e
  obtain ⟨_, _, e⟩ := bind_eq_ok.1 e
  obtain ⟨⟨an1, p1, cb1⟩, e1, e⟩ := bind_eq_ok.1 e
  obtain ⟨⟨an2, level⟩, e2, e⟩ := bind_eq_ok.1 e
  obtain ⟨⟨p2, cb2⟩, e3, e⟩ := bind_eq_ok.1 e
  obtain ⟨⟨ctx3, an3, p3⟩, e4, e⟩ := bind_eq_ok.1 e
  cases e
  obtain ⟨_, _, _, S1, e0, o1, k1, c1, m1, hu⟩ := derive1uip_spec h d ha hcb hc hl
  rw [e1] at e0
  simp only [Except.ok.injEq, Prod.mk.injEq] at e0
  obtain ⟨rfl, rfl, rfl⟩ := e0
  have hp1 : p1.trail = p.trail ∧ p1.binary = p.binary ∧ p1.unsat = p.unsat := by
    obtain ⟨a, rfl⟩ := o1.eq; exact ⟨rfl, rfl, rfl⟩
  obtain ⟨m', c', lvl', e5, _, has, _, _⟩ := minimizeDerived_spec (F := F) (L := L) o1.inv
    (by rw [hp1.1, hp1.2.1, hp1.2.2]; exact d.sim o1.sim) (m1 ▸ hm) (hp1.1 ▸ hu) (hp1.1 ▸ hl)
  rw [e2] at e5
  simp only [Except.ok.injEq, Prod.mk.injEq] at e5
  obtain ⟨rfl, rfl⟩ := e5
  obtain ⟨target, p4, cb4, _, e6, hb⟩ := backtrack_spec o1.inv
    (cb := { cb1 with vsids := cb1.vsids.doDecay env }) (doDecay_spec k1.inv).inv has.lt
  rw [e3] at e6
  simp only [Except.ok.injEq, Prod.mk.injEq] at e6
  obtain ⟨rfl, rfl⟩ := e6
  exact learnAndAssign_exact (by rw [hb.binary, hp1.2.1]; exact hx) e4

end

/-! ## Runs -/

section
variable {env : Env} {F : List (List Lit)} {s s' : Solver}

theorem Solver.Input.binExact (h : Solver.Input env F s) : BinExact (toDB F) s.search.prop.binary := by
  induction h with
  | new => intro a b bs hb; simp [Solver.default, PropState.default] at hb
  | proof _ ih => exact ih
  | @add F s s' c hin hc e ih =>
    obtain ⟨S, hi⟩ := hin.inv
    have e2 : toDB (F ++ [c]) = (c : Multiset Lit) ::ₘ toDB F := by
      unfold toDB
      rw [List.map_append, List.map_singleton]
      exact Multiset.coe_eq_coe.2 List.perm_append_comm
    rw [e2]
    unfold Solver.addClause at e
    obtain ⟨s1, e1, e⟩ := bind_eq_ok.1 e
    obtain ⟨⟨ctx, p, ad⟩, e3, e⟩ := bind_eq_ok.1 e
    cases e
    refine addClauseVerbatim_exact ?_ e3
    unfold Solver.ensureVars at e1
    split at e1
    · unfold Solver.resize at e1
      obtain ⟨act, _, e1⟩ := bind_eq_ok.1 e1
      cases e1
      intro a b bs hb
      simp only [PropState.resize] at hb
      rcases resizeList_inv hb with hb | ⟨hlen, rfl⟩
      · exact ih a b bs hb
      · have : (a ::ₘ {b} : Multiset Lit) ∉ toDB F := by
          intro hm
          obtain ⟨bs, h1, _⟩ := hi.db.fbin a b hm
          have := (List.getElem?_eq_some_iff.1 h1).1
          omega
        rw [Multiset.count_eq_zero_of_notMem this]
        simp
    · cases e1; exact ih

/-- The invariant behind C63. -/
structure SyncInv (env : Env) (F : List (List Lit)) (L : DB) (S : List LC) (s : Solver) : Prop where
  inv : SInv env (formulaVars F) (toDB F) L S s.ctx s.search
  bin : BinExact (toDB F + L) s.search.prop.binary

theorem Solver.Reachable.syncInv (h : Solver.Reachable env F s) : ∃ L S, SyncInv env F L S s := by
  induction h with
  | input h =>
    obtain ⟨S, hi⟩ := h.inv
    exact ⟨0, S, hi.sinv, by rw [add_zero]; exact h.binExact⟩
  | @restart s s' hr e ih =>
    obtain ⟨L, S, ih⟩ := ih
    refine ⟨L, S, ?_⟩
    obtain ⟨s1, e1, hi, hcase⟩ := maybeRestart_spec ih.inv
    cases e.symm.trans e1
    rcases hcase with ⟨_, rfl⟩ | ⟨_, h2, _⟩
    · exact ih
    obtain ⟨ctx', t, e2, _, hc, hl, _, hb⟩ := restart_spec ih.inv
    rw [h2] at e2
    simp only [Except.ok.injEq, Prod.mk.injEq] at e2
    refine ⟨hi, ?_⟩
    rw [e2.2]
    rcases hb with ⟨_, rfl⟩ | ⟨target, ht, hb⟩
    · exact ih.bin
    · rw [hb.binary]; exact ih.bin
  | @reduce s s' hr e ih =>
    obtain ⟨L, S, ih⟩ := ih
    obtain ⟨s1, e1, _, hcase⟩ := maybeReduce_spec ih.inv
    cases e.symm.trans e1
    rcases hcase with ⟨_, rfl⟩ | ⟨_, h2, _⟩
    · exact ⟨L, S, ih⟩
    obtain ⟨ctx', t, L', D, S', e2, hi, q, _⟩ := reduce_inv ih.inv
    rw [h2] at e2
    simp only [Except.ok.injEq, Prod.mk.injEq] at e2
    obtain ⟨K, hK, hK3⟩ := q.del.split
    obtain ⟨a, ha⟩ := q.eq
    refine ⟨L', S', by rw [e2.1, e2.2]; exact hi, ?_⟩
    rw [e2.2, ha]
    refine BinExact.congr ih.bin ?_
    intro a b
    rw [hK, Multiset.count_add, Multiset.count_add, Multiset.count_add,
      Multiset.count_eq_zero_of_notMem (s := K), add_zero]
    intro hm
    have := hK3 _ hm
    simp at this
  | @step s ctx search r hr e ih =>
    obtain ⟨L, S, ih⟩ := ih
    obtain ⟨L', S', hi', post⟩ := (searchStep_spec ih.inv).ok_elim e
    refine ⟨L', S', hi', ?_⟩
    simp only
    cases post with
    | already => exact ih.bin
    | fail hu q h0 h1 h2 => simp only; rw [q.binary]; exact ih.bin
    | decide hu q hx hun hph pp h1 h2 => simp only; rw [q.binary]; exact ih.bin
    | sat hu q hall pp h1 h2 => simp only; rw [q.binary]; exact ih.bin
    | @learn _ _ _ ctx1 _ _ _ C lvl target hu _ _ h1 h2 A =>
      have hcl := A.clause
      have hsearch := A.search
      clear A
      cases searchStep_cases hr e with
      | @decide p1 p p' ctx1 x v l hp e1 e2 e3 =>
        exfalso
        rw [h1] at hsearch
        simp only [Ctx.decision, hp.search] at hsearch
        have := congrArg SearchStats.conflicts hsearch
        simp at this
      | @learn p1 p p' ctx2 ctx' c an cb hp h0 ea =>
        simp only at hcl ⊢
        subst hcl
        obtain ⟨⟨S2, q⟩, _⟩ := (phase_spec ih.inv.prop s.ctx).ok_elim (a := (ctx2, p, some c))
          (bind_eq_ok.2 ⟨p1, hp.gc, hp.prop⟩)
        have := analyzeConflict_exact q.inv (q.db _ _ ih.inv.db) ih.inv.an ih.inv.min ih.inv.cb
          (q.conflict c rfl) h0 (D := toDB F + L) (by rw [q.binary]; exact ih.bin) ea
        rwa [Multiset.add_cons]

theorem learned_of_log {L : DB} {S : List LC} (h : SInv env (formulaVars F) (toDB F) L S s.ctx s.search)
    {log : List ProofStep} (hl : s.ctx.proof = some log) : addedClauses log - deletedClauses log = L := by
  obtain ⟨log', hacc, hl', _⟩ := h.proof
  rw [hl] at hl'
  simp only [reduceCtorEq, Option.some.injEq, false_or] at hl'
  subst hl'
  rw [hacc.balance, Multiset.add_sub_cancel_right]

/-- C63, long clauses: in every state of every run, a clause with at least three literals is stored in the
arena, as clause of the formula and as learned clause, exactly as often as it is in the formula, and was added to
the proof and not deleted. -/
theorem C63_long (h : Solver.Reachable env F s) {log : List ProofStep} (hl : s.ctx.proof = some log)
    {c : Multiset Lit} (hc : 3 ≤ c.card) : ∃ irr red : List Nat, irr.Nodup ∧ red.Nodup ∧
      (∀ r, r ∈ irr ↔ ∃ hd ls, StoredAt s.search.prop r hd ls ∧ hd.redundant = false ∧ (ls : Multiset Lit) = c) ∧
      (∀ r, r ∈ red ↔ ∃ hd ls, StoredAt s.search.prop r hd ls ∧ hd.redundant = true ∧ (ls : Multiset Lit) = c) ∧
      irr.length = (toDB F).count c ∧ red.length = (addedClauses log - deletedClauses log).count c := by
  obtain ⟨L, S, hi⟩ := h.inv
  rw [learned_of_log hi hl]
  have hrep := hi.prop.rep
  have key : ∀ (b : Bool), ∃ rs : List Nat, rs.Nodup ∧
      (∀ r, r ∈ rs ↔ ∃ hd ls, StoredAt s.search.prop r hd ls ∧ hd.redundant = b ∧ (ls : Multiset Lit) = c) ∧
      rs.length = (Multiset.ofList ((S.filter (fun e => e.live && (e.hdr.redundant == b))).map LC.cl)).count c := by
    intro b
    refine ⟨((S.filter (fun e => e.live && (e.hdr.redundant == b))).filter (fun e => e.cl = c)).map LC.ref, ?_, ?_, ?_⟩
    · exact hrep.nodup.sublist ((List.filter_sublist.trans List.filter_sublist).map _)
    · intro r
      simp only [List.mem_map, List.mem_filter, Bool.and_eq_true, beq_iff_eq, decide_eq_true_eq]
      constructor
      · rintro ⟨e, ⟨⟨he, h1, h2⟩, h3⟩, rfl⟩
        exact ⟨e.hdr, e.lits, hrep.storedAt_iff.2 ⟨e, he, h1, rfl, rfl, rfl⟩, h2, h3⟩
      · rintro ⟨hd, ls, h1, h2, h3⟩
        obtain ⟨e, he, h4, rfl, rfl, rfl⟩ := hrep.storedAt_iff.1 h1
        exact ⟨e, ⟨⟨he, h4, h2⟩, h3⟩, rfl⟩
    · rw [List.length_map, Multiset.coe_count, List.count, List.countP_map, List.countP_eq_length_filter]
      rfl
  obtain ⟨irr, a1, a2, a3⟩ := key false
  obtain ⟨red, b1, b2, b3⟩ := key true
  refine ⟨irr, red, a1, b1, a2, b2, ?_, ?_⟩
  · have : liveIrr S = Multiset.ofList ((S.filter (fun e => e.live && (e.hdr.redundant == false))).map LC.cl) := by
      unfold liveIrr
      congr 3
      funext e
      cases e.hdr.redundant <;> rfl
    rw [a3, ← this, hi.db.irr, Multiset.count_filter_of_pos (p := fun c : Multiset Lit => 3 ≤ c.card) hc]
  · have : liveRed S = Multiset.ofList ((S.filter (fun e => e.live && (e.hdr.redundant == true))).map LC.cl) := by
      unfold liveRed
      congr 3
      funext e
      cases e.hdr.redundant <;> rfl
    rw [b3, ← this, hi.db.red, Multiset.count_filter_of_pos (p := fun c : Multiset Lit => 3 ≤ c.card) hc]

/-- C63, binary clauses: the lists contain each clause of two literals exactly as often as it is in the formula or
was added to the proof; it is listed for both literals. -/
theorem C63_binary (h : Solver.Reachable env F s) {log : List ProofStep} (hl : s.ctx.proof = some log)
    {a b : Lit} (ha : a.index < formulaVars F) : ∃ bs, s.search.prop.binary[a.code]? = some bs ∧
      bs.count b = (if a = b then 2 else 1) *
        (toDB F + (addedClauses log - deletedClauses log)).count (a ::ₘ {b}) := by
  obtain ⟨L, S, hi⟩ := h.syncInv
  rw [learned_of_log hi.inv hl]
  have hlen : a.code < s.search.prop.binary.length := by
    rw [hi.inv.prop.sized.bin]; exact Lit.code_lt_of_index_lt ha
  exact ⟨_, List.getElem?_eq_getElem hlen, hi.bin a b _ (List.getElem?_eq_getElem hlen)⟩

/-- C63, unit clauses: as long as the formula is not known to be unsatisfiable, the literal of every unit clause of
the formula or the proof is assigned at the top level; an assignment with reason `UnitClause` is such a clause. -/
theorem C63_unit (h : Solver.Reachable env F s) {log : List ProofStep} (hl : s.ctx.proof = some log) :
    (s.search.prop.unsat = false → ∀ a : Lit, {a} ∈ toDB F + (addedClauses log - deletedClauses log) →
      ∃ st ∈ s.search.prop.trail.steps, st.lit = a ∧ st.level = 0) ∧
    ∀ st ∈ s.search.prop.trail.steps, st.reason = .unit →
      {st.lit} ∈ toDB F + (addedClauses log - deletedClauses log) := by
  obtain ⟨L, S, hi⟩ := h.freshInv
  rw [learned_of_log hi.inv hl]
  refine ⟨?_, hi.inv.db.unit⟩
  intro hu a hm
  rcases Multiset.mem_add.1 hm with hm | hm
  · rcases hi.inv.db.funit a hm with h | h
    · rw [hu] at h; cases h
    · exact h
  · exact hi.small.unit a hm

/-- C63, summary: a clause with at least two literals is stored if and only if the proof checker has it. -/
theorem C63_same (h : Solver.Reachable env F s) {log : List ProofStep} (hl : s.ctx.proof = some log)
    {c : Multiset Lit} (hc : 2 ≤ c.card) :
    Stored s.search.prop c ↔ c ∈ toDB F + (addedClauses log - deletedClauses log) := by
  obtain ⟨L, S, hi⟩ := h.freshInv
  rw [learned_of_log hi.inv hl]
  constructor
  · intro hD
    cases hD with
    | unit h1 h2 => exact hi.inv.db.unit _ h1 h2
    | binary h1 h2 => exact hi.inv.db.bin _ _ _ h1 h2
    | long h1 =>
      obtain ⟨e, he, hl, rfl, rfl, rfl⟩ := hi.inv.prop.rep.storedAt_iff.1 h1
      exact hi.inv.db.mem he hl
  · intro hm
    rcases Nat.lt_or_ge c.card 3 with hlt | hge
    · obtain ⟨a, b, rfl⟩ := Multiset.card_eq_two.1 (show c.card = 2 by omega)
      rcases Multiset.mem_add.1 hm with hm | hm
      · obtain ⟨bs, k1, k2⟩ := hi.inv.db.fbin a b hm
        exact .binary k1 k2
      · obtain ⟨bs, k1, k2⟩ := hi.small.bin a b hm
        exact .binary k1 k2
    · have hlong : ∀ e ∈ S, e.live = true → Stored s.search.prop e.cl := fun e he hl =>
        .long (hi.inv.prop.rep.storedAt_iff.2 ⟨e, he, hl, rfl, rfl, rfl⟩)
      rcases Multiset.mem_add.1 hm with hm | hm
      · obtain ⟨e, he, hl, rfl⟩ := hi.inv.db.stored hm hge
        exact hlong e he hl
      · have : c ∈ liveRed S := by rw [hi.inv.db.red]; exact Multiset.mem_filter.2 ⟨hm, hge⟩
        obtain ⟨_, e, he, hl, rfl⟩ := card_of_live hi.inv.prop.long (.inr this)
        exact hlong e he hl

end

/-- The hypotheses of C63 are met by a run with 14 additions and one deletion; a learned binary clause is in the
lists once, and the clause that was deleted is no longer there for the checker. -/
theorem C63_example : ∃ s log, Solver.Reachable Example.envReduce (Example.cnf (Example.php 5 4)) s ∧
    s.ctx.proof = some log ∧ log.length = 15 ∧ additions log = 14 ∧
    (∃ c, ProofStep.delete c ∈ log) ∧ ∃ a b, ProofStep.add [a, b] ∈ log := by
  have h : (Example.runReduce (Example.php 5 4) 33).map (fun x => x.1.ctx.proof.map fun log =>
      (log.length, additions log, log.any fun | .delete _ => true | _ => false,
        log.any fun | .add [_, _] => true | _ => false)) = .ok (some (15, 14, true, true)) := by decide +kernel
  obtain ⟨⟨s, r⟩, h1, h2⟩ := Example.of_map h
  obtain ⟨log, h3, h4⟩ := Option.map_eq_some_iff.1 h2
  simp only [Prod.mk.injEq, List.any_eq_true] at h4
  obtain ⟨h5, h6, ⟨x, h7, h8⟩, y, h9, h10⟩ := h4
  refine ⟨s, log, Example.runReduce_reachable (by decide +kernel) h1, h3, h5, h6, ?_, ?_⟩
  · match x, h8 with
    | .delete c, _ => exact ⟨c, h7⟩
  · match y, h10 with
    | .add [a, b], _ => exact ⟨a, b, h9⟩

end Starlit
