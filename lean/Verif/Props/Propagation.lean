import Verif.Solver.ExampleRun

/-!
# C07, C08, C09: unit propagation
-/

namespace Starlit

/-! ## Lemmas -/

theorem freeCount_le_snoc {n : Nat} (steps : List Step) (s : Step) :
    freeCount n steps ≤ freeCount n (steps ++ [s]) + 1 := by
  by_cases hl : s.lit.index < n
  · by_cases hs : ∀ x ∈ steps, x.lit.index ≠ s.lit.index
    · exact Nat.le_of_eq (freeCount_snoc hl hs).symm
    · have : freeCount n (steps ++ [s]) = freeCount n steps := by
        unfold freeCount
        congr 2
        funext i
        simp only [List.all_append, List.all_cons, List.all_nil, Bool.and_true]
        cases hx : steps.all (fun s => s.lit.index != i) with
        | false => rfl
        | true =>
          simp only [Bool.true_and]
          rw [List.all_eq_true] at hx
          simp only [ne_eq, not_forall, not_not] at hs
          obtain ⟨x, h1, h2⟩ := hs
          have := hx x h1
          rw [h2] at this; exact this
      omega
  · have : freeCount n (steps ++ [s]) = freeCount n steps := by
      unfold freeCount
      congr 1
      apply List.filter_congr
      intro i hi
      have hi := List.mem_range.1 hi
      have : (s.lit.index != i) = true := by simp; omega
      simp [List.all_append, this]
    omega

theorem freeCount_le_append {n : Nat} (new : List Step) : ∀ steps : List Step,
    freeCount n steps ≤ freeCount n (steps ++ new) + new.length := by
  induction new with
  | nil => intro steps; simp
  | cons s new ih =>
    intro steps
    have h1 := freeCount_le_snoc (n := n) steps s
    have h2 := ih (steps ++ [s])
    simp only [List.append_assoc, List.singleton_append] at h2
    simp only [List.length_cons]
    omega

/-- If every new step takes away a free variable, the variables are new. -/
theorem fresh_of_freeCount {n : Nat} (new : List Step) : ∀ (steps : List Step),
    freeCount n (steps ++ new) + new.length = freeCount n steps →
    ∀ (i : Nat) (s : Step), new[i]? = some s →
      ∀ x ∈ steps ++ new.take i, x.lit.index ≠ s.lit.index := by
  induction new with
  | nil => intro steps _ i s hs; simp at hs
  | cons t new ih =>
    intro steps h i s hs x hx
    have h2 := freeCount_le_append (n := n) new (steps ++ [t])
    have h1 := freeCount_le_snoc (n := n) steps t
    simp only [List.append_assoc, List.singleton_append] at h2
    simp only [List.length_cons] at h
    cases i with
    | zero =>
      simp only [List.getElem?_cons_zero, Option.some.injEq] at hs
      subst hs
      simp only [List.take_zero, List.append_nil] at hx
      intro he
      have : freeCount n (steps ++ [t]) = freeCount n steps := by
        unfold freeCount
        congr 2
        funext i
        simp only [List.all_append, List.all_cons, List.all_nil, Bool.and_true]
        cases hy : steps.all (fun s => s.lit.index != i) with
        | false => rfl
        | true =>
          simp only [Bool.true_and]
          rw [List.all_eq_true] at hy
          have := hy x hx
          rw [he] at this; exact this
      omega
    | succ i =>
      simp only [List.getElem?_cons_succ] at hs
      refine ih (steps ++ [t]) ?_ i s hs x ?_
      · simp only [List.append_assoc, List.singleton_append]; omega
      · simpa using hx

theorem PInv.value {n : Nat} {S : List LC} {p : PropState} (h : PInv n S p) {l : Lit}
    (hl : l.index < n) : p.values.value l = .ok (p.values.val l) :=
  PartialAssignment.value_eq (by rw [h.sized.values]; exact hl)

/-- All literals of stored clauses are known. -/
theorem PInv.stored_idx {n : Nat} {S : List LC} {p : PropState} (h : PInv n S p) {c : Multiset Lit}
    (hc : Stored p c) : ∀ l ∈ c, l.index < n := by
  cases hc with
  | unit h1 h2 =>
    intro l hl
    rw [Multiset.mem_singleton.1 hl]
    exact h.trail.idx_lt _ h1
  | @binary a b bs h1 h2 =>
    intro l hl
    have hn := (List.getElem?_eq_some_iff.1 h1).1
    rw [h.sized.bin] at hn
    rcases Multiset.mem_cons.1 hl with rfl | hl
    · exact Lit.index_lt_of_code_lt hn
    · rw [Multiset.mem_singleton.1 hl]
      exact h.bs.idx _ _ h1 _ h2
  | long h1 =>
    obtain ⟨e, he, _, _, _, rfl⟩ := h.rep.storedAt_iff.1 h1
    exact fun l hl => h.long.idx e he l hl

section
variable {env : Env} {F : List (List Lit)} {s : Solver} {p1 p : PropState} {ctx : Ctx}
  {r : Option ConflictClause}

/-- The invariants in the middle of a step. -/
theorem Solver.Propagating.inv (h : Solver.Propagating env F s p1 ctx p r) :
    ∃ L S1, PInv (formulaVars F) S1 p1 ∧ DBInv (toDB F) L S1 p1.binary p1.trail.steps p1.unsat ∧
      PropagatePost (formulaVars F) S1 p1 p r := by
  obtain ⟨L, S, hi⟩ := h.reach.inv
  rcases (collectGarbage_spec hi.prop).ok_elim h.gc with rfl | ⟨ρ, hg⟩
  · exact ⟨L, S, hi.prop, hi.db, ((propagate_spec s.ctx hi.prop).ok_elim h.prop).1⟩
  · exact ⟨L, _, hg.inv, hg.db hi.db, ((propagate_spec s.ctx hg.inv).ok_elim h.prop).1⟩

theorem PropagatePost.stored {n : Nat} {S1 : List LC} (h1 : PInv n S1 p1)
    (h : PropagatePost n S1 p1 p r) (c : Multiset Lit) : Stored p c ↔ Stored p1 c := by
  obtain ⟨hx, S', hs, hi, _, _⟩ := h
  obtain ⟨new, e, hn⟩ := hx.steps
  constructor
  · intro hc
    cases hc with
    | @unit st h2 h3 =>
      rw [e, List.mem_append] at h2
      rcases h2 with h2 | h2
      · exact .unit h2 h3
      · exact absurd h3 (hn st h2).2.1
    | binary h2 h3 => rw [hx.binary] at h2; exact .binary h2 h3
    | long h2 =>
      obtain ⟨e', he', hl, _, _, rfl⟩ := hi.rep.storedAt_iff.1 h2
      obtain ⟨e0, he0, sim⟩ := hs.mem he'
      have : (e'.lits : Multiset Lit) = (e0.lits : Multiset Lit) := sim.cl
      rw [this]
      exact .long (h1.rep.storedAt_iff.2 ⟨e0, he0, by rw [← sim.live]; exact hl, rfl, rfl, rfl⟩)
  · intro hc
    cases hc with
    | @unit st h2 h3 => exact .unit (by rw [e]; simp [h2]) h3
    | binary h2 h3 => rw [← hx.binary] at h2; exact .binary h2 h3
    | long h2 =>
      obtain ⟨e0, he0, hl, _, _, rfl⟩ := h1.rep.storedAt_iff.1 h2
      obtain ⟨e', he', sim⟩ := hs.symm_mem he0
      have : (e0.lits : Multiset Lit) = (e'.lits : Multiset Lit) := sim.cl.symm
      rw [this]
      exact .long (hi.rep.storedAt_iff.2 ⟨e', he', by rw [sim.live]; exact hl, rfl, rfl, rfl⟩)

/-! ## C07 -/

/-- C07: `propagate()` keeps the stored clauses and appends steps to the trail.  Each new step has the
current level, its variable was unassigned, and its reason is a stored clause that contains the literal
and whose other literals are false earlier on the trail. -/
theorem C07_reasons (h : Solver.Propagating env F s p1 ctx p r) :
    (∀ c, Stored p c ↔ Stored p1 c) ∧ ∃ new, p.trail.steps = p1.trail.steps ++ new ∧
      ∀ (i : Nat) (st : Step), new[i]? = some st →
        st.level = p1.trail.decisionLevel ∧
        p1.values.value st.lit = .ok none ∧
        (∀ t ∈ p1.trail.steps ++ new.take i, t.lit.index ≠ st.lit.index) ∧
        st.reason ≠ .decision ∧ ∃ rest, p.reasonLits st.reason = .ok rest ∧
          Stored p (st.lit ::ₘ (rest : Multiset Lit)) ∧
          ∀ o ∈ rest, ∃ t ∈ p1.trail.steps ++ new.take i, t.lit = o.neg := by
  obtain ⟨L, S1, hi1, _, hp⟩ := h.inv
  refine ⟨hp.stored hi1, ?_⟩
  obtain ⟨hx, S', hs, hi, _, _⟩ := hp
  obtain ⟨new, e, hn⟩ := hx.steps
  refine ⟨new, e, ?_⟩
  intro i st hst
  have hmem : st ∈ new := List.mem_iff_getElem?.2 ⟨i, hst⟩
  have hfresh := fresh_of_freeCount (n := formulaVars F) new p1.trail.steps (by
    have := hx.free
    rw [e, List.length_append] at this; omega) i st hst
  have hpos : p.trail.steps[p1.trail.steps.length + i]? = some st := by
    rw [e, List.getElem?_append_right (by omega)]
    simpa using hst
  have hidx := hi.trail.idx_lt st (List.mem_iff_getElem?.2 ⟨_, hpos⟩)
  refine ⟨(hn st hmem).1, ?_, hfresh, (hn st hmem).2.2, ?_⟩
  · rw [hi1.value hidx]
    have h1 : p1.values.val st.lit ≠ some true := by
      intro hv
      obtain ⟨t, ht, e'⟩ := (hi1.trail.val_iff _).1 hv
      exact hfresh t (by simp [ht]) (by rw [e'])
    have h2 : p1.values.val st.lit ≠ some false := by
      intro hv
      obtain ⟨t, ht, e'⟩ := (hi1.trail.val_false_iff _).1 hv
      exact hfresh t (by simp [ht]) (by rw [e']; simp)
    cases hv : p1.values.val st.lit with
    | none => rfl
    | some b => cases b <;> simp_all
  · obtain ⟨rs, h1, h2, _⟩ := hi.reason hpos
    refine ⟨rs, h1, hi.stored_of_mem (hi.reason_db hi.storedInv hpos (hn st hmem).2.2 h1), ?_⟩
    intro o ho
    obtain ⟨j, t, hj, ht, e'⟩ := h2 o ho
    refine ⟨t, ?_, e'⟩
    rw [e] at ht
    have : (p1.trail.steps ++ new).take (p1.trail.steps.length + i) = p1.trail.steps ++ new.take i := by
      rw [List.take_length_add_append]
    rw [← this]
    exact mem_take_iff.2 ⟨j, hj, ht⟩

/-- C07: each new literal follows by unit propagation from stored clauses and the literals that were
already on the trail. -/
theorem C07_implied (h : Solver.Propagating env F s p1 ctx p r) :
    ∃ D : DB, (∀ c ∈ D, Stored p1 c) ∧ ∀ st ∈ p.trail.steps,
      Implied D (fun l => ∃ t ∈ p1.trail.steps, t.lit = l) st.lit := by
  obtain ⟨L, S1, hi1, _, hp⟩ := h.inv
  have hst := hp.stored hi1
  obtain ⟨new, e, hn⟩ := hp.1.steps
  obtain ⟨hx, S', hs, hi, _, _⟩ := hp
  refine ⟨storedBase S' p + liveRed S', fun c hc => (hst c).1 (hi.stored_of_mem hc), ?_⟩
  have key : ∀ (i : Nat) (st : Step), p.trail.steps[i]? = some st →
      Implied (storedBase S' p + liveRed S') (fun l => ∃ t ∈ p1.trail.steps, t.lit = l) st.lit := by
    intro i
    induction i using Nat.strongRecOn with
    | ind i ih =>
      intro st hs
      by_cases hlt : i < p1.trail.steps.length
      · rw [e, List.getElem?_append_left hlt] at hs
        exact .asm ⟨st, List.mem_iff_getElem?.2 ⟨i, hs⟩, rfl⟩
      · have hm : st ∈ new := by
          rw [e, List.getElem?_append_right (by omega)] at hs
          exact List.mem_iff_getElem?.2 ⟨_, hs⟩
        obtain ⟨rs, h1, h2, _⟩ := hi.reason hs
        refine hi.implied_step hi.storedInv hs (hn st hm).2.2 h1 ?_
        intro o ho
        obtain ⟨j, t, hj, ht, e'⟩ := h2 o ho
        rw [← e']
        exact ih j hj t ht
  intro st hs
  obtain ⟨i, hi'⟩ := List.mem_iff_getElem?.1 hs
  exact key i st hi'

/-- The hypotheses of C07 are met by a propagation that assigns three literals. -/
theorem C07_example : ∃ s p1 ctx p r, Solver.Propagating Example.env (Example.cnf (Example.php 4 3))
    s p1 ctx p r ∧ p1.trail.steps.map Step.lit = [-1, -12, -11].map Example.lit ∧
    p.trail.steps.map Step.lit = [-1, -12, -11, 10, -4, -7].map Example.lit := by
  have h : (Example.mid (Example.php 4 3) 3).map (fun x =>
      (x.2.1.trail.steps.map Step.lit, x.2.2.2.1.trail.steps.map Step.lit)) =
      .ok ([-1, -12, -11].map Example.lit, [-1, -12, -11, 10, -4, -7].map Example.lit) := by
    decide +kernel
  obtain ⟨⟨s, p1, ctx, p, r⟩, h1, h2⟩ := Example.of_map h
  rw [Prod.mk.injEq] at h2
  exact ⟨s, p1, ctx, p, r, Example.mid_propagating (by decide +kernel) h1, h2.1, h2.2⟩

/-! ## C08 -/

/-- C08, for all clauses: when `propagate()` reports no conflict, every stored clause is satisfied or has two
unassigned literals, which may be the same literal if the clause has it twice. -/
theorem C08_pair (h : Solver.Propagating env F s p1 ctx p none) {c : Multiset Lit}
    (hc : Stored p c) :
    (∃ l ∈ c, p.values.value l = .ok (some true)) ∨
      ∃ a b R, c = a ::ₘ b ::ₘ R ∧ p.values.value a = .ok none ∧ p.values.value b = .ok none := by
  obtain ⟨L, S1, hi1, _, hp⟩ := h.inv
  obtain ⟨hx, S', hs, hi, hdone, _⟩ := hp
  have hdone := hdone rfl
  have hidx := hi.stored_idx hc
  -- it is enough to find two positions, each of which is not false or the clause is satisfied
  have key : ∀ a b R, c = a ::ₘ b ::ₘ R →
      (∀ x, x = a ∨ x = b → p.values.val x = some false → ∃ l ∈ c, p.values.val l = some true) →
      (∃ l ∈ c, p.values.value l = .ok (some true)) ∨
        ∃ a b R, c = a ::ₘ b ::ₘ R ∧ p.values.value a = .ok none ∧ p.values.value b = .ok none := by
    intro a b R hab hf
    by_cases ht : ∃ l ∈ c, p.values.val l = some true
    · obtain ⟨l, hl, hv⟩ := ht
      exact .inl ⟨l, hl, by rw [hi.value (hidx l hl), hv]⟩
    · have hn : ∀ x, x = a ∨ x = b → p.values.value x = .ok none := by
        intro x hx
        have hxc : x ∈ c := by rw [hab]; rcases hx with rfl | rfl <;> simp
        rw [hi.value (hidx x hxc)]
        cases hv : p.values.val x with
        | none => rfl
        | some v =>
          cases v with
          | true => exact absurd ⟨x, hxc, hv⟩ ht
          | false => exact absurd (hf x hx hv) ht
      exact .inr ⟨a, b, R, hab, hn a (.inl rfl), hn b (.inr rfl)⟩
  cases hc with
  | @unit st h1 h2 =>
    have hv : p.values.value st.lit = .ok (some true) := by
      rw [hi.value (hi.trail.idx_lt _ h1), (hi.trail.val_iff _).2 ⟨st, h1, rfl⟩]
    exact .inl ⟨st.lit, by simp, hv⟩
  | @binary a b bs h1 h2 =>
    refine key a b 0 rfl ?_
    have one : ∀ (a b : Lit) (bs : List Lit), p.binary[a.code]? = some bs → b ∈ bs →
        p.values.val a = some false → p.values.val b = some true := by
      intro a b bs h1 h2 hv
      obtain ⟨st, hst, e⟩ := (hi.trail.val_false_iff _).1 hv
      obtain ⟨i, hi'⟩ := List.mem_iff_getElem?.1 hst
      obtain ⟨t, ht, e', _⟩ := hi.bsat a bs h1 b h2 i st
        (by rw [hdone]; exact (List.getElem?_eq_some_iff.1 hi').1) hi' e
      exact (hi.trail.val_iff _).2 ⟨t, ht, e'⟩
    have hlt : b.code < p.binary.length := by
      rw [hi.sized.bin]; exact Lit.code_lt_of_index_lt (hi.bs.idx _ _ h1 _ h2)
    have hsym : a ∈ p.binary[b.code] := by
      have := hi.bs.symm a b _ bs h1 (List.getElem?_eq_getElem hlt)
      have hpos : 0 < bs.count b := List.count_pos_iff.2 h2
      rw [this] at hpos
      exact List.count_pos_iff.1 hpos
    rintro x (rfl | rfl) hv
    · exact ⟨b, by simp, one _ _ _ h1 h2 hv⟩
    · exact ⟨a, by simp, one _ _ _ (List.getElem?_eq_getElem hlt) hsym hv⟩
  | long h1 =>
    obtain ⟨e, he, hl, _, _, rfl⟩ := hi.rep.storedAt_iff.1 h1
    have h3 := (hi.long.len e he hl).1
    obtain ⟨a, b, rest, hls⟩ : ∃ a b rest, e.lits = a :: b :: rest := by
      match hm : e.lits with
      | [] => rw [hm] at h3; simp at h3
      | [_] => rw [hm] at h3; simp at h3
      | a :: b :: rest => exact ⟨a, b, rest, rfl⟩
    refine key a b rest (by rw [hls]; rfl) ?_
    intro x hx hv
    obtain ⟨st, hst, e1⟩ := (hi.trail.val_false_iff _).1 hv
    obtain ⟨i, hi'⟩ := List.mem_iff_getElem?.1 hst
    obtain ⟨t, ht, e', _⟩ := hi.wsat e he hl x (by rw [hls]; simpa using hx) i st
      (by rw [hdone]; exact (List.getElem?_eq_some_iff.1 hi').1) hi' e1
    exact ⟨t.lit, e', (hi.trail.val_iff _).2 ⟨t, ht, rfl⟩⟩

/-- C08: when `propagate()` reports no conflict, every stored clause has a literal that is not false,
and if it has no repeated literals, it is satisfied or has two unassigned literals. -/
theorem C08_complete (h : Solver.Propagating env F s p1 ctx p none) {c : Multiset Lit}
    (hc : Stored p c) :
    (∃ l ∈ c, p.values.value l ≠ .ok (some false)) ∧
    (c.Nodup → (∃ l ∈ c, p.values.value l = .ok (some true)) ∨
      ∃ a ∈ c, ∃ b ∈ c, a ≠ b ∧ p.values.value a = .ok none ∧ p.values.value b = .ok none) := by
  rcases C08_pair h hc with ⟨l, hl, hv⟩ | ⟨a, b, R, rfl, ha, hb⟩
  · exact ⟨⟨l, hl, by rw [hv]; simp⟩, fun _ => .inl ⟨l, hl, hv⟩⟩
  · refine ⟨⟨a, by simp, by rw [ha]; simp⟩, fun hn => .inr ⟨a, by simp, b, by simp, ?_, ha, hb⟩⟩
    rintro rfl
    simp at hn

set_option synthInstance.maxSize 1000 in
/-- The hypotheses of C08 are met: after the same propagation, the stored clause `1 ∨ 2 ∨ 3` is neither
satisfied nor falsified. -/
theorem C08_example : ∃ s p1 ctx p, Solver.Propagating Example.env (Example.cnf (Example.php 4 3))
    s p1 ctx p none ∧ Stored p (([1, 2, 3].map Example.lit : List Lit) : Multiset Lit) ∧
    [1, 2, 3].map (fun i => p.values.value (Example.lit i)) = [.ok (some false), .ok none, .ok none] := by
  have h : (Example.mid (Example.php 4 3) 3).map (fun x => (x.2.2.2.2,
      (do let rs ← Long.refs x.2.2.2.1.long
          let _ ← Long.header x.2.2.2.1.long 0
          pure (rs.contains 0) : M Bool),
      (Long.lits x.2.2.2.1.long 0),
      [1, 2, 3].map (fun i => x.2.2.2.1.values.value (Example.lit i)))) =
      .ok (none, .ok true, .ok ([3, 2, 1].map Example.lit),
        [.ok (some false), .ok none, .ok none]) := by
    decide +kernel
  obtain ⟨⟨s, p1, ctx, p, r⟩, h1, h2⟩ := Example.of_map h
  simp only [Prod.mk.injEq] at h2
  obtain ⟨rfl, h3, h5, h6⟩ := h2
  obtain ⟨rs, h7, h3⟩ := bind_eq_ok.1 h3
  obtain ⟨hd, h9, h3⟩ := bind_eq_ok.1 h3
  have h8 := Except.ok.inj h3
  refine ⟨s, p1, ctx, p, Example.mid_propagating (by decide +kernel) h1, ?_, h6⟩
  have := Stored.long (p := p) ⟨⟨rs, h7, by simpa using h8⟩, h9, h5⟩
  have e : (([1, 2, 3].map Example.lit : List Lit) : Multiset Lit) =
      (([3, 2, 1].map Example.lit : List Lit) : Multiset Lit) := by decide +kernel
  rw [e]; exact this

/-! ## C09 -/

/-- C09: a reported conflict is a stored clause, all of its literals are false, and one of them became
false at the current level. -/
theorem C09_conflict {c : ConflictClause} (h : Solver.Propagating env F s p1 ctx p (some c)) :
    ∃ ls, c.lits p = .ok ls ∧ Stored p (ls : Multiset Lit) ∧
      (∀ l ∈ ls, p.values.value l = .ok (some false)) ∧
      ∃ l ∈ ls, ∃ st ∈ p.trail.steps, st.lit = l.neg ∧ st.level = p.trail.decisionLevel := by
  obtain ⟨L, S1, hi1, _, hp⟩ := h.inv
  obtain ⟨hx, S', hs, hi, _, hc⟩ := hp
  obtain ⟨ls, h1, h2, h3, h4⟩ := hi.conflict hi.storedInv (hc c rfl)
  have hst := hi.stored_of_mem h4
  refine ⟨ls, h1, hst, ?_, h3⟩
  intro l hl
  rw [hi.value (hi.stored_idx hst l hl), (hi.trail.val_false_iff l).2 (h2 l hl)]

/-- The hypotheses of C09 are met by conflicts with a long and with a binary clause. -/
theorem C09_example : (∃ s p1 ctx p c, Solver.Propagating Example.env (Example.cnf Example.unsat3)
    s p1 ctx p (some (.long c))) ∧ ∃ s p1 ctx p a b, Solver.Propagating Example.env
      (Example.cnf (Example.php 4 3)) s p1 ctx p (some (.binary a b)) := by
  have h : (Example.mid Example.unsat3 2).map (fun x => x.2.2.2.2) = .ok (some (.long 12)) := by
    decide +kernel
  obtain ⟨⟨s, p1, ctx, p, r⟩, h1, rfl⟩ := Example.of_map h
  have h' : (Example.mid (Example.php 4 3) 4).map (fun x => x.2.2.2.2) =
      .ok (some (.binary (Example.lit (-3)) (Example.lit (-6)))) := by
    decide +kernel
  obtain ⟨⟨s', p1', ctx', p', r'⟩, h1', rfl⟩ := Example.of_map h'
  exact ⟨⟨s, p1, ctx, p, _, Example.mid_propagating (by decide +kernel) h1⟩,
    s', p1', ctx', p', _, _, Example.mid_propagating (by decide +kernel) h1'⟩

end

end Starlit
