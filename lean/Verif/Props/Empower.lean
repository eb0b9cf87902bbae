import Verif.Props.Fresh
import Verif.Props.Closure

/-!
# C86: learned clauses are not absorbed

A clause is absorbed by a database if unit propagation derives each of its literals from the negations of the others
(or a conflict).  Every learned clause is not: its asserting literal is a new consequence.
-/

namespace Starlit

/-- From the negations of the other literals of `c`, unit propagation with `D` derives neither `a` nor a
conflict. -/
def Empowers (D : DB) (c : List Lit) (a : Lit) : Prop :=
  ¬ Implied D (fun l => l.neg ∈ c ∧ l.neg ≠ a) a ∧ ¬ UpConflict D (fun l => l.neg ∈ c ∧ l.neg ≠ a)

/-- In the log, every added clause has a first literal that could not be derived by unit propagation from the
negations of the others with the clauses known at this time. -/
def EmpowerLog (F : List (List Lit)) (log : List ProofStep) : Prop :=
  ∀ (pre post : List ProofStep) (c : List Lit), log = pre ++ .add c :: post →
    ∃ a, c.head? = some a ∧ Empowers (checkerDB F pre) c a

section
variable {n : Nat} {S : List LC} {p : PropState}

/-- The literals of lower levels are closed under unit propagation. -/
theorem PInv.closed_below (hp : PInv n S p) {l : Lit} {R : Multiset Lit} (hE : Stored p (l ::ₘ R)) (h0 : R ≠ 0)
    (hR : ∀ o ∈ R, ∃ s ∈ p.trail.steps, s.lit = o.neg ∧ s.level < p.trail.decisionLevel) :
    ∃ s ∈ p.trail.steps, s.lit = l ∧ s.level < p.trail.decisionLevel := by
  have hproc : ∀ o ∈ R, ∃ (i : Nat) (s : Step), i < p.trail.propagated ∧
      p.trail.steps[i]? = some s ∧ s.lit = o.neg ∧ s.level < p.trail.decisionLevel := by
    intro o ho
    obtain ⟨s, hs, e, hlt⟩ := hR o ho
    obtain ⟨i, hi⟩ := List.mem_iff_getElem?.1 hs
    refine ⟨i, s, ?_, hi, e, hlt⟩
    by_contra hge
    have := hp.trail.prop_level i s (by omega) hi
    omega
  have hb : ∀ (x y : Lit) (bs : List Lit), p.binary[x.code]? = some bs → y ∈ bs → x ∈ R →
      ∃ s ∈ p.trail.steps, s.lit = y ∧ s.level < p.trail.decisionLevel := by
    intro x y bs hx hy hm
    obtain ⟨i, s, hi, hs, e, hlt⟩ := hproc x hm
    obtain ⟨t, ht, e', hle⟩ := hp.bsat x bs hx y hy i s hi hs e
    exact ⟨t, ht, e', by omega⟩
  generalize hX : l ::ₘ R = E at hE
  cases hE with
  | @unit s hs _ =>
    exfalso
    have := congrArg Multiset.card hX
    rw [Multiset.card_cons, Multiset.card_singleton] at this
    exact h0 (Multiset.card_eq_zero.1 (by omega))
  | @binary x y bs hx hy =>
    rcases Multiset.cons_eq_cons.1 hX with ⟨rfl, rfl⟩ | ⟨_, cs, rfl, h2⟩
    · have hlt : y.code < p.binary.length := by
        rw [hp.sized.bin]; exact Lit.code_lt_of_index_lt (hp.bs.idx _ _ hx _ hy)
      have hys := List.getElem?_eq_getElem hlt
      have hcnt := hp.bs.symm l y _ bs hx hys
      have hpos : 0 < bs.count y := List.count_pos_iff.2 hy
      rw [hcnt] at hpos
      exact hb y l _ hys (List.count_pos_iff.1 hpos) (Multiset.mem_singleton_self y)
    · have hl : l = y := by
        have : l ∈ ({y} : Multiset Lit) := by rw [h2]; exact Multiset.mem_cons_self _ _
        exact Multiset.mem_singleton.1 this
      rw [hl]
      exact hb x y bs hx hy (Multiset.mem_cons_self _ _)
  | @long r hd ls hs =>
    obtain ⟨e, he, hl, rfl, rfl, rfl⟩ := hp.rep.storedAt_iff.1 hs
    have hlen := (hp.long.len e he hl).1
    obtain ⟨x, y, rest, hls⟩ : ∃ x y rest, e.lits = x :: y :: rest := by
      match e.lits, hlen with
      | x :: y :: rest, _ => exact ⟨x, y, rest, rfl⟩
    obtain ⟨w, hw, hwR⟩ : ∃ w ∈ e.lits.take 2, w ∈ R := by
      rw [hls] at hX ⊢
      rw [← Multiset.cons_coe] at hX
      rcases Multiset.cons_eq_cons.1 hX with ⟨_, h2⟩ | ⟨_, cs, h2, _⟩
      · exact ⟨y, by simp, by rw [h2]; simp⟩
      · exact ⟨x, by simp, by rw [h2]; simp⟩
    obtain ⟨i, s, hi, hs, e', hlt⟩ := hproc w hwR
    obtain ⟨t, ht, hm, hle⟩ := hp.wsat e he hl w hw i s hi hs e'
    have hm' : t.lit ∈ l ::ₘ R := by rw [hX]; simpa using hm
    rcases Multiset.mem_cons.1 hm' with e1 | hm'
    · exact ⟨t, ht, e1, by omega⟩
    · exfalso
      obtain ⟨u, hu, e2, _⟩ := hR _ hm'
      exact hp.trail.not_both ht hu (by rw [e2, Lit.neg_neg])

end

section
variable {env : Env} {F : List (List Lit)} {s s' : Solver} {p1 p : PropState} {ctx : Ctx}
  {r : Option ConflictClause} {log : List ProofStep}

/-- Unit propagation from literals of lower levels gives literals of lower levels. -/
theorem Solver.Propagating.closed_below (h : Solver.Propagating env F s p1 ctx p r) (hl : s.ctx.proof = some log)
    (h0 : p.trail.decisionLevel ≠ 0) {A : Lit → Prop}
    (hA : ∀ l, A l → ∃ st ∈ p.trail.steps, st.lit = l ∧ st.level < p.trail.decisionLevel) {l : Lit}
    (hi : Implied (checkerDB F log) A l) :
    ∃ st ∈ p.trail.steps, st.lit = l ∧ st.level < p.trail.decisionLevel := by
  obtain ⟨L, S, S2, hs, q⟩ := h.phase
  induction hi with
  | asm ha => exact hA _ ha
  | @unit l R hm _ ih =>
    by_cases hR : R = 0
    · subst hR
      obtain ⟨st, k1, k2, k3⟩ := (C63_unit h.reach hl).1 h.unsat l hm
      obtain ⟨ρ, new, e, _⟩ := q.steps
      refine ⟨st.ren ρ, by rw [e]; exact List.mem_append_left _ (List.mem_map_of_mem k1), k2, ?_⟩
      have : (st.ren ρ).level = st.level := rfl
      omega
    · rcases h.checker hl hm with hc | ⟨a, e, _⟩
      · exact q.inv.closed_below hc hR ih
      · exfalso
        have := congrArg Multiset.card e
        rw [Multiset.card_cons, Multiset.card_singleton] at this
        exact hR (Multiset.card_eq_zero.1 (by omega))

/-- C86, for each conflict: unit propagation with the clauses known before could not derive the first literal of
the learned clause from the negations of the others, nor a conflict. -/
theorem C86_conflict {p' : PropState} {ctx1 ctx2 : Ctx} {c : ConflictClause} {an : Analysis}
    {cb' : Callbacks} (h : Solver.Propagating env F s p1 ctx p (some c)) (hl : s.ctx.proof = some log)
    (h0 : p.trail.decisionLevel ≠ 0)
    (e : Analysis.analyzeConflict env ctx1 s.search.analysis p c s.search.cb = .ok (ctx2, an, p', cb')) :
    ∃ a, an.derivedClause.head? = some a ∧ Empowers (checkerDB F log) an.derivedClause a := by
  obtain ⟨S2, S', C, lvl, target, hi, A⟩ := h.analyze h0 e
  obtain ⟨L0, S0, S20, hs0, q0⟩ := h.phase
  rw [A.clause]
  obtain ⟨hon, a, ha, hlow⟩ := A.asserting.on_trail
  have hmem : a ∈ C := List.mem_of_mem_head? ha
  have hA : ∀ l, (l.neg ∈ C ∧ l.neg ≠ a) →
      ∃ st ∈ p.trail.steps, st.lit = l ∧ st.level < p.trail.decisionLevel := by
    rintro l ⟨k1, k2⟩
    obtain ⟨i, st, k3, k4, k5⟩ := hlow _ k1 k2
    exact ⟨st, List.mem_of_getElem? k3, by rw [k4, Lit.neg_neg], k5⟩
  refine ⟨a, ha, ?_, ?_⟩
  · intro hx
    obtain ⟨st, k1, k2, _⟩ := h.closed_below hl h0 hA hx
    obtain ⟨st', k3, k4⟩ := hon a hmem
    exact hi.trail.not_both k1 k3 (by rw [k2, k4, Lit.neg_neg])
  · rintro ⟨K, hK, hf⟩
    have hf' : ∀ o ∈ K, ∃ st ∈ p.trail.steps, st.lit = o.neg ∧ st.level < p.trail.decisionLevel :=
      fun o ho => h.closed_below hl h0 hA (hf o ho)
    by_cases hK0 : K = 0
    · subst hK0
      rcases h.checker hl hK with hc | ⟨x, ex, _⟩
      · generalize hX : (0 : Multiset Lit) = X at hc
        cases hc with
        | unit => simp at hX
        | binary => simp at hX
        | @long r hd ls hs =>
          obtain ⟨e, he, hl, rfl, rfl, rfl⟩ := hi.rep.storedAt_iff.1 hs
          have hlen := (hi.long.len e he hl).1
          have : e.lits = [] := by rw [eq_comm, Multiset.coe_eq_zero] at hX; exact hX
          rw [this] at hlen
          simp at hlen
      · simp at ex
    · obtain ⟨o, ho⟩ := Multiset.exists_mem_of_ne_zero hK0
      obtain ⟨R, rfl⟩ := Multiset.exists_cons_of_mem ho
      obtain ⟨st, k1, k2, _⟩ := h.closed_below hl h0 hA
        (.unit hK fun x hx => hf x (Multiset.mem_cons_of_mem hx))
      obtain ⟨st', k3, k4, _⟩ := hf' o ho
      exact hi.trail.not_both k1 k3 (by rw [k2, k4, Lit.neg_neg])

theorem EmpowerLog.deletes {new : List ProofStep} (h : EmpowerLog F log) (hn : additions new = 0) :
    EmpowerLog F (log ++ new) := by
  intro pre post c e
  rw [List.append_eq_append_iff] at e
  rcases e with ⟨as, rfl, e⟩ | ⟨bs, rfl, e⟩
  · rw [e, additions_append] at hn
    simp [additions] at hn
  · cases bs with
    | nil =>
      simp only [List.nil_append] at e
      rw [← e] at hn
      simp [additions] at hn
    | cons x bs =>
      simp only [List.cons_append, List.cons.injEq] at e
      obtain ⟨rfl, _⟩ := e
      exact h pre bs c rfl

theorem EmpowerLog.add {c : List Lit} (h : EmpowerLog F log)
    (hc : ∃ a, c.head? = some a ∧ Empowers (checkerDB F log) c a) : EmpowerLog F (log ++ [.add c]) := by
  intro pre post d e
  rw [List.append_eq_append_iff] at e
  rcases e with ⟨as, rfl, e⟩ | ⟨bs, e', e⟩
  · cases as with
    | cons x as => simp at e
    | nil =>
      simp only [List.nil_append, List.cons.injEq, ProofStep.add.injEq] at e
      obtain ⟨rfl, _⟩ := e
      rw [List.append_nil]; exact hc
  · cases bs with
    | nil =>
      simp only [List.nil_append, List.cons.injEq, ProofStep.add.injEq] at e
      obtain ⟨rfl, _⟩ := e
      rw [List.append_nil] at e'
      subst e'
      exact hc
    | cons x bs =>
      simp only [List.cons_append, List.cons.injEq] at e
      obtain ⟨rfl, _⟩ := e
      exact h pre bs d e'

/-- C86: no clause added to the proof in a run was absorbed by the clauses known at that time: unit propagation
with them could not derive its first literal from the negations of its other literals, nor a conflict. -/
theorem C86_empower (h : Solver.Reachable env F s) (hl : s.ctx.proof = some log) : EmpowerLog F log := by
  induction h generalizing log with
  | @input s h =>
    obtain ⟨S, hi⟩ := h.inv
    rcases hi.proof with e | e
    · rw [e] at hl; cases hl
    · rw [e] at hl; cases hl
      intro pre post c e
      simp at e
  | @restart s s' hr e ih =>
    rcases C55_restart hr e with ⟨_, rfl⟩ | ⟨_, _, _, _, _, _, hp, _⟩
    · exact ih hl
    · rw [hp] at hl; exact ih hl
  | @reduce s s' hr e ih =>
    rcases C55_reduce hr e with ⟨_, rfl⟩ | ⟨_, _, _, _, _, _, _, _, hd⟩
    · exact ih hl
    · cases hp : s.ctx.proof with
      | none => rw [hd.1 hp] at hl; cases hl
      | some old =>
        obtain ⟨new, e1, e2⟩ := hd.2 old hp
        rw [e1] at hl
        cases hl
        exact (ih hp).deletes e2
  | @step s ctx search r hr e ih =>
    simp only at hl
    cases searchStep_cases hr e with
    | already => exact ih hl
    | fail hp _ =>
      have h1 := hp.proof
      simp only [Ctx.conflict] at hl
      exact ih (h1 ▸ hl)
    | decide hp _ _ _ =>
      have h1 := hp.proof
      simp only [Ctx.decision] at hl
      exact ih (h1 ▸ hl)
    | sat hp _ => exact ih (hp.proof ▸ hl)
    | @learn p1 p p' ctx1 ctx' c an cb hp h0 ea =>
      obtain ⟨S2, S', C, lvl, target, _, A⟩ := hp.analyze h0 ea
      have h2 := A.proof
      unfold Ctx.logProof at h2
      simp only [Ctx.conflict] at h2
      rw [hl, hp.proof] at h2
      obtain ⟨old, e1, rfl⟩ := Option.map_eq_some_iff.1 h2.symm
      have h3 := C86_conflict hp e1 h0 ea
      rw [A.clause] at h3
      exact (ih e1).add h3

end

/-- C86: no learned clause has all literals of a clause that is known already. -/
theorem C86_new {env : Env} {F : List (List Lit)} {s : Solver} {pre post : List ProofStep} {c : List Lit}
    (h : Solver.Reachable env F s) (hl : s.ctx.proof = some (pre ++ .add c :: post)) {D : Multiset Lit}
    (hD : D ∈ checkerDB F pre) (hn : D.Nodup) : ∃ l ∈ D, l ∉ c := by
  obtain ⟨a, _, h1, h2⟩ := C86_empower h hl pre post c rfl
  by_contra hc
  push Not at hc
  by_cases ha : a ∈ D
  · obtain ⟨R, rfl⟩ := Multiset.exists_cons_of_mem ha
    refine h1 (.unit hD fun o ho => .asm ⟨by simpa using hc o (Multiset.mem_cons_of_mem ho), ?_⟩)
    rintro e
    rw [Lit.neg_neg] at e
    exact (Multiset.nodup_cons.1 hn).1 (e ▸ ho)
  · refine h2 ⟨D, hD, fun o ho => .asm ⟨by simpa using hc o ho, ?_⟩⟩
    rintro e
    rw [Lit.neg_neg] at e
    exact ha (e ▸ ho)

/-- A case for C86: a run that adds three clauses. -/
theorem C86_example : ∃ s, Solver.Reachable Example.env (Example.cnf Example.unsat3) s ∧
    s.ctx.proof = some [.add [Example.lit 3, Example.lit 1], .add [Example.lit 1], .add [Example.lit (-3)]] := by
  have h : (Example.run Example.unsat3).map (fun x => x.1.ctx.proof) =
      .ok (some [.add [Example.lit 3, Example.lit 1], .add [Example.lit 1], .add [Example.lit (-3)]]) := by
    decide +kernel
  obtain ⟨⟨s', r⟩, h1, h2⟩ := Example.of_map h
  unfold Example.run Example.load at h1
  obtain ⟨s, h3, h1⟩ := bind_eq_ok.1 h1
  have hi := Solver.Input.addClauses _ (.proof (.new (env := Example.env)))
    (Example.ok_valid (F := Example.unsat3) (by decide +kernel)) h3
  exact ⟨s', Solver.Reachable.solve (.input (by simpa using hi)) h1, h2⟩

end Starlit
