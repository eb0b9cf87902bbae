import Verif.SetChecker
import Verif.Props.Fresh

/-!
# C90: the proof does not depend on how a checker treats deletions and copies

The lines of the proof file are accepted by checkers that take clauses as sets (`Verif/SetChecker.lean`), and whatever
deletions the checker ignores.
-/

namespace Starlit

open SetChecker (Reads ReadsCopies)

section
variable {env : Env} {F : List (List Lit)} {s s' : Solver} {log : List ProofStep}

/-- The learned clauses of a log are different from each other and from the formula, and have no literal twice. -/
theorem Accepted.fresh {L : DB} (h : Accepted (toDB F) log L) (hf : FreshLog F log) :
    L.Nodup ∧ ∀ c ∈ L, c ∉ toDB F ∧ c.Nodup := by
  induction h with
  | nil => simp
  | @add log L c ha _ _ ih =>
    obtain ⟨h1, h2⟩ := ih hf.prefix
    obtain ⟨_, hn, _, _, hnew⟩ := hf log [] c rfl
    rw [ha.balance, Multiset.add_sub_cancel_right] at hnew
    have key : (c : Multiset Lit) ∉ toDB F + L := by
      intro hm
      obtain ⟨l, k1, k2⟩ := hnew _ hm (by simpa using hn)
      exact k2 (by simpa using k1)
    rw [Multiset.mem_add, not_or] at key
    refine ⟨Multiset.nodup_cons.2 ⟨key.2, h1⟩, ?_⟩
    intro d hd
    rcases Multiset.mem_cons.1 hd with rfl | hd
    · exact ⟨key.1, by simpa using hn⟩
    · exact h2 d hd
  | @delete log L c _ _ ih =>
    obtain ⟨h1, h2⟩ := ih hf.prefix
    exact ⟨(Multiset.nodup_cons.1 h1).2, fun d hd => h2 d (Multiset.mem_cons_of_mem hd)⟩

theorem snoc_inj {a b : List ProofStep} {x y : ProofStep} (h : a ++ [x] = b ++ [y]) : a = b ∧ x = y := by
  obtain ⟨h1, h2⟩ := List.append_inj' h rfl
  exact ⟨h1, by simpa using h2⟩

/-- A checker that takes clauses as sets has at least the clauses that obeying all deletions leaves. -/
theorem Accepted.reads {L : DB} {D : Set (Finset Lit)} (h : Accepted (toDB F) log L) (hn : ∀ c ∈ F, c.Nodup)
    (hf : FreshLog F log) (hr : Reads F log D) : ∀ c ∈ toDB F + L, c.toFinset ∈ D := by
  induction hr generalizing L with
  | nil =>
    intro c hc
    have : L = 0 := by
      generalize e : ([] : List ProofStep) = x at h
      cases h with
      | nil => rfl
      | add => simp at e
      | delete => simp at e
    subst this
    rw [Multiset.add_zero] at hc
    obtain ⟨d, hd, rfl⟩ : ∃ d ∈ F, (d : Multiset Lit) = c := by simpa [toDB] using hc
    exact ⟨d, hd, rfl⟩
  | @add log D c hr ih =>
    generalize e : log ++ [ProofStep.add c] = x at h
    cases h with
    | nil => simp at e
    | @add log' L' c' ha hrup hv =>
      obtain ⟨rfl, e2⟩ := snoc_inj e
      cases e2
      have := ih ha hf.prefix
      intro d hd
      rw [Multiset.add_cons, Multiset.mem_cons] at hd
      rcases hd with rfl | hd
      · exact .inl rfl
      · exact .inr (this d hd)
    | delete => have := (snoc_inj e).2; cases this
  | @delete log D D' c hr h1 h2 ih =>
    generalize e : log ++ [ProofStep.delete c] = x at h
    cases h with
    | nil => simp at e
    | add => have := (snoc_inj e).2; cases this
    | @delete log' _ c' ha h3 =>
      obtain ⟨rfl, e2⟩ := snoc_inj e
      cases e2
      obtain ⟨k1, k2⟩ := ha.fresh hf.prefix
      have hc := k2 _ (Multiset.mem_cons_self _ _)
      have := ih ha hf.prefix
      intro d hd
      have hd' : d ∈ toDB F + (c : Multiset Lit) ::ₘ L := by
        rw [Multiset.add_cons]; exact Multiset.mem_cons_of_mem hd
      refine (h2 (this d hd')).resolve_left fun heq => ?_
      have hdn : d.Nodup := by
        rcases Multiset.mem_add.1 hd with hd | hd
        · obtain ⟨x, hx, rfl⟩ : ∃ d' ∈ F, (d' : Multiset Lit) = d := by simpa [toDB] using hd
          simpa using hn x hx
        · exact (k2 d (Multiset.mem_cons_of_mem hd)).2
      have hdc : d = (c : Multiset Lit) := by
        refine (Multiset.Nodup.ext hdn hc.2).2 fun l => ?_
        rw [← Multiset.mem_toFinset, heq, Multiset.mem_coe, List.mem_toFinset]
      subst hdc
      rcases Multiset.mem_add.1 hd with hd | hd
      · exact hc.1 hd
      · exact (Multiset.nodup_cons.1 k1).1 hd

/-- The same for a checker that keeps copies. -/
theorem Accepted.readsCopies {L D : DB} (h : Accepted (toDB F) log L) (hr : ReadsCopies F log D) :
    toDB F + L ≤ D := by
  induction hr generalizing L with
  | nil =>
    have : L = 0 := by
      generalize e : ([] : List ProofStep) = x at h
      cases h with
      | nil => rfl
      | add => simp at e
      | delete => simp at e
    subst this
    simp
  | @add log D c hr ih =>
    generalize e : log ++ [ProofStep.add c] = x at h
    cases h with
    | nil => simp at e
    | @add log' L' c' ha hrup hv =>
      obtain ⟨rfl, e2⟩ := snoc_inj e
      cases e2
      rw [Multiset.add_cons, Multiset.cons_le_cons_iff]
      exact ih ha
    | delete => have := (snoc_inj e).2; cases this
  | @delete log D D' c hr h1 h2 ih =>
    generalize e : log ++ [ProofStep.delete c] = x at h
    cases h with
    | nil => simp at e
    | add => have := (snoc_inj e).2; cases this
    | @delete log' _ c' ha h3 =>
      obtain ⟨rfl, e2⟩ := snoc_inj e
      cases e2
      have := (ih ha).trans h2
      rwa [Multiset.add_cons, Multiset.cons_le_cons_iff] at this

theorem Solver.Reachable.accepted (h : Solver.Reachable env F s) (hl : s.ctx.proof = some log) :
    ∃ L, Accepted (toDB F) log L := by
  obtain ⟨L, S, hi⟩ := h.inv
  obtain ⟨log', hacc, hl', _⟩ := hi.proof
  rw [hl] at hl'
  simp only [reduceCtorEq, Option.some.injEq, false_or] at hl'
  subst hl'
  exact ⟨L, hacc⟩

/-- C90: for a formula without repeated literals in a clause, every added line is accepted by a checker that takes
clauses as sets, whatever deletions it ignored before. -/
theorem C90_sets (h : Solver.Reachable env F s) (hl : s.ctx.proof = some log) (hn : ∀ c ∈ F, c.Nodup)
    {pre post : List ProofStep} {c : List Lit} {D : Set (Finset Lit)} (e : log = pre ++ .add c :: post)
    (hr : Reads F pre D) : SetChecker.RUP D c.toFinset ∧ c.toFinset ∉ SetChecker.clauses F := by
  obtain ⟨L, ha⟩ := h.accepted hl
  obtain ⟨L1, a1, hrup⟩ := ha.split pre post _ e
  have hf := C59_new h hl
  have hf' : FreshLog F pre := (e ▸ hf : FreshLog F (pre ++ .add c :: post)).prefix
  refine ⟨SetChecker.rup_of (a1.reads hn hf' hr) hrup, ?_⟩
  rintro ⟨d, hd, hdc⟩
  obtain ⟨_, _, _, _, h5⟩ := hf pre post c e
  obtain ⟨l, h6, h7⟩ := h5 d (Multiset.mem_add.2 (.inl (by simpa [toDB] using ⟨d, hd, List.Perm.refl d⟩)))
    (by simpa using hn d hd)
  exact h7 (List.mem_toFinset.1 (hdc ▸ List.mem_toFinset.2 (by simpa using h6)))

/-- C90: every added line is accepted by a checker that keeps copies, whatever deletions it ignored before. -/
theorem C90_copies (h : Solver.Reachable env F s) (hl : s.ctx.proof = some log)
    {pre post : List ProofStep} {c : List Lit} {D : DB} (e : log = pre ++ .add c :: post)
    (hr : ReadsCopies F pre D) : RUP D (c : Multiset Lit) := by
  obtain ⟨L, ha⟩ := h.accepted hl
  obtain ⟨L1, a1, hrup⟩ := ha.split pre post _ e
  exact UpConflict.mono (fun c hc => Multiset.mem_of_le (a1.readsCopies hr) hc) (fun l hl => .asm hl) hrup

/-- C90: when `solve()` answers "unsatisfiable" the proof is a refutation for all of these checkers. -/
theorem C90_refuted (h : Solver.Input env F s) (hp : s.ctx.proof ≠ none) {k : Nat}
    (e : s.solve env k = .ok (s', some false)) : ∃ log, s'.ctx.proof = some log ∧
      (∀ D, ReadsCopies F log D → UpConflict D (fun _ => False)) ∧
      ((∀ c ∈ F, c.Nodup) → ∀ D, Reads F log D → SetChecker.UpConflict D (fun _ => False)) := by
  obtain ⟨log, hl, hc⟩ := C05_refuted h hp e
  have hr := (Solver.Reachable.input h).solve e
  obtain ⟨L, ha⟩ := hr.accepted hl
  rw [ha.balance, Multiset.add_sub_cancel_right] at hc
  refine ⟨log, hl, fun D hD => ?_, fun hn D hD => ?_⟩
  · exact UpConflict.mono (fun c hc => Multiset.mem_of_le (ha.readsCopies hD) hc) (fun l hl => .asm hl) hc
  · exact SetChecker.upConflict_of (ha.reads hn (C59_new hr hl) hD) hc

end

/-- A case for C90: a run with a deletion, which a checker may ignore or not. -/
theorem C90_example : ∃ s log pre c post, Solver.Reachable Example.envReduce (Example.cnf (Example.php 5 4)) s ∧
    s.ctx.proof = some log ∧ (∀ c ∈ Example.cnf (Example.php 5 4), c.Nodup) ∧ log = pre ++ .delete c :: post ∧
    additions post = 1 := by
  have h : (Example.runReduce (Example.php 5 4) 33).map
      (fun x => x.1.ctx.proof.map fun log => (log.map Example.isDelete, log.length)) =
      .ok (some (List.replicate 13 false ++ [true, false], 15)) := by decide +kernel
  obtain ⟨⟨s, r⟩, h1, h2⟩ := Example.of_map h
  obtain ⟨log, h3, h4⟩ := Option.map_eq_some_iff.1 h2
  simp only [Prod.mk.injEq] at h4
  obtain ⟨h4, h5⟩ := h4
  have h6 : log = log.take 13 ++ log.drop 13 := (List.take_append_drop 13 log).symm
  have h7 : (log.drop 13).map Example.isDelete = [true, false] := by
    rw [List.map_drop, h4]; rfl
  match h8 : log.drop 13, h7 with
  | [.delete c, .add d], _ =>
    exact ⟨s, log, log.take 13, c, [.add d], Example.runReduce_reachable (by decide +kernel) h1, h3,
      by decide +kernel, by rw [← h8]; exact h6, rfl⟩

end Starlit
