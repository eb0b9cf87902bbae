import Verif.Props.Database

/-!
# C54: memory of the clause arena
-/

namespace Starlit

/-- The literals of the clauses at the references. -/
def Long.litsOf (a : Arena) : List Nat → M (List (List Lit))
  | [] => pure []
  | r :: rs => do
    let ls ← Long.lits a r
    let lss ← Long.litsOf a rs
    pure (ls :: lss)

/-- The long clauses, found by calling `next_clause` until it returns `None`. -/
def Long.clauses (a : Arena) : M (List (List Lit)) := do Long.litsOf a (← Long.refs a)

/-- The words needed for long clauses: two for the header, one for the length, one for each
literal. -/
def neededWords (cs : List (List Lit)) : Nat := (cs.map (fun c => c.length + 3)).sum

section
variable {env : Env} {F : List (List Lit)} {s : Solver} {p1 p p' : PropState} {ctx : Ctx}
  {r : Option ConflictClause} {cb : Callbacks} {S : List LC} {a a' : Arena}

theorem LRep.clauses (h : LRep a S) : Long.clauses a = .ok ((S.filter LC.live).map LC.lits) := by
  unfold Long.clauses
  rw [h.refs, bind_ok]
  have key : ∀ T : List LC, (∀ e ∈ T, e ∈ S) → Long.litsOf a (T.map LC.ref) = .ok (T.map LC.lits) := by
    intro T
    induction T with
    | nil => intro _; rfl
    | cons e T ih =>
      intro hT
      simp only [List.map_cons, Long.litsOf]
      rw [h.lits_ok (hT e (by simp)), bind_ok, ih (fun x hx => hT x (by simp [hx])), bind_ok]
      rfl
  exact key _ (fun e he => (List.mem_filter.1 he).1)

theorem LRep.needed (h : LRep a S) :
    a.garbage + neededWords ((S.filter LC.live).map LC.lits) = a.buffer.length := by
  have := h.garbage
  rw [← this, neededWords, List.map_map]
  rfl

/-- What a collection does with the arena. -/
theorem collectGarbageNow_long {n : Nat} (h : PInv n S p) (e : collectGarbageNow p = .ok p') :
    p'.long.garbage = 0 ∧ Long.clauses p'.long = Long.clauses p.long := by
  unfold collectGarbageNow at e
  split at e
  · rename_i hb
    obtain ⟨a', gaps, e1, ρ, hg, hl, hrep, _, hz⟩ := h.rep.gc_ok hb
    rw [e1, bind_ok] at e
    simp only at e
    obtain ⟨_, _, e⟩ := bind_eq_ok.1 e
    obtain ⟨_, _, e⟩ := bind_eq_ok.1 e
    obtain ⟨_, _, e⟩ := bind_eq_ok.1 e
    cases e
    refine ⟨hz, ?_⟩
    simp only
    rw [hrep.clauses, h.rep.clauses]
    congr 1
    clear hrep e1 hg h
    induction S with
    | nil => rfl
    | cons x S ih =>
      have ih := ih (fun e he => hl e (by simp [he]))
      have hx := hl x (by simp)
      cases hr : ρ x.ref with
      | none =>
        rw [hr] at hx
        simp only [List.filterMap_cons, hr, Option.map_none]
        rw [ih, List.filter_cons_of_neg (by rw [← hx]; simp)]
      | some y =>
        rw [hr] at hx
        simp only [List.filterMap_cons, hr, Option.map_some]
        have h1 : x.live = true := by rw [← hx]; rfl
        have h2 : LC.live { x with ref := y } = true := h1
        rw [List.filter_cons_of_pos h2, List.filter_cons_of_pos h1, List.map_cons, List.map_cons, ih]
  · cases e

/-- C54: in every state of every run the garbage counter is exact, so that `utilization()` returns the
number of allocated words and the number of words needed for the stored clauses. -/
theorem C54_utilization (h : Solver.Visited env F p cb) :
    ∃ cs, Long.clauses p.long = .ok cs ∧ p.long.garbage + neededWords cs = p.long.buffer.length ∧
      (p.long.buffer.length < 2 ^ 64 →
        Arena.utilization p.long = (p.long.buffer.length, neededWords cs)) := by
  obtain ⟨S, hi, _⟩ := h.inv
  refine ⟨_, hi.rep.clauses, hi.rep.needed, fun hb => ?_⟩
  have := hi.rep.needed
  unfold Arena.utilization
  rw [Nat.mod_eq_of_lt (show p.long.garbage < 2 ^ 64 by omega)]
  congr 1
  omega

/-- C54: whenever propagation starts, the arena has at most twice the size needed for the stored clauses,
and these are the ones stored before garbage collection. -/
theorem C54_bound (h : Solver.Propagating env F s p1 ctx p r) :
    ∃ cs, Long.clauses s.search.prop.long = .ok cs ∧ Long.clauses p1.long = .ok cs ∧
      p1.long.buffer.length ≤ 2 * neededWords cs := by
  obtain ⟨L, S, hi⟩ := h.reach.inv
  have e := h.gc
  refine ⟨_, hi.prop.rep.clauses, ?_⟩
  unfold collectGarbage at e
  split at e
  · obtain ⟨h1, h2⟩ := collectGarbageNow_long hi.prop e
    rw [hi.prop.rep.clauses] at h2
    refine ⟨h2, ?_⟩
    obtain ⟨_, S1, hp1, _⟩ := h.inv
    have h3 := hp1.rep.needed
    rw [hp1.rep.clauses] at h2
    have h2 := Except.ok.inj h2
    rw [h2, h1] at h3
    omega
  · rename_i hs
    cases e
    refine ⟨hi.prop.rep.clauses, ?_⟩
    have := hi.prop.rep.needed
    simp only [Arena.shouldCollectGarbage, decide_eq_true_eq] at hs
    omega

end

/-- The hypotheses of C54 are met by a run in which 57 of 187 words belong to deleted clauses, too few for a
collection. -/
theorem C54_example : ∃ s cs p1 p2,
    Solver.Reachable Example.envReduce (Example.cnf (Example.php 5 4)) s ∧
    Long.clauses s.search.prop.long = .ok cs ∧ cs.length = 17 ∧ s.search.prop.long.garbage = 57 ∧
    neededWords cs = 130 ∧ Arena.utilization s.search.prop.long = (187, 130) ∧
    collectGarbage s.search.prop = .ok p1 ∧ p1.long.buffer.length = 187 ∧
    collectGarbageNow s.search.prop = .ok p2 ∧ p2.long.buffer.length = 130 := by
  have h : (do
      let (s, _) ← Example.runReduce (Example.php 5 4) 50
      let cs ← Long.clauses s.search.prop.long
      let p1 ← collectGarbage s.search.prop
      let p2 ← collectGarbageNow s.search.prop
      pure (cs.length, s.search.prop.long.garbage, neededWords cs, Arena.utilization s.search.prop.long,
        p1.long.buffer.length, p2.long.buffer.length) : M (Nat × Nat × Nat × (Nat × Nat) × Nat × Nat)) =
      .ok (17, 57, 130, (187, 130), 187, 130) := by
    decide +kernel
  obtain ⟨⟨s, r⟩, h1, h2⟩ := bind_eq_ok.1 h
  obtain ⟨cs, h3, h2⟩ := bind_eq_ok.1 h2
  obtain ⟨p1, h4, h2⟩ := bind_eq_ok.1 h2
  obtain ⟨p2, h5, h2⟩ := bind_eq_ok.1 h2
  have h2 := Except.ok.inj h2
  simp only [Prod.mk.injEq] at h2
  obtain ⟨a1, a2, a3, a4, a5, a6⟩ := h2
  exact ⟨s, cs, p1, p2, Example.runReduce_reachable (by decide +kernel) h1, h3, a1, a2, a3,
    a4, h4, a5, h5, a6⟩

end Starlit
