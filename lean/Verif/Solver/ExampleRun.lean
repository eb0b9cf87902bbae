import Verif.Solver.Stored
import Verif.Solver.Example

/-!
# Reachable states of concrete runs
-/

namespace Starlit.Example

/-- The state after `k` iterations of `solve()`. -/
def after (F : List (List Int)) (k : Nat) : M Solver := do
  let (s, _) ← (← load F).solve env k
  pure s

/-- The state of the propagation in iteration `k + 1`. -/
def mid (F : List (List Int)) (k : Nat) :
    M (Solver × PropState × Ctx × PropState × Option ConflictClause) := do
  let s ← after F k
  if s.search.prop.unsat then throw .panic
  else
    let p1 ← collectGarbage s.search.prop
    let (ctx, p, r) ← propagate s.ctx p1
    pure (s, p1, ctx, p, r)

/-- All numbers denote literals. -/
def ok (F : List (List Int)) : Bool := F.all fun c => c.all fun i => decide ((lit i).Valid)

theorem ok_valid {F : List (List Int)} (h : ok F = true) : ∀ c ∈ cnf F, ∀ l ∈ c, l.Valid := by
  intro c hc l hl
  obtain ⟨c', hc', rfl⟩ := List.mem_map.1 hc
  obtain ⟨i, hi, rfl⟩ := List.mem_map.1 hl
  simp only [ok, List.all_eq_true, decide_eq_true_eq] at h
  exact h c' hc' i hi

theorem after_reachable {F : List (List Int)} {k : Nat} {s : Solver} (hF : ok F = true)
    (h : after F k = .ok s) : Solver.Reachable env (cnf F) s := by
  unfold after load at h
  obtain ⟨s0, e0, h⟩ := bind_eq_ok.1 h
  obtain ⟨⟨s1, r⟩, e1, h⟩ := bind_eq_ok.1 h
  cases h
  have := Solver.Input.addClauses _ (.proof (.new (env := env))) (ok_valid hF) e0
  exact (Solver.Reachable.input (by simpa using this)).solve e1

theorem mid_propagating {F : List (List Int)} {k : Nat} {s : Solver} {p1 : PropState} {ctx : Ctx}
    {p : PropState} {r : Option ConflictClause} (hF : ok F = true)
    (h : mid F k = .ok (s, p1, ctx, p, r)) : Solver.Propagating env (cnf F) s p1 ctx p r := by
  unfold mid at h
  obtain ⟨s0, e0, h⟩ := bind_eq_ok.1 h
  by_cases hu : s0.search.prop.unsat = true
  · rw [if_pos hu] at h; simp [throw_eq] at h
  · rw [if_neg hu] at h
    obtain ⟨p1', e1, h⟩ := bind_eq_ok.1 h
    obtain ⟨⟨ctx', p', r'⟩, e2, h⟩ := bind_eq_ok.1 h
    cases h
    exact ⟨after_reachable hF e0, by simpa using hu, e1, e2⟩

theorem runReduce_reachable {F : List (List Int)} {k : Nat} {s : Solver} {r : Option Bool}
    (hF : ok F = true) (h : runReduce F k = .ok (s, r)) : Solver.Reachable envReduce (cnf F) s := by
  unfold runReduce at h
  obtain ⟨s0, e0, h⟩ := bind_eq_ok.1 h
  have := Solver.Input.addClauses _ (.proof (.new (env := envReduce))) (ok_valid hF) e0
  exact (Solver.Reachable.input (by simpa using this)).solve h

/-- What was computed for a run holds of the run. -/
theorem of_map {α β : Type} {m : M α} {f : α → β} {b : β} (h : m.map f = .ok b) :
    ∃ a, m = .ok a ∧ f a = b := by
  cases m with
  | error e => cases h
  | ok a => exact ⟨a, rfl, Except.ok.inj h⟩

end Starlit.Example
