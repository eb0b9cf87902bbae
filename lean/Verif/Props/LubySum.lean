import Verif.Props.Luby
import Verif.Props.Effort
import Verif.Props.Guided

/-!
# C92: the number of restarts is determined by the number of conflicts

C36 says when restarts happen, relative to the restart before.  Here the terms of the Luby sequence are added up.
-/

namespace Starlit

/-- The sum of the first `m` terms of a sequence that is numbered from 1. -/
def partialSum (t : Nat → Nat) : Nat → Nat
  | 0 => 0
  | m + 1 => partialSum t m + t (m + 1)

theorem partialSum_add (t : Nat → Nat) (a b : Nat) :
    partialSum t (a + b) = partialSum t a + partialSum (fun i => t (a + i)) b := by
  induction b with
  | zero => rfl
  | succ b ih =>
    rw [← Nat.add_assoc, partialSum, ih, partialSum, Nat.add_assoc, Nat.add_assoc]

theorem partialSum_congr {t u : Nat → Nat} {m : Nat} (h : ∀ i, 1 ≤ i → i ≤ m → t i = u i) :
    partialSum t m = partialSum u m := by
  induction m with
  | zero => rfl
  | succ m ih =>
    rw [partialSum, partialSum, ih fun i h1 h2 => h i h1 (by omega), h (m + 1) (by omega) (by omega)]

theorem partialSum_mono (t : Nat → Nat) {a b : Nat} (h : a ≤ b) : partialSum t a ≤ partialSum t b := by
  obtain ⟨c, rfl⟩ := Nat.exists_eq_add_of_le h
  rw [partialSum_add]
  omega

/-- C92: the first `2^k - 1` terms of the Luby sequence add up to `k * 2^(k-1)`. -/
theorem C92_sum {t : Nat → Nat} (ht : ∀ b, IsLuby b t) (k : Nat) : partialSum t (2 ^ k - 1) = k * 2 ^ (k - 1) := by
  induction k with
  | zero => simp [partialSum]
  | succ k ih =>
    have hp := Nat.two_pow_pos k
    have e : 2 ^ (k + 1) - 1 = (2 ^ k - 1) + (2 ^ k - 1) + 1 := by rw [pow_succ]; omega
    rw [e, partialSum, partialSum_add, ih]
    have h1 : partialSum (fun i => t (2 ^ k - 1 + i)) (2 ^ k - 1) = partialSum t (2 ^ k - 1) := by
      refine partialSum_congr fun i h1 h2 => ?_
      rw [(ht (2 ^ (k + 1))).copy (k + 1) (2 ^ k - 1 + i) (by omega) (by rw [Nat.add_sub_cancel]; omega)
        (by omega) (by omega), Nat.add_sub_cancel]
      congr 1
      omega
    rw [h1, ih, ← e, (ht (2 ^ (k + 1))).peak (k + 1) (by omega) (by omega), Nat.add_sub_cancel]
    cases k with
    | zero => rfl
    | succ k => rw [Nat.add_sub_cancel, pow_succ]; ring

/-- The terms that the model of the solver uses are the Luby sequence. -/
theorem luby_model : ∀ b, IsLuby b (fun i => (Luby.after (i - 1)).v) := by
  intro b
  constructor
  · intro k hk hb
    obtain ⟨j, rfl⟩ : ∃ j, k = j + 1 := ⟨k - 1, by omega⟩
    rw [show 2 ^ (j + 1) - 1 - 1 = 2 ^ (j + 1) - 2 by omega, Luby.after_pow]; rfl
  · intro k i hk h1 h2 hb
    obtain ⟨j, rfl⟩ : ∃ j, k = j + 2 := by
      refine ⟨k - 2, ?_⟩
      by_cases hk1 : k = 1
      · subst hk1; simp at h1 h2; omega
      · omega
    have e : 2 ^ (j + 2) = 2 * 2 ^ (j + 1) := pow_succ' 2 (j + 1)
    rw [show j + 2 - 1 = j + 1 by omega] at h1 ⊢
    have hp : 2 ≤ 2 ^ (j + 1) := by
      have := Nat.two_pow_pos j
      rw [pow_succ]; omega
    have := Luby.after_shift j (i - 2 ^ (j + 1)) (by omega)
    rw [show 2 ^ (j + 1) - 1 + (i - 2 ^ (j + 1)) = i - 1 by omega] at this
    rw [this, show i - 2 ^ (j + 1) + 1 - 1 = i - 2 ^ (j + 1) by omega]

section
variable {env : Env} {F : List (List Lit)} {s s' : Solver}

/-- A search step has at most one conflict. -/
theorem searchStep_conflicts (h : Solver.Reachable env F s) {ctx : Ctx} {search : Search} {r : Option Bool}
    (e : searchStep env s.ctx s.search = .ok (ctx, search, r)) :
    s.ctx.search.conflicts ≤ ctx.search.conflicts ∧ ctx.search.conflicts ≤ s.ctx.search.conflicts + 1 ∧
      ctx.search.restarts = s.ctx.search.restarts := by
  cases searchStep_cases h e with
  | already hu => exact ⟨Nat.le_refl _, Nat.le_succ _, rfl⟩
  | fail hp h0 => simp only [Ctx.conflict, hp.search]; exact ⟨Nat.le_succ _, Nat.le_refl _, trivial⟩
  | learn hp h0 ea =>
    obtain ⟨_, _, _, _, _, _, A⟩ := hp.analyze h0 ea
    simp only [A.search, Ctx.conflict, hp.search]; exact ⟨Nat.le_succ _, Nat.le_refl _, trivial⟩
  | decide hp e1 e2 e3 => simp only [Ctx.decision, hp.search]; exact ⟨Nat.le_refl _, Nat.le_succ _, trivial⟩
  | sat hp e1 => simp only [hp.search]; exact ⟨Nat.le_refl _, Nat.le_succ _, trivial⟩

/-- What holds between iterations. -/
structure OnTime (s : Solver) : Prop where
  next : s.schedule.nextRestart = 512 * partialSum (fun i => (Luby.after (i - 1)).v) s.ctx.search.restarts
  reached : 512 * partialSum (fun i => (Luby.after (i - 1)).v) (s.ctx.search.restarts - 1) ≤ s.ctx.search.conflicts
  early : s.ctx.search.conflicts ≤ s.schedule.nextRestart

theorem OnTime.schedule (o : OnTime s) (h : Solver.Reachable env F s) {r : Option Bool}
    (e : s.scheduleStep env = .ok (s', r)) : OnTime s' ∧ 1 ≤ s'.ctx.search.restarts := by
  obtain ⟨s1, s2, ctx, search, e1, e2, e3, rfl⟩ := Solver.scheduleStep_eq e
  have r1 := h.restart e1
  have r2 := r1.reduce e2
  have o1 : OnTime s1 ∧ s1.ctx.search.conflicts < s1.schedule.nextRestart := by
    obtain ⟨L, S, hi⟩ := h.inv
    obtain ⟨t, f1, _, hc⟩ := maybeRestart_spec hi
    cases e1.symm.trans f1
    rcases hc with ⟨k1, rfl⟩ | ⟨k1, k2, k3⟩
    · exact ⟨o, k1⟩
    · obtain ⟨ctx', t', f2, _, f3, _⟩ := restart_spec hi
      rw [k2] at f2
      simp only [Except.ok.injEq, Prod.mk.injEq] at f2
      have hcf : s1.ctx.search.conflicts = s.ctx.search.conflicts := by rw [f2.1, f3]
      have hrs : s1.ctx.search.restarts = s.ctx.search.restarts + 1 := by rw [f2.1, f3]
      have hnx : s1.schedule.nextRestart = s.ctx.search.conflicts + (Luby.after s.ctx.search.restarts).v * 512 := by
        rw [k3, h.luby, Luby.advance_fst]
      have hn := o.next
      have he := o.early
      have heq : s.ctx.search.conflicts = s.schedule.nextRestart := by omega
      obtain ⟨a, ha⟩ := (Luby.inv_after s.ctx.search.restarts).pow
      have hpos := Nat.two_pow_pos a
      refine ⟨⟨?_, ?_, ?_⟩, ?_⟩
      · rw [hnx, hrs, partialSum, heq, hn, Nat.add_sub_cancel]
        ring
      · rw [hrs, Nat.add_sub_cancel, hcf, heq, hn]
      · rw [hnx, hcf]; omega
      · rw [hnx, hcf, ha]; omega
  obtain ⟨m1, m2, _⟩ := maybeReduce_next r1 e2
  obtain ⟨o1, hlt⟩ := o1
  have hc2 : s2.ctx.search.conflicts = s1.ctx.search.conflicts := by rw [m1]
  have hr2 : s2.ctx.search.restarts = s1.ctx.search.restarts := by rw [m1]
  obtain ⟨k1, k2, k3⟩ := searchStep_conflicts r2 e3
  have n1 := o1.next
  have n2 := o1.reached
  refine ⟨⟨?_, ?_, ?_⟩, ?_⟩
  · simp only
    rw [m2, n1, k3, hr2]
  · simp only
    rw [k3, hr2]
    omega
  · simp only
    rw [m2]
    omega
  · simp only
    rw [k3, hr2]
    by_contra hz
    have hz : s1.ctx.search.restarts = 0 := by omega
    rw [hz] at n1
    simp only [partialSum] at n1
    omega

theorem OnTime.solve {k : Nat} : ∀ {s : Solver}, OnTime s → Solver.Reachable env F s → ∀ {r : Option Bool},
    s.solve env k = .ok (s', r) → OnTime s' ∧ (0 < k → 1 ≤ s'.ctx.search.restarts) := by
  induction k with
  | zero =>
    intro s o h r e
    cases e
    exact ⟨o, fun h => absurd h (by omega)⟩
  | succ k ih =>
    intro s o h r e
    unfold Solver.solve at e
    obtain ⟨⟨s1, r1⟩, e1, e2⟩ := bind_eq_ok.1 e
    obtain ⟨k1, k2⟩ := o.schedule h e1
    cases r1 with
    | some b =>
      cases e2
      exact ⟨k1, fun _ => k2⟩
    | none =>
      obtain ⟨k3, k4⟩ := ih k1 (h.schedule e1) e2
      refine ⟨k3, fun _ => ?_⟩
      by_cases hk : 0 < k
      · exact k4 hk
      · obtain rfl : k = 0 := by omega
        cases e2
        exact k2

theorem Solver.Input.onTime (h : Solver.Input env F s) : OnTime s := by
  have h1 := h.start.search
  have h2 := h.start.schedule
  refine ⟨?_, ?_, ?_⟩
  · rw [h1, h2]; rfl
  · rw [h1]; exact Nat.le_refl _
  · rw [h1]; exact Nat.zero_le _

/-- C92: the restarts of a run follow from its conflicts: if there have been `R` restarts, there have been at least 512 times
the sum of the first `R - 1` terms of the Luby sequence, and at most 512 times the sum of the first `R` terms. -/
theorem C92_exact {t : Nat → Nat} (ht : ∀ b, IsLuby b t) (h : Solver.Input env F s) {k : Nat} {r : Option Bool}
    (e : s.solve env k = .ok (s', r)) :
    512 * partialSum t (s'.ctx.search.restarts - 1) ≤ s'.ctx.search.conflicts ∧
    s'.ctx.search.conflicts ≤ 512 * partialSum t s'.ctx.search.restarts ∧ (0 < k → 1 ≤ s'.ctx.search.restarts) := by
  obtain ⟨o, h1⟩ := h.onTime.solve (.input h) e
  have key : ∀ m, partialSum t m = partialSum (fun i => (Luby.after (i - 1)).v) m := fun m =>
    partialSum_congr fun i h1 _ => (ht (i + 1)).unique (luby_model (i + 1)) i h1 (by omega)
  rw [key, key, ← o.next]
  exact ⟨o.reached, o.early, h1⟩

/-- C92: so the number of restarts reaches `2^j` when the number of conflicts passes `256 * j * 2^j`. -/
theorem C92_count (h : Solver.Input env F s) {k : Nat} {r : Option Bool} (e : s.solve env k = .ok (s', r)) (j : Nat) :
    (256 * j * 2 ^ j < s'.ctx.search.conflicts → 2 ^ j ≤ s'.ctx.search.restarts) ∧
    (s'.ctx.search.conflicts < 256 * j * 2 ^ j → s'.ctx.search.restarts < 2 ^ j) := by
  obtain ⟨h1, h2, _⟩ := C92_exact luby_model h e
  have hp := Nat.two_pow_pos j
  have hs : 512 * partialSum (fun i => (Luby.after (i - 1)).v) (2 ^ j - 1) = 256 * j * 2 ^ j := by
    rw [C92_sum luby_model j]
    cases j with
    | zero => rfl
    | succ j => rw [Nat.add_sub_cancel, pow_succ]; ring
  refine ⟨fun hlt => ?_, fun hlt => ?_⟩
  · by_contra hr
    have := partialSum_mono (fun i => (Luby.after (i - 1)).v)
      (show s'.ctx.search.restarts ≤ 2 ^ j - 1 by omega)
    omega
  · by_contra hr
    have := partialSum_mono (fun i => (Luby.after (i - 1)).v)
      (show 2 ^ j - 1 ≤ s'.ctx.search.restarts - 1 by omega)
    omega

end

/-- A case for C92: the first terms, -/
theorem C92_terms : (List.range 7).map (partialSum fun i => (Luby.after (i - 1)).v) = [0, 1, 2, 4, 5, 6, 8] := by
  decide +kernel

/-- and a run, in which the only restart is the one before the first conflict. -/
theorem C92_example : ∃ s s', Solver.Input Example.env (Example.cnf (Example.php 4 3)) s ∧
    s.solve Example.env 100 = .ok (s', some false) ∧ s'.ctx.search.conflicts = 6 ∧ s'.ctx.search.restarts = 1 := by
  have h : (do
      let s ← Example.load (Example.php 4 3)
      let (s', r) ← s.solve Example.env 100
      pure (r, s'.ctx.search.conflicts, s'.ctx.search.restarts) : M _) = .ok (some false, 6, 1) := by decide +kernel
  obtain ⟨s, h1, h⟩ := bind_eq_ok.1 h
  obtain ⟨⟨s', r⟩, h2, h⟩ := bind_eq_ok.1 h
  simp only [pure_eq, Except.ok.injEq, Prod.mk.injEq] at h
  obtain ⟨rfl, h4, h5⟩ := h
  have hi := Solver.Input.addClauses _ (.proof (.new (env := Example.env)))
    (Example.ok_valid (F := Example.php 4 3) (by decide +kernel)) h1
  exact ⟨s, s', by simpa using hi, h2, h4, h5⟩

end Starlit
