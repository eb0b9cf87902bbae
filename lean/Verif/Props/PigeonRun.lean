import Verif.Pigeons
import Verif.Props.ResolutionRun
import Verif.Props.Range
import Verif.Props.IncrementalProof

/-!
# C85: the solver needs exponentially many conflicts for pigeonhole formulas
-/

namespace Starlit
open Resolution

/-- The pigeonhole formula in DIMACS numbers: variable `p * h + k + 1` says that pigeon `p` is in hole `k`.  Each of
`h + 1` pigeons is in one of `h` holes, and no two pigeons are in the same hole. -/
def pigeonhole (h : Nat) : List (List Int) :=
  (List.range (h + 1)).map (fun p => (List.range h).map fun k => ((p * h + k + 1 : Nat) : Int)) ++
  (List.range h).flatMap fun k => (List.range (h + 1)).flatMap fun p => (List.range p).map fun q =>
    [-((p * h + k + 1 : Nat) : Int), -((q * h + k + 1 : Nat) : Int)]

section
variable {env : Env} {F : List (List Lit)} {s s' : Solver} {k h : Nat}

theorem assign_pair {σ : Equiv.Perm (Fin (h + 1))} {p k : Nat} (hp : p < h + 1) (hk : k < h) :
    Pigeons.assign σ (p * h + k) = true ↔ (σ ⟨p, hp⟩).val = k := by
  have h1 : (p * h + k) / h = p := by
    rw [Nat.mul_comm, Nat.mul_add_div (by omega), Nat.div_eq_of_lt hk, Nat.add_zero]
  have h2 : (p * h + k) % h = k := by
    rw [Nat.mul_comm, Nat.mul_add_mod, Nat.mod_eq_of_lt hk]
  rw [Pigeons.assign_eq]
  constructor
  · rintro ⟨hx, e⟩
    rw [h2] at e
    rw [← e]
    congr 3
    exact h1.symm
  · intro e
    refine ⟨by rw [h1]; exact hp, ?_⟩
    have h3 : (⟨(p * h + k) / h, by rw [h1]; exact hp⟩ : Fin (h + 1)) = ⟨p, hp⟩ := Fin.ext h1
    rw [h2, h3, e]

theorem litSat_pos {α : Nat → Bool} {l : Lit} (hv : l.Valid) {x : Nat} (e : l.dimacs = ((x + 1 : Nat) : Int)) :
    LitSat α l ↔ α x = true := by
  rw [Lit.dimacs_eq hv] at e
  unfold LitSat
  cases hp : l.isPositive with
  | true =>
    rw [hp] at e
    simp only [if_true] at e
    have : l.index = x := by omega
    rw [this]
  | false =>
    rw [hp] at e
    simp only [Bool.false_eq_true, if_false] at e
    omega

theorem litSat_negative {α : Nat → Bool} {l : Lit} (hv : l.Valid) {x : Nat} (e : l.dimacs = -((x + 1 : Nat) : Int)) :
    LitSat α l ↔ ¬ α x = true := by
  rw [Lit.dimacs_eq hv] at e
  unfold LitSat
  cases hp : l.isPositive with
  | true =>
    rw [hp] at e
    simp only [if_true] at e
    omega
  | false =>
    rw [hp] at e
    simp only [Bool.false_eq_true, if_false] at e
    have : l.index = x := by omega
    rw [this, Bool.not_eq_true]

theorem mem_pigeonhole {c : List Int} (hc : c ∈ pigeonhole h) :
    (∃ p < h + 1, c = (List.range h).map fun k => ((p * h + k + 1 : Nat) : Int)) ∨
    ∃ k < h, ∃ p < h + 1, ∃ q < p, c = [-((p * h + k + 1 : Nat) : Int), -((q * h + k + 1 : Nat) : Int)] := by
  unfold pigeonhole at hc
  rcases List.mem_append.1 hc with hc | hc
  · obtain ⟨p, hp, rfl⟩ := List.mem_map.1 hc
    exact .inl ⟨p, List.mem_range.1 hp, rfl⟩
  · obtain ⟨k, hk, hc⟩ := List.mem_flatMap.1 hc
    obtain ⟨p, hp, hc⟩ := List.mem_flatMap.1 hc
    obtain ⟨q, hq, rfl⟩ := List.mem_map.1 hc
    exact .inr ⟨k, List.mem_range.1 hk, p, List.mem_range.1 hp, q, List.mem_range.1 hq, rfl⟩

/-- The pigeonhole formula is one to which the lower bound applies. -/
theorem pigeonhole_admits (hv : ∀ c ∈ F, ∀ l ∈ c, l.Valid) (hF : F.map (List.map Lit.dimacs) = pigeonhole h) :
    Pigeons.Admits h F := by
  intro c hc
  have hm : c.map Lit.dimacs ∈ pigeonhole h := hF ▸ List.mem_map_of_mem hc
  rcases mem_pigeonhole hm with ⟨p, hp, e⟩ | ⟨k, hk, p, hp, q, hq, e⟩
  · refine ⟨⟨p, hp⟩, fun σ hf => ?_⟩
    by_contra hne
    have hlt : (σ ⟨p, hp⟩).val < h := by
      have h1 := (σ ⟨p, hp⟩).isLt
      have h2 : (σ ⟨p, hp⟩).val ≠ h := fun h2 => hne (Fin.ext h2)
      omega
    have : ((p * h + (σ ⟨p, hp⟩).val + 1 : Nat) : Int) ∈ c.map Lit.dimacs := by
      rw [e]; exact List.mem_map.2 ⟨_, List.mem_range.2 hlt, rfl⟩
    obtain ⟨l, hl, el⟩ := List.mem_map.1 this
    refine hf l (List.mem_toFinset.2 hl) ?_
    rw [litSat_pos (hv c hc l hl) el, assign_pair hp hlt]
  · refine ⟨⟨p, hp⟩, fun σ hf => ?_⟩
    exfalso
    have sat : ∀ x, -((x + 1 : Nat) : Int) ∈ c.map Lit.dimacs → Pigeons.assign σ x = true := by
      intro x hx
      obtain ⟨l, hl, el⟩ := List.mem_map.1 hx
      have := hf l (List.mem_toFinset.2 hl)
      rw [litSat_negative (hv c hc l hl) el] at this
      simpa using this
    have h1 := sat (p * h + k) (by rw [e]; simp)
    have h2 := sat (q * h + k) (by rw [e]; simp)
    rw [assign_pair hp hk] at h1
    rw [assign_pair (by omega) hk] at h2
    have h3 := σ.injective (Fin.ext (h1.trans h2.symm))
    have : p = q := congrArg Fin.val h3
    omega

theorem pigeonhole_vars (hv : ∀ c ∈ F, ∀ l ∈ c, l.Valid) (hF : F.map (List.map Lit.dimacs) = pigeonhole h) :
    formulaVars F ≤ (h + 1) * h := by
  refine formulaVars_le fun c hc l hl => ?_
  have hm : c.map Lit.dimacs ∈ pigeonhole h := hF ▸ List.mem_map_of_mem hc
  have hd : l.dimacs ∈ c.map Lit.dimacs := List.mem_map_of_mem hl
  have hidx : l.index + 1 = l.dimacs.natAbs := by
    rw [Lit.dimacs_eq (hv c hc l hl)]
    split <;> omega
  have bound : ∀ p k, p < h + 1 → k < h → p * h + k + 1 ≤ (h + 1) * h := by
    intro p k hp hk
    calc p * h + k + 1 ≤ p * h + h := by omega
      _ = (p + 1) * h := by rw [Nat.add_mul, Nat.one_mul]
      _ ≤ (h + 1) * h := Nat.mul_le_mul_right _ hp
  rcases mem_pigeonhole hm with ⟨p, hp, e⟩ | ⟨k, hk, p, hp, q, hq, e⟩
  · rw [e] at hd
    obtain ⟨k, hk, ek⟩ := List.mem_map.1 hd
    have := bound p k hp (List.mem_range.1 hk)
    rw [← ek] at hidx
    omega
  · rw [e] at hd
    have b1 := bound p k hp hk
    have b2 := bound q k (by omega) hk
    simp only [List.mem_cons, List.not_mem_nil, or_false] at hd
    rcases hd with hd | hd <;> rw [hd] at hidx <;> omega

/-- C85: for the pigeonhole formula with `h + 1` pigeons and any `t` with `t ≤ 0.329 * (h + 1)` (the condition
`9 * (h + 1) ^ 2 ≤ 20 * (h + 1 - t) ^ 2`), a call of `solve()` that answers UNSAT has at least
`(10 / 9) ^ t / (h * (h + 1))` conflicts, whatever it decides, learns and deletes. -/
theorem C85_pigeons (hi : Solver.Input env F s) (hF : F.map (List.map Lit.dimacs) = pigeonhole h)
    (e : s.solve env k = .ok (s', some false)) {t : Nat} (h3 : t + 2 ≤ h)
    (h4 : 9 * (h + 1) ^ 2 ≤ 20 * (h + 1 - t) ^ 2) :
    10 ^ t ≤ 9 ^ t * ((h + 1) * h * max 1 s'.ctx.search.conflicts) := by
  obtain ⟨π, h1, h2⟩ := C84_refutation hi e
  refine le_trans (Pigeons.long_refutations (by omega) (pigeonhole_admits hi.valid hF) h1 h3 h4)
    (Nat.mul_le_mul_left _ (le_trans h2 (Nat.mul_le_mul_right _ (pigeonhole_vars hi.valid hF))))

/-- C85: with `t` a quarter of the number of pigeons. -/
theorem C85_exponential (hi : Solver.Input env F s) (hF : F.map (List.map Lit.dimacs) = pigeonhole h)
    (e : s.solve env k = .ok (s', some false)) (h3 : 3 ≤ h) :
    10 ^ ((h + 1) / 4) ≤ 9 ^ ((h + 1) / 4) * ((h + 1) * h * max 1 s'.ctx.search.conflicts) := by
  refine C85_pigeons hi hF e (by omega) ?_
  obtain ⟨a, ha⟩ : ∃ a, h + 1 - (h + 1) / 4 = a := ⟨_, rfl⟩
  rw [ha]
  have : 3 * (h + 1) ≤ 4 * a := by omega
  nlinarith

/-- The pigeonhole formula is unsatisfiable. -/
theorem pigeonhole_unsat (hv : ∀ c ∈ F, ∀ l ∈ c, l.Valid) (hF : F.map (List.map Lit.dimacs) = pigeonhole h) :
    FormulaUnsat F := by
  intro α hα
  have clause : ∀ c ∈ pigeonhole h, ∃ x ∈ c, (∀ y : Nat, x = ((y + 1 : Nat) : Int) → α y = true) ∧
      ∀ y : Nat, x = -((y + 1 : Nat) : Int) → ¬ α y = true := by
    intro c hc
    rw [← hF] at hc
    obtain ⟨d, hd, rfl⟩ := List.mem_map.1 hc
    obtain ⟨l, hl, hs⟩ := hα d hd
    exact ⟨l.dimacs, List.mem_map_of_mem hl, fun y hy => (litSat_pos (hv d hd l hl) hy).1 hs,
      fun y hy => (litSat_negative (hv d hd l hl) hy).1 hs⟩
  have hole : ∀ p : Fin (h + 1), ∃ k : Fin h, α (p.val * h + k.val) = true := by
    intro p
    obtain ⟨x, hx, h1, _⟩ := clause ((List.range h).map fun k => ((p.val * h + k + 1 : Nat) : Int))
      (List.mem_append_left _ (List.mem_map.2 ⟨p.val, List.mem_range.2 p.isLt, rfl⟩))
    obtain ⟨k, hk, rfl⟩ := List.mem_map.1 hx
    exact ⟨⟨k, List.mem_range.1 hk⟩, h1 _ rfl⟩
  choose f hf using hole
  obtain ⟨p, q, hne, he⟩ := Fintype.exists_ne_map_eq_of_card_lt f (by simp)
  have key : ∀ p q : Fin (h + 1), q.val < p.val → f p = f q → False := by
    intro p q hlt he
    obtain ⟨x, hx, _, h2⟩ := clause
      [-((p.val * h + (f p).val + 1 : Nat) : Int), -((q.val * h + (f p).val + 1 : Nat) : Int)]
      (List.mem_append_right _ (List.mem_flatMap.2 ⟨(f p).val, List.mem_range.2 (f p).isLt,
        List.mem_flatMap.2 ⟨p.val, List.mem_range.2 p.isLt, List.mem_map.2 ⟨q.val, List.mem_range.2 hlt, rfl⟩⟩⟩))
    simp only [List.mem_cons, List.not_mem_nil, or_false] at hx
    rcases hx with hx | hx
    · exact h2 _ hx (hf p)
    · refine h2 _ hx ?_
      rw [he]; exact hf q
  rcases Nat.lt_or_gt_of_ne (fun h => hne (Fin.ext h)) with hlt | hlt
  · exact key q p hlt he.symm
  · exact key p q hlt he

/-- C85: for more than 2000 pigeons `solve()` does not answer as long as the conflict counter (64 bits) does not
overflow. -/
theorem C85_never (hi : Solver.Input env F s) (hF : F.map (List.map Lit.dimacs) = pigeonhole h) (h0 : 2000 ≤ h)
    {r : Option Bool} (e : s.solve env k = .ok (s', r)) (hc : s'.ctx.search.conflicts < 2 ^ 64) : r = none := by
  cases r with
  | none => rfl
  | some b =>
    exfalso
    cases b with
    | true =>
      obtain ⟨α, hα, _⟩ := C02_sat_correct (.input hi) e
      exact pigeonhole_unsat hi.valid hF α hα
    | false =>
      obtain ⟨π, h1, h2⟩ := C84_refutation hi e
      have h3 := Pigeons.long_refutations (by omega) (pigeonhole_admits hi.valid hF) h1 (t := 640) (by omega) (by
        obtain ⟨a, rfl⟩ := Nat.exists_eq_add_of_le h0
        have : 2000 + a + 1 - 640 = 1361 + a := by omega
        rw [this]
        nlinarith)
      have h4 : π.length ≤ 2 ^ 30 * 2 ^ 64 := le_trans h2 (Nat.mul_le_mul hi.vars_le (by omega))
      have h5 := le_trans h3 (Nat.mul_le_mul_left _ h4)
      exact absurd h5 (by decide +kernel)

end

/-- A case for C85: four pigeons and three holes, refuted with 6 conflicts. -/
theorem C85_example : ∃ s s', Solver.Input Example.env (Example.cnf (Example.php 4 3)) s ∧
    (Example.cnf (Example.php 4 3)).map (List.map Lit.dimacs) = pigeonhole 3 ∧
    s.solve Example.env 100 = .ok (s', some false) ∧ s'.ctx.search.conflicts = 6 := by
  obtain ⟨s, s', h1, h2, h3⟩ := C84_example
  exact ⟨s, s', h1, by decide +kernel, h2, h3⟩

end Starlit
