import Verif.Props.ResolutionRun

/-!
# C112: runs that answer UNSAT give interpolants

If a formula `A ++ B` is unsatisfiable, some Boolean function of the variables that `A` and `B` share follows from `A`
and contradicts `B` (Craig).  A run of `solve()` with few conflicts gives such a function with a small circuit, by
feasible interpolation (Krajíček 1997, Pudlák 1997).  Read the other way, two parts of a formula that are only
separated by large circuits need many conflicts.
-/

namespace Starlit
open Resolution

/-- A gate of a circuit; the numbers `i` and `j` are those of the gates that it reads, `x` is a variable. -/
inductive Gate where
  | const (b : Bool)
  | or (i j : Nat)
  | and (i j : Nat)
  | mux (x i j : Nat)
deriving DecidableEq

/-- The value of a gate, given the values of the earlier gates in order. -/
def Gate.val (α : Nat → Bool) (v : List Bool) : Gate → Bool
  | .const b => b
  | .or i j => v.getD i false || v.getD j false
  | .and i j => v.getD i false && v.getD j false
  | .mux x i j => if α x then v.getD i false else v.getD j false

/-- The variables that a gate reads. -/
def Gate.vars : Gate → List Nat
  | .mux x _ _ => [x]
  | _ => []

/-- The values of the gates of a circuit, which has its first gate first. -/
def circuitVals (α : Nat → Bool) (g : List Gate) : List Bool := g.foldl (fun v x => v ++ [x.val α v]) []

/-- The value of a circuit is that of its last gate. -/
def circuitVal (α : Nat → Bool) (g : List Gate) : Bool := (circuitVals α g).getLastD false

/-- The variable occurs in the formula. -/
def Occurs (F : List (List Lit)) (x : Nat) : Prop := ∃ c ∈ F, ∃ l ∈ c, l.index = x

/-- The circuit is an interpolant: it reads variables that occur in both formulas, is true in all models of the first
and false in all models of the second. -/
structure Interpolant (A B : List (List Lit)) (g : List Gate) : Prop where
  shared : ∀ x ∈ g.flatMap Gate.vars, Occurs A x ∧ Occurs B x
  left : ∀ α, FormulaSat α A → circuitVal α g = true
  right : ∀ α, FormulaSat α B → circuitVal α g = false

theorem circuitVals_snoc (α : Nat → Bool) (g : List Gate) (x : Gate) :
    circuitVals α (g ++ [x]) = circuitVals α g ++ [x.val α (circuitVals α g)] := by
  simp [circuitVals, List.foldl_append]

theorem circuitVals_length (α : Nat → Bool) (g : List Gate) : (circuitVals α g).length = g.length := by
  induction g using List.reverseRecOn with
  | nil => rfl
  | append_singleton g x ih => rw [circuitVals_snoc]; simp [ih]

section
variable {A B : List (List Lit)}

/-- The gate with number `i` is a partial interpolant for the clause: it is true in all models of `A` that make the
literals with variables of `A` false, and false in all models of `B` that make those with variables of `B` false. -/
structure PartialItp (A B : List (List Lit)) (g : List Gate) (C : Finset Lit) (i : Nat) : Prop where
  lt : i < g.length
  left : ∀ α, FormulaSat α A → (∀ l ∈ C, Occurs A l.index → ¬ LitSat α l) → (circuitVals α g).getD i false = true
  right : ∀ α, FormulaSat α B → (∀ l ∈ C, Occurs B l.index → ¬ LitSat α l) → (circuitVals α g).getD i false = false

theorem getD_snoc_lt {v : List Bool} {b : Bool} {i : Nat} (h : i < v.length) : (v ++ [b]).getD i false = v.getD i false := by
  simp [List.getD_eq_getElem?_getD, List.getElem?_append_left h]

theorem getD_snoc_eq {v : List Bool} {b : Bool} : (v ++ [b]).getD v.length false = b := by
  simp [List.getD_eq_getElem?_getD]

theorem PartialItp.snoc {g : List Gate} {C : Finset Lit} {i : Nat} (h : PartialItp A B g C i) (x : Gate) :
    PartialItp A B (g ++ [x]) C i := by
  have key : ∀ α, (circuitVals α (g ++ [x])).getD i false = (circuitVals α g).getD i false := fun α => by
    rw [circuitVals_snoc, getD_snoc_lt (by rw [circuitVals_length]; exact h.lt)]
  exact ⟨by rw [List.length_append]; exact Nat.lt_add_right _ h.lt, fun α h1 h2 => by rw [key]; exact h.left α h1 h2,
    fun α h1 h2 => by rw [key]; exact h.right α h1 h2⟩

theorem Gate.mux_val {α : Nat → Bool} {v : List Bool} {l : Lit} {i j : Nat} :
    (Gate.mux l.index (if l.isPositive then j else i) (if l.isPositive then i else j)).val α v =
      if α l.index = l.isPositive then v.getD j false else v.getD i false := by
  show (if α l.index = true then v.getD (if l.isPositive then j else i) false
    else v.getD (if l.isPositive then i else j) false) = _
  cases l.isPositive <;> cases α l.index <;> simp

/-- The gate for a resolvent. -/
theorem PartialItp.resolvent {g : List Gate} {C D E : Finset Lit} {i j : Nat} (hC : PartialItp A B g C i)
    (hD : PartialItp A B g D j) (hE : Resolvent C D E) :
    ∃ x : Gate, PartialItp A B (g ++ [x]) E g.length ∧ ∀ y ∈ x.vars, Occurs A y ∧ Occurs B y := by
  classical
  obtain ⟨l, hl, hn, rfl⟩ := hE
  have last : ∀ (α : Nat → Bool) (x : Gate),
      (circuitVals α (g ++ [x])).getD g.length false = x.val α (circuitVals α g) := fun α x => by
    rw [circuitVals_snoc, ← circuitVals_length α g, getD_snoc_eq]
  have hlt : ∀ x : Gate, g.length < (g ++ [x]).length := fun x => by simp
  -- one of the two clauses is false where the resolvent is
  have inC : ∀ {α : Nat → Bool} {P : Nat → Prop}, (∀ o ∈ C.erase l ∪ D.erase l.neg, P o.index → ¬ LitSat α o) →
      (P l.index → ¬ LitSat α l) → ∀ o ∈ C, P o.index → ¬ LitSat α o := by
    intro α P h1 h2 o ho hP
    by_cases e : o = l
    · subst e; exact h2 hP
    · exact h1 o (Finset.mem_union_left _ (Finset.mem_erase.2 ⟨e, ho⟩)) hP
  have inD : ∀ {α : Nat → Bool} {P : Nat → Prop}, (∀ o ∈ C.erase l ∪ D.erase l.neg, P o.index → ¬ LitSat α o) →
      (P l.index → LitSat α l) → ∀ o ∈ D, P o.index → ¬ LitSat α o := by
    intro α P h1 h2 o ho hP
    by_cases e : o = l.neg
    · subst e
      rw [Lit.index_neg] at hP
      exact fun h3 => litSat_neg.1 h3 (h2 hP)
    · exact h1 o (Finset.mem_union_right _ (Finset.mem_erase.2 ⟨e, ho⟩)) hP
  by_cases hB : Occurs B l.index
  · by_cases hA : Occurs A l.index
    · -- a shared variable
      refine ⟨.mux l.index (if l.isPositive then j else i) (if l.isPositive then i else j),
        ⟨hlt _, fun α h1 h2 => ?_, fun α h1 h2 => ?_⟩, by simp [Gate.vars, hA, hB]⟩
      all_goals
        rw [last, Gate.mux_val]
        by_cases hs : α l.index = l.isPositive
      · rw [if_pos hs]; exact hD.left α h1 (inD h2 fun _ => hs)
      · rw [if_neg hs]; exact hC.left α h1 (inC h2 fun _ => hs)
      · rw [if_pos hs]; exact hD.right α h1 (inD h2 fun _ => hs)
      · rw [if_neg hs]; exact hC.right α h1 (inC h2 fun _ => hs)
    · -- a variable of `B` alone
      refine ⟨.and i j, ⟨hlt _, fun α h1 h2 => ?_, fun α h1 h2 => ?_⟩, by simp [Gate.vars]⟩
      all_goals
        rw [last]
        simp only [Gate.val]
      · rw [hC.left α h1 (inC h2 fun h => absurd h hA), hD.left α h1 (inD h2 fun h => absurd h hA)]
        rfl
      · by_cases hs : α l.index = l.isPositive
        · rw [hD.right α h1 (inD h2 fun _ => hs), Bool.and_false]
        · rw [hC.right α h1 (inC h2 fun _ => hs), Bool.false_and]
  · -- a variable of `A` alone
    refine ⟨.or i j, ⟨hlt _, fun α h1 h2 => ?_, fun α h1 h2 => ?_⟩, by simp [Gate.vars]⟩
    all_goals
      rw [last]
      simp only [Gate.val]
    · by_cases hs : α l.index = l.isPositive
      · rw [hD.left α h1 (inD h2 fun _ => hs), Bool.or_true]
      · rw [hC.left α h1 (inC h2 fun _ => hs), Bool.true_or]
    · rw [hC.right α h1 (inC h2 fun h => absurd h hB), hD.right α h1 (inD h2 fun h => absurd h hB)]
      rfl

/-- A circuit for a derivation: two constants and a gate for each step. -/
theorem Derivation.circuit {π : List (Finset Lit)} (h : Derivation (A ++ B) π) :
    ∃ g : List Gate, g.length = 2 + π.length ∧ (∀ x ∈ g.flatMap Gate.vars, Occurs A x ∧ Occurs B x) ∧
      ∀ C, Known (A ++ B) π C → ∃ i, PartialItp A B g C i := by
  induction h with
  | nil =>
    refine ⟨[.const false, .const true], rfl, by simp [Gate.vars], ?_⟩
    rintro C (⟨c, hc, rfl⟩ | hc)
    · rcases List.mem_append.1 hc with hc | hc
      · refine ⟨0, by simp, fun α h1 h2 => ?_, fun α _ _ => rfl⟩
        obtain ⟨l, hl, hs⟩ := h1 c hc
        exact absurd hs (h2 l (List.mem_toFinset.2 hl) ⟨c, hc, l, hl, rfl⟩)
      · refine ⟨1, by simp, fun α _ _ => rfl, fun α h1 h2 => ?_⟩
        obtain ⟨l, hl, hs⟩ := h1 c hc
        exact absurd hs (h2 l (List.mem_toFinset.2 hl) ⟨c, hc, l, hl, rfl⟩)
    · simp at hc
  | @step π C D E h hC hD hE ih =>
    obtain ⟨g, h1, h2, h3⟩ := ih
    obtain ⟨i, hi⟩ := h3 C hC
    obtain ⟨j, hj⟩ := h3 D hD
    obtain ⟨x, k1, k2⟩ := hi.resolvent hj hE
    refine ⟨g ++ [x], by simp [h1]; omega, fun y hy => ?_, ?_⟩
    · rw [List.flatMap_append, List.mem_append] at hy
      rcases hy with hy | hy
      · exact h2 y hy
      · exact k2 y (by simpa using hy)
    · rintro K (hK | hK)
      · obtain ⟨m, hm⟩ := h3 K (.inl hK)
        exact ⟨m, hm.snoc x⟩
      · rcases List.mem_cons.1 hK with rfl | hK
        · exact ⟨_, k1⟩
        · obtain ⟨m, hm⟩ := h3 K (.inr hK)
          exact ⟨m, hm.snoc x⟩

/-- Feasible interpolation for resolution. -/
theorem Refutation.interpolant {π : List (Finset Lit)} (h : Refutation (A ++ B) π) :
    ∃ g, Interpolant A B g ∧ g.length ≤ 3 + π.length := by
  obtain ⟨g, h1, h2, h3⟩ := Derivation.circuit h.1
  obtain ⟨i, hi⟩ := h3 ∅ h.2
  have hv : ∀ α, circuitVal α (g ++ [.or i i]) = (circuitVals α g).getD i false := fun α => by
    unfold circuitVal
    rw [circuitVals_snoc]
    simp [Gate.val]
  refine ⟨g ++ [.or i i], ⟨fun x hx => h2 x ?_, fun α h => ?_, fun α h => ?_⟩, by simp [h1]⟩
  · simpa [List.flatMap_append, Gate.vars] using hx
  · rw [hv]; exact hi.left α h (by simp)
  · rw [hv]; exact hi.right α h (by simp)

variable {env : Env} {s s' : Solver} {k : Nat}

/-- C112: if `solve()` answers UNSAT for the clauses of `A` and `B`, there is an interpolant with a circuit of at most one
gate for each conflict and variable, and three more. -/
theorem C112_interpolant (h : Solver.Input env (A ++ B) s) (e : s.solve env k = .ok (s', some false)) :
    ∃ g, Interpolant A B g ∧ g.length ≤ 3 + formulaVars (A ++ B) * max 1 s'.ctx.search.conflicts := by
  obtain ⟨π, h1, h2⟩ := C84_refutation h e
  obtain ⟨g, h3, h4⟩ := Refutation.interpolant h1
  exact ⟨g, h3, by omega⟩

/-- C112, read the other way: if `A` and `B` have no interpolant with fewer than `N` gates, `solve()` needs many
conflicts for `A` and `B`. -/
theorem C112_conflicts (h : Solver.Input env (A ++ B) s) (e : s.solve env k = .ok (s', some false)) {N : Nat}
    (hN : ∀ g, Interpolant A B g → N ≤ g.length) : N ≤ 3 + formulaVars (A ++ B) * max 1 s'.ctx.search.conflicts := by
  obtain ⟨g, h1, h2⟩ := C112_interpolant h e
  exact (hN g h1).trans h2

end

/-- An interpolant: the variable that both formulas have. -/
theorem C112_circuit_example :
    Interpolant (Example.cnf [[1, 3], [-1, 2], [-3, 2]]) (Example.cnf [[-2, 4], [-4, -2]])
      [.const false, .const true, .mux 1 1 0] := by
  have hv : ∀ α, circuitVal α [.const false, .const true, .mux 1 1 0] = α 1 := fun α => by
    show (if α 1 = true then true else false) = α 1
    cases α 1 <;> rfl
  refine ⟨fun x hx => ?_, fun α h => ?_, fun α h => ?_⟩
  · have hx : x = 1 := by simpa [Gate.vars] using hx
    subst hx
    exact ⟨⟨Example.cnf [[-1, 2]] |>.head!, by decide +kernel, Example.lit 2, by decide +kernel, by decide +kernel⟩,
      ⟨Example.cnf [[-2, 4]] |>.head!, by decide +kernel, Example.lit (-2), by decide +kernel, by decide +kernel⟩⟩
  · rw [hv]
    have h1 : α 0 = true ∨ α 2 = true := by
      obtain ⟨l, hl, hs⟩ := h (Example.cnf [[1, 3]] |>.head!) (by decide +kernel)
      have : l = Example.lit 1 ∨ l = Example.lit 3 := by simpa [Example.cnf] using hl
      rcases this with rfl | rfl
      · exact .inl hs
      · exact .inr hs
    have h2 : α 0 = false ∨ α 1 = true := by
      obtain ⟨l, hl, hs⟩ := h (Example.cnf [[-1, 2]] |>.head!) (by decide +kernel)
      have : l = Example.lit (-1) ∨ l = Example.lit 2 := by simpa [Example.cnf] using hl
      rcases this with rfl | rfl
      · exact .inl hs
      · exact .inr hs
    have h3 : α 2 = false ∨ α 1 = true := by
      obtain ⟨l, hl, hs⟩ := h (Example.cnf [[-3, 2]] |>.head!) (by decide +kernel)
      have : l = Example.lit (-3) ∨ l = Example.lit 2 := by simpa [Example.cnf] using hl
      rcases this with rfl | rfl
      · exact .inl hs
      · exact .inr hs
    revert h1 h2 h3
    cases α 0 <;> cases α 1 <;> cases α 2 <;> simp
  · rw [hv]
    have h1 : α 1 = false ∨ α 3 = true := by
      obtain ⟨l, hl, hs⟩ := h (Example.cnf [[-2, 4]] |>.head!) (by decide +kernel)
      have : l = Example.lit (-2) ∨ l = Example.lit 4 := by simpa [Example.cnf] using hl
      rcases this with rfl | rfl
      · exact .inl hs
      · exact .inr hs
    have h2 : α 3 = false ∨ α 1 = false := by
      obtain ⟨l, hl, hs⟩ := h (Example.cnf [[-4, -2]] |>.head!) (by decide +kernel)
      have : l = Example.lit (-4) ∨ l = Example.lit (-2) := by simpa [Example.cnf] using hl
      rcases this with rfl | rfl
      · exact .inl hs
      · exact .inr hs
    revert h1 h2
    cases α 1 <;> cases α 3 <;> simp

/-- A run for C112: four pigeons and three holes.  The clauses for the pigeons and those for the holes have an interpolant
with at most 75 gates. -/
theorem C112_example : ∃ s s' g,
    Solver.Input Example.env (Example.cnf ((Example.php 4 3).take 4) ++ Example.cnf ((Example.php 4 3).drop 4)) s ∧
    s.solve Example.env 100 = .ok (s', some false) ∧ s'.ctx.search.conflicts = 6 ∧
    Interpolant (Example.cnf ((Example.php 4 3).take 4)) (Example.cnf ((Example.php 4 3).drop 4)) g ∧ g.length ≤ 75 := by
  obtain ⟨s, s', h1, h2, h3⟩ := C84_example
  have hF : Example.cnf (Example.php 4 3) =
      Example.cnf ((Example.php 4 3).take 4) ++ Example.cnf ((Example.php 4 3).drop 4) := by
    unfold Example.cnf
    rw [← List.map_append, List.take_append_drop]
  rw [hF] at h1
  obtain ⟨g, k1, k2⟩ := C112_interpolant h1 h2
  refine ⟨s, s', g, h1, h2, h3, k1, ?_⟩
  have hn : formulaVars (Example.cnf ((Example.php 4 3).take 4) ++ Example.cnf ((Example.php 4 3).drop 4)) = 12 := by
    rw [← hF]; decide +kernel
  rw [hn, h3] at k2
  exact k2

end Starlit
