import Verif.Spec
import Verif.Props.Drat

/-!
# Specification: an executable proof checker

A forward checker for DRAT files without resolution asymmetric tautologies, on the level of DIMACS
numbers.  It does not refer to the solver.  `DratCheck.check_sound` shows that it only accepts proofs of
unsatisfiable formulas, `DratCheck.check_complete` that it accepts the logs that are `Accepted`.
-/

namespace Starlit

/-- An assignment of the variables 1, 2, … satisfies a DIMACS literal. -/
def NumSat (α : Nat → Bool) (n : Int) : Prop := α n.natAbs = decide (0 < n)

/-- An assignment satisfies all clauses. -/
def CnfSat (α : Nat → Bool) (F : List (List Int)) : Prop := ∀ c ∈ F, ∃ n ∈ c, NumSat α n

namespace DratCheck

/-- The literals of a clause that are not falsified by the literals `as`. -/
def unfalsified (as c : List Int) : List Int := c.filter (fun n => !as.contains (-n))

/-- The first clause that is falsified (`some none`) or has a single literal that is neither falsified
nor satisfied (`some (some n)`). -/
def look (as : List Int) : List (List Int) → Option (Option Int)
  | [] => none
  | c :: cs =>
    match unfalsified as c with
    | [] => some none
    | n :: rest => if rest.all (· == n) && !as.contains n then some (some n) else look as cs

/-- Unit propagation, with at most `k` units, falsifies a clause. -/
def refutes : Nat → List (List Int) → List Int → Bool
  | 0, _, _ => false
  | k + 1, F, as =>
    match look as F with
    | none => false
    | some none => true
    | some (some n) => refutes k F (n :: as)

/-- The number of literals bounds the number of units. -/
def bound (F : List (List Int)) : Nat := F.flatten.length + 1

/-- Remove the first clause that is equal up to the order of literals. -/
def remove (c : List Int) : List (List Int) → Option (List (List Int))
  | [] => none
  | d :: ds => if d.isPerm c then some ds else (remove c ds).map (d :: ·)

/-- One line of the proof. -/
def step (F : List (List Int)) (d : DratLine) : Option (List (List Int)) :=
  if d.delete then remove d.lits F
  else if d.lits.contains 0 then none
  else if refutes (bound F) F (d.lits.map (- ·)) then some (d.lits :: F)
  else none

/-- The clauses after all lines. -/
def steps (F : List (List Int)) : List DratLine → Option (List (List Int))
  | [] => some F
  | d :: ds => (step F d).bind (fun F' => steps F' ds)

/-- The lines are a proof: after them, unit propagation falsifies a clause. -/
def check (F : List (List Int)) (ds : List DratLine) : Bool :=
  !F.flatten.contains 0 && match steps F ds with
    | none => false
    | some F' => refutes (bound F') F' []

/-! ## Soundness -/

theorem numSat_neg {α : Nat → Bool} {n : Int} (h : n ≠ 0) : NumSat α (-n) ↔ ¬ NumSat α n := by
  unfold NumSat
  rw [Int.natAbs_neg]
  rcases lt_or_gt_of_ne h with h | h
  · have h1 : 0 < -n := by omega
    have h2 : ¬ 0 < n := by omega
    rw [decide_eq_true h1, decide_eq_false h2]
    cases α n.natAbs <;> simp
  · have h1 : ¬ 0 < -n := by omega
    rw [decide_eq_false h1, decide_eq_true h]
    cases α n.natAbs <;> simp

theorem look_sound {α : Nat → Bool} {as : List Int} (ha : ∀ n ∈ as, NumSat α n) :
    ∀ {F : List (List Int)}, (∀ c ∈ F, ∀ n ∈ c, n ≠ 0) → CnfSat α F →
      look as F ≠ some none ∧ ∀ n, look as F = some (some n) → NumSat α n
  | [], _, _ => by simp [look]
  | c :: cs, h0, hs => by
    obtain ⟨m, hm, hms⟩ := hs c (by simp)
    have hu : m ∈ unfalsified as c := by
      unfold unfalsified
      rw [List.mem_filter]
      refine ⟨hm, ?_⟩
      simp only [List.contains_eq_mem, Bool.not_eq_true', decide_eq_false_iff_not]
      intro hn
      exact (numSat_neg (h0 c (by simp) m hm)).1 (ha _ hn) hms
    unfold look
    split
    · rename_i h
      rw [h] at hu; simp at hu
    · rename_i n rest h
      split
      · rename_i hr
        refine ⟨by simp, ?_⟩
        intro n' e
        simp only [Option.some.injEq] at e
        subst e
        rw [h] at hu
        rcases List.mem_cons.1 hu with rfl | hu
        · exact hms
        · simp only [Bool.and_eq_true, List.all_eq_true, beq_iff_eq] at hr
          rw [← hr.1 m hu]; exact hms
      · exact look_sound ha (fun c hc => h0 c (by simp [hc])) (fun c hc => hs c (by simp [hc]))

theorem refutes_sound {α : Nat → Bool} {F : List (List Int)} (h0 : ∀ c ∈ F, ∀ n ∈ c, n ≠ 0)
    (hF : CnfSat α F) : ∀ {k : Nat} {as : List Int}, refutes k F as = true → ¬ ∀ n ∈ as, NumSat α n
  | 0, _, h => by simp [refutes] at h
  | k + 1, as, h => by
    intro ha
    have hl := look_sound ha h0 hF
    unfold refutes at h
    split at h
    · simp at h
    · rename_i e; exact hl.1 e
    · rename_i n e
      refine refutes_sound h0 hF h ?_
      intro m hm
      rcases List.mem_cons.1 hm with rfl | hm
      · exact hl.2 _ e
      · exact ha m hm

theorem remove_sub : ∀ {F F' : List (List Int)} {c : List Int}, remove c F = some F' → ∀ d ∈ F', d ∈ F
  | [], _, _, h => by simp [remove] at h
  | d :: ds, F', c, h => by
    unfold remove at h
    split at h
    · simp only [Option.some.injEq] at h
      subst h
      intro x hx; simp [hx]
    · obtain ⟨G, hG, rfl⟩ := Option.map_eq_some_iff.1 h
      intro x hx
      rcases List.mem_cons.1 hx with rfl | hx
      · simp
      · simp [remove_sub hG x hx]

theorem step_sound {α : Nat → Bool} {F F' : List (List Int)} {d : DratLine} (h : step F d = some F')
    (h0 : ∀ c ∈ F, ∀ n ∈ c, n ≠ 0) (hF : CnfSat α F) : (∀ c ∈ F', ∀ n ∈ c, n ≠ 0) ∧ CnfSat α F' := by
  unfold step at h
  split at h
  · have := remove_sub h
    exact ⟨fun c hc => h0 c (this c hc), fun c hc => hF c (this c hc)⟩
  · split at h
    · simp at h
    · rename_i hz
      split at h
      · rename_i hr
        simp only [Option.some.injEq] at h
        subst h
        have hd : ∀ n ∈ d.lits, n ≠ 0 := by
          rintro n hn rfl
          exact hz (by simpa using hn)
        refine ⟨?_, ?_⟩
        · intro c hc
          rcases List.mem_cons.1 hc with rfl | hc
          · exact hd
          · exact h0 c hc
        · intro c hc
          rcases List.mem_cons.1 hc with rfl | hc
          · by_contra hn
            refine refutes_sound h0 hF hr ?_
            intro m hm
            obtain ⟨n, hn', rfl⟩ := List.mem_map.1 hm
            exact (numSat_neg (hd n hn')).2 (fun hs => hn ⟨n, hn', hs⟩)
          · exact hF c hc
      · simp at h

theorem steps_sound {α : Nat → Bool} : ∀ {ds : List DratLine} {F F' : List (List Int)},
    steps F ds = some F' → (∀ c ∈ F, ∀ n ∈ c, n ≠ 0) → CnfSat α F →
      (∀ c ∈ F', ∀ n ∈ c, n ≠ 0) ∧ CnfSat α F'
  | [], F, F', h, h0, hF => by
    simp only [steps, Option.some.injEq] at h
    subst h; exact ⟨h0, hF⟩
  | d :: ds, F, F', h, h0, hF => by
    unfold steps at h
    obtain ⟨G, hG, h⟩ := Option.bind_eq_some_iff.1 h
    obtain ⟨h1, h2⟩ := step_sound hG h0 hF
    exact steps_sound h h1 h2

/-- The checker only accepts proofs of unsatisfiable formulas. -/
theorem check_sound {F : List (List Int)} {ds : List DratLine} (h : check F ds = true) :
    ¬ ∃ α, CnfSat α F := by
  rintro ⟨α, hF⟩
  unfold check at h
  simp only [Bool.and_eq_true, Bool.not_eq_true'] at h
  obtain ⟨hz, h⟩ := h
  have h0 : ∀ c ∈ F, ∀ n ∈ c, n ≠ 0 := by
    rintro c hc n hn rfl
    rw [← Bool.not_eq_true] at hz
    apply hz
    simp only [List.contains_eq_mem, decide_eq_true_eq, List.mem_flatten]
    exact ⟨c, hc, hn⟩
  split at h
  · simp at h
  · rename_i F' e
    obtain ⟨h1, h2⟩ := steps_sound e h0 hF
    exact refutes_sound h1 h2 h (by simp)

/-! ## Completeness -/

/-- Clauses up to the order of literals, with multiplicities. -/
def db (F : List (List Int)) : Multiset (Multiset Int) := Multiset.ofList (F.map Multiset.ofList)

/-- The DIMACS numbers of a database. -/
def nums (D : DB) : Multiset (Multiset Int) := D.map (Multiset.map Lit.dimacs)

theorem look_none {as : List Int} : ∀ {F : List (List Int)}, look as F = none → ∀ c ∈ F,
    ∃ n rest, unfalsified as c = n :: rest ∧ ((∀ m ∈ rest, m = n) → n ∈ as)
  | [], _ => by simp
  | c :: cs, h => by
    unfold look at h
    intro d hd
    split at h
    · simp at h
    · rename_i n rest e
      split at h
      · simp at h
      · rename_i hr
        rcases List.mem_cons.1 hd with rfl | hd
        · refine ⟨n, rest, e, fun ha => ?_⟩
          by_contra hn
          apply hr
          simp only [Bool.and_eq_true, List.all_eq_true, beq_iff_eq]
          exact ⟨ha, by simpa using hn⟩
        · exact look_none h d hd

theorem look_unit {as : List Int} {n : Int} : ∀ {F : List (List Int)}, look as F = some (some n) →
    n ∈ F.flatten ∧ n ∉ as
  | [], h => by simp [look] at h
  | c :: cs, h => by
    unfold look at h
    split at h
    · simp at h
    · rename_i m rest e
      split at h
      · rename_i hr
        simp only [Option.some.injEq] at h
        subst h
        simp only [Bool.and_eq_true, Bool.not_eq_true', List.contains_eq_mem,
          decide_eq_false_iff_not] at hr
        have hm : m ∈ unfalsified as c := by rw [e]; simp
        exact ⟨by simp [(List.mem_filter.1 hm).1], hr.2⟩
      · obtain ⟨h1, h2⟩ := look_unit h
        exact ⟨by rw [List.flatten_cons]; exact List.mem_append_right _ h1, h2⟩

variable {F : List (List Int)} {D : DB}

theorem mem_of_db (hD : db F = nums D) {K : Multiset Lit} (hK : K ∈ D) :
    ∃ c ∈ F, (c : Multiset Int) = K.map Lit.dimacs := by
  have : K.map Lit.dimacs ∈ db F := by rw [hD]; exact Multiset.mem_map_of_mem _ hK
  unfold db at this
  rw [Multiset.mem_coe, List.mem_map] at this
  exact this

theorem look_conflict (hD : db F = nums D) (hv : ∀ K ∈ D, ∀ l ∈ K, l.Valid) {A : Lit → Prop}
    {as : List Int} (hA : ∀ l, A l → l.dimacs ∈ as) (hc : UpConflict D A) : look as F ≠ none := by
  intro hl
  have hn := look_none hl
  have hneg : ∀ K ∈ D, ∀ o ∈ K, o.neg.dimacs = - o.dimacs := fun K hK o ho =>
    ((C24_negation o).2.2.2.2.1 (hv K hK o ho)).2
  have key : ∀ l, Implied D A l → l.dimacs ∈ as := by
    intro l h
    induction h with
    | asm h => exact hA _ h
    | @unit l R hK _ ih =>
      obtain ⟨c, hcF, ec⟩ := mem_of_db hD hK
      obtain ⟨n, rest, e, h⟩ := hn c hcF
      have hall : ∀ m ∈ unfalsified as c, m = l.dimacs := by
        intro m hm
        obtain ⟨h1, h2⟩ := List.mem_filter.1 hm
        have h3 : m ∈ (c : Multiset Int) := h1
        rw [ec] at h3
        obtain ⟨o, ho, rfl⟩ := Multiset.mem_map.1 h3
        rcases Multiset.mem_cons.1 ho with rfl | ho
        · rfl
        · exfalso
          have := ih o ho
          rw [hneg _ hK o (Multiset.mem_cons_of_mem ho)] at this
          simp [this] at h2
      have hn' : n = l.dimacs := hall n (by rw [e]; simp)
      rw [← hn']
      exact h fun m hm => by rw [hn']; exact hall m (by rw [e]; simp [hm])
  obtain ⟨K, hK, h⟩ := hc
  obtain ⟨c, hcF, ec⟩ := mem_of_db hD hK
  obtain ⟨n, rest, e, -⟩ := hn c hcF
  have hm : n ∈ unfalsified as c := by rw [e]; simp
  obtain ⟨h1, h2⟩ := List.mem_filter.1 hm
  have h3 : n ∈ (c : Multiset Int) := h1
  rw [ec] at h3
  obtain ⟨o, ho, rfl⟩ := Multiset.mem_map.1 h3
  have := key _ (h o ho)
  rw [hneg _ hK o ho] at this
  simp [this] at h2

theorem filter_lt {as : List Int} {n : Int} : ∀ {l : List Int}, n ∈ l → n ∉ as →
    (l.filter (fun m => !(n :: as).contains m)).length < (l.filter (fun m => !as.contains m)).length := by
  intro l hl hn
  have hsub : (l.filter (fun m => !(n :: as).contains m)) =
      (l.filter (fun m => !as.contains m)).filter (fun m => m != n) := by
    rw [List.filter_filter]
    refine List.filter_congr ?_
    intro m _
    simp only [List.contains_cons, Bool.not_or]
    cases h : m == n <;> simp [h, bne]
  rw [hsub]
  refine List.length_filter_lt_length_iff_exists.2 ⟨n, ?_, by simp⟩
  rw [List.mem_filter]
  exact ⟨hl, by simpa using hn⟩

theorem refutes_complete (hD : db F = nums D) (hv : ∀ K ∈ D, ∀ l ∈ K, l.Valid) {A : Lit → Prop}
    (hc : UpConflict D A) : ∀ {k : Nat} {as : List Int}, (∀ l, A l → l.dimacs ∈ as) →
      (F.flatten.filter (fun m => !as.contains m)).length < k → refutes k F as = true
  | 0, _, _, h => by omega
  | k + 1, as, hA, h => by
    have hl := look_conflict hD hv hA hc
    unfold refutes
    split
    · rename_i e; exact absurd e hl
    · rfl
    · rename_i n e
      obtain ⟨h1, h2⟩ := look_unit e
      refine refutes_complete hD hv hc (fun l hl => List.mem_cons_of_mem _ (hA l hl)) ?_
      have := filter_lt h1 h2
      omega

theorem refutes_bound (hD : db F = nums D) (hv : ∀ K ∈ D, ∀ l ∈ K, l.Valid) {A : Lit → Prop}
    (hc : UpConflict D A) {as : List Int} (hA : ∀ l, A l → l.dimacs ∈ as) :
    refutes (bound F) F as = true :=
  refutes_complete hD hv hc hA (Nat.lt_succ_of_le (List.length_filter_le _ _))

theorem remove_complete {c : List Int} : ∀ {F : List (List Int)}, (c : Multiset Int) ∈ db F →
    ∃ F', remove c F = some F' ∧ db F = (c : Multiset Int) ::ₘ db F'
  | [], h => by simp [db] at h
  | d :: ds, h => by
    unfold remove
    by_cases hp : d.Perm c
    · rw [if_pos (List.isPerm_iff.2 hp)]
      refine ⟨ds, rfl, ?_⟩
      unfold db
      rw [List.map_cons, ← Multiset.cons_coe, Multiset.coe_eq_coe.2 hp]
    · rw [if_neg (fun h => hp (List.isPerm_iff.1 h))]
      have h' : (c : Multiset Int) ∈ db ds := by
        unfold db at h ⊢
        rw [List.map_cons, Multiset.mem_coe, List.mem_cons] at h
        rcases h with h | h
        · exact absurd (Multiset.coe_eq_coe.1 h).symm hp
        · exact h
      obtain ⟨F', e, h⟩ := remove_complete h'
      refine ⟨d :: F', by rw [e]; rfl, ?_⟩
      have h2 : db (d :: ds) = (d : Multiset Int) ::ₘ db ds := rfl
      have h3 : db (d :: F') = (d : Multiset Int) ::ₘ db F' := rfl
      rw [h2, h3, h, Multiset.cons_swap]

theorem steps_append : ∀ (ds : List DratLine) (F : List (List Int)) (es : List DratLine),
    steps F (ds ++ es) = (steps F ds).bind (fun F' => steps F' es)
  | [], F, es => rfl
  | d :: ds, F, es => by
    simp only [List.cons_append, steps]
    cases step F d with
    | none => rfl
    | some G => exact steps_append ds G es

/-- The checker performs the steps of accepted logs. -/
theorem steps_complete {F : List (List Int)} {E L : DB} {log : List ProofStep} (h : Accepted E log L)
    (hE : ∀ K ∈ E, ∀ l ∈ K, l.Valid) (hF : db F = nums E) :
    ∃ F', steps F (log.map ProofStep.line) = some F' ∧ db F' = nums (E + L) := by
  induction h with
  | nil => exact ⟨F, rfl, by rw [hF, Multiset.add_zero]⟩
  | @add log L c ha hr hv ih =>
    obtain ⟨G, h1, h2⟩ := ih
    have hval : ∀ K ∈ E + L, ∀ l ∈ K, l.Valid := by
      intro K hK
      rcases Multiset.mem_add.1 hK with hK | hK
      · exact hE K hK
      · exact ha.valid.2 K hK
    refine ⟨c.map Lit.dimacs :: G, ?_, ?_⟩
    · rw [List.map_append, steps_append, h1]
      simp only [List.map_cons, List.map_nil, Option.bind_some, steps, ProofStep.line, step,
        Bool.false_eq_true, if_false]
      rw [if_neg, if_pos]
      · rfl
      · refine refutes_bound h2 hval hr ?_
        intro l hl
        have hl' : l.neg ∈ c := hl
        simp only [List.mem_map]
        refine ⟨l.neg.dimacs, ⟨_, hl', rfl⟩, ?_⟩
        rw [← ((C24_negation l.neg).2.2.2.2.1 (hv _ hl')).2, Lit.neg_neg]
      · simp only [List.contains_eq_mem, decide_eq_true_eq, List.mem_map, not_exists, not_and]
        intro l hl h0
        have := Lit.dimacs_eq (hv l hl)
        rw [h0] at this
        cases hs : l.isPositive <;> simp [hs] at this <;> omega
    · have h3 : db (c.map Lit.dimacs :: G) = ((c.map Lit.dimacs : List Int) : Multiset Int) ::ₘ db G := rfl
      rw [h3, h2]
      unfold nums
      rw [Multiset.add_cons, Multiset.map_cons, Multiset.map_coe]
  | @delete log L c ha hl ih =>
    obtain ⟨G, h1, h2⟩ := ih
    have hm : ((c.map Lit.dimacs : List Int) : Multiset Int) ∈ db G := by
      rw [h2]
      unfold nums
      rw [Multiset.add_cons, Multiset.map_cons, Multiset.map_coe]
      exact Multiset.mem_cons_self _ _
    obtain ⟨G', h3, h4⟩ := remove_complete hm
    refine ⟨G', ?_, ?_⟩
    · rw [List.map_append, steps_append, h1]
      simp only [List.map_cons, List.map_nil, Option.bind_some, steps, ProofStep.line, step, if_true]
      rw [h3]; rfl
    · rw [h2] at h4
      unfold nums at h4 ⊢
      rw [Multiset.add_cons, Multiset.map_cons, Multiset.map_coe] at h4
      exact ((Multiset.cons_inj_right _).1 h4).symm

/-- The checker accepts accepted logs that end in a refutation. -/
theorem check_complete {F : List (List Int)} {E L : DB} {log : List ProofStep} (h : Accepted E log L)
    (hE : ∀ K ∈ E, ∀ l ∈ K, l.Valid) (hF : db F = nums E) (h0 : ∀ c ∈ F, ∀ n ∈ c, n ≠ 0)
    (hc : UpConflict (E + L) (fun _ => False)) : check F (log.map ProofStep.line) = true := by
  obtain ⟨F', h1, h2⟩ := steps_complete h hE hF
  unfold check
  rw [h1]
  simp only [Bool.and_eq_true, Bool.not_eq_true']
  refine ⟨?_, refutes_bound h2 ?_ hc (fun l hl => hl.elim)⟩
  · rw [← Bool.not_eq_true]
    simp only [List.contains_eq_mem, decide_eq_true_eq, List.mem_flatten]
    rintro ⟨c, hc, hn⟩
    exact h0 c hc 0 hn rfl
  · intro K hK
    rcases Multiset.mem_add.1 hK with hK | hK
    · exact hE K hK
    · exact h.valid.2 K hK

end DratCheck

end Starlit
