import Mathlib.Algebra.BigOperators.Ring.Finset
import Mathlib.Algebra.Order.BigOperators.Group.Finset
import Mathlib.Data.Fintype.Prod
import Mathlib.Data.Fintype.Card
import Mathlib.Algebra.Group.End
import Mathlib.Tactic.Linarith
import Mathlib.Tactic.Ring
import Verif.Resolution

/-!
# Resolution refutations of the pigeonhole principle are long

The proof of Beame and Pitassi (1996).  Variable `p * h + k` says that pigeon `p` is in hole `k`, for pigeons
`0, …, h` and holes `0, …, h - 1`.  A permutation `σ` of `0, …, h` is read as an assignment: pigeon `p` is in
hole `σ p`, and the one with `σ p = h` is in none.
-/

namespace Starlit
namespace Pigeons
open Resolution

variable {h : Nat}

/-- The assignment in which pigeon `p` is in hole `σ p`. -/
def assign (σ : Equiv.Perm (Fin (h + 1))) (x : Nat) : Bool :=
  if hx : x / h < h + 1 then decide ((σ ⟨x / h, hx⟩).val = x % h) else false

/-- The clause is false for the permutation. -/
def Falsified (σ : Equiv.Perm (Fin (h + 1))) (C : Finset Lit) : Prop := ∀ l ∈ C, ¬ LitSat (assign σ) l

/-- All clauses of the formula hold for every permutation, except that each may fail if one certain pigeon is in
no hole. -/
def Admits (h : Nat) (F : List (List Lit)) : Prop :=
  ∀ c ∈ F, ∃ p, ∀ σ : Equiv.Perm (Fin (h + 1)), Falsified σ c.toFinset → σ p = Fin.last h

open Classical in
/-- The pairs of a pigeon and a hole that make the clause true. -/
noncomputable def pairs (C : Finset Lit) : Finset (Fin (h + 1) × Fin (h + 1)) :=
  Finset.univ.filter fun e => ∀ σ : Equiv.Perm (Fin (h + 1)), σ e.1 = e.2 → ¬ Falsified σ C

theorem mem_pairs {C : Finset Lit} {p k : Fin (h + 1)} :
    (p, k) ∈ pairs C ↔ ∀ σ : Equiv.Perm (Fin (h + 1)), σ p = k → ¬ Falsified σ C := by
  simp [pairs]

theorem assign_eq {σ : Equiv.Perm (Fin (h + 1))} {x : Nat} :
    assign σ x = true ↔ ∃ hx : x / h < h + 1, (σ ⟨x / h, hx⟩).val = x % h := by
  unfold assign
  split <;> rename_i hx
  · simp [hx]
  · simp [hx]

/-- If a pigeon without hole changes places with another one and the clause becomes true, then the pair of the
pigeon and its new hole makes the clause true. -/
theorem swap_mem (h0 : 0 < h) {σ : Equiv.Perm (Fin (h + 1))} {i j : Fin (h + 1)} {C : Finset Lit}
    (hi : σ i = Fin.last h) (hf : Falsified σ C) (ht : ¬ Falsified (σ * Equiv.swap i j) C) (hij : j ≠ i) :
    (i, σ j) ∈ pairs C := by
  rw [mem_pairs]
  intro τ hτ hc
  unfold Falsified at ht
  push Not at ht
  obtain ⟨l, hl, hs⟩ := ht
  have hn := hf l hl
  have hc' := hc l hl
  unfold LitSat at hs hn hc'
  have hk : l.index % h < h := Nat.mod_lt _ h0
  have hlast : ∀ x : Fin (h + 1), x = Fin.last h → x.val ≠ l.index % h := by
    rintro x rfl; simp; omega
  cases hp : l.isPositive with
  | true =>
    rw [hp] at hs hn hc'
    rw [assign_eq] at hs hn hc'
    obtain ⟨hx, e⟩ := hs
    rw [Equiv.Perm.mul_apply] at e
    by_cases h1 : (⟨l.index / h, hx⟩ : Fin (h + 1)) = i
    · rw [h1, Equiv.swap_apply_left] at e
      exact hc' ⟨hx, by rw [h1, hτ]; exact e⟩
    · by_cases h2 : (⟨l.index / h, hx⟩ : Fin (h + 1)) = j
      · rw [h2, Equiv.swap_apply_right] at e
        exact hlast _ hi e
      · rw [Equiv.swap_apply_of_ne_of_ne h1 h2] at e
        exact hn ⟨hx, e⟩
  | false =>
    rw [hp] at hs hn hc'
    rw [Bool.not_eq_false, assign_eq] at hn hc'
    obtain ⟨hx, e⟩ := hn
    have hs' : ¬ (assign (σ * Equiv.swap i j) l.index = true) := by rw [hs]; simp
    rw [assign_eq] at hs'
    obtain ⟨_, e'⟩ := hc'
    have h1 : (⟨l.index / h, hx⟩ : Fin (h + 1)) ≠ i := by
      intro h1
      rw [h1] at e
      exact hlast _ hi e
    by_cases h2 : (⟨l.index / h, hx⟩ : Fin (h + 1)) = j
    · rw [h2] at e e'
      have : τ j = τ i := by rw [hτ]; exact Fin.ext (e'.trans e.symm)
      exact hij (τ.injective this)
    · refine hs' ⟨hx, ?_⟩
      rw [Equiv.Perm.mul_apply, Equiv.swap_apply_of_ne_of_ne h1 h2]
      exact e

/-- The permutation agrees with `τ` on `R`. -/
def Extends (τ : Equiv.Perm (Fin (h + 1))) (R : Finset (Fin (h + 1))) (σ : Equiv.Perm (Fin (h + 1))) : Prop :=
  ∀ i ∈ R, σ i = τ i

open Classical in
/-- The pigeons that can be in no hole when the clause is false. -/
noncomputable def support (τ : Equiv.Perm (Fin (h + 1))) (R : Finset (Fin (h + 1))) (C : Finset Lit) :
    Finset (Fin (h + 1)) :=
  Finset.univ.filter fun i => i ∉ R ∧ ∃ σ, Extends τ R σ ∧ σ i = Fin.last h ∧ Falsified σ C

theorem mem_support {τ : Equiv.Perm (Fin (h + 1))} {R : Finset (Fin (h + 1))} {C : Finset Lit} {i : Fin (h + 1)} :
    i ∈ support τ R C ↔ i ∉ R ∧ ∃ σ, Extends τ R σ ∧ σ i = Fin.last h ∧ Falsified σ C := by
  simp [support]

theorem swap_extends {τ σ : Equiv.Perm (Fin (h + 1))} {R : Finset (Fin (h + 1))} (hσ : Extends τ R σ)
    {i j : Fin (h + 1)} (hi : i ∉ R) (hj : j ∉ R) : Extends τ R (σ * Equiv.swap i j) := by
  intro x hx
  rw [Equiv.Perm.mul_apply, Equiv.swap_apply_of_ne_of_ne (by rintro rfl; exact hi hx) (by rintro rfl; exact hj hx)]
  exact hσ x hx

/-- The pairs outside of the rows and columns that are fixed. -/
def grid (τ : Equiv.Perm (Fin (h + 1))) (R : Finset (Fin (h + 1))) : Finset (Fin (h + 1) × Fin (h + 1)) :=
  Finset.univ.filter fun e => e.1 ∉ R ∧ τ.symm e.2 ∉ R ∧ e.2 ≠ Fin.last h

/-- The clause has many pairs and none of them is fixed. -/
def Large (τ : Equiv.Perm (Fin (h + 1))) (R : Finset (Fin (h + 1))) (C : Finset Lit) : Prop :=
  (∀ i ∈ R, (i, τ i) ∉ pairs C) ∧ (h + 1) ^ 2 ≤ 10 * (pairs C ∩ grid τ R).card

/-- A clause whose support is about half of the free pigeons has many pairs. -/
theorem large_of_support (h0 : 0 < h) {τ : Equiv.Perm (Fin (h + 1))} {R : Finset (Fin (h + 1))} {C : Finset Lit}
    (h1 : Rᶜ.card < 3 * (support τ R C).card) (h2 : 3 * (support τ R C).card ≤ 2 * Rᶜ.card)
    (h3 : 9 * (h + 1) ^ 2 ≤ 20 * Rᶜ.card ^ 2) : Large τ R C := by
  have hne : (support τ R C).Nonempty := by
    rw [← Finset.card_pos]; omega
  have hsub : support τ R C ⊆ Rᶜ := by
    intro i hi
    exact Finset.mem_compl.2 (mem_support.1 hi).1
  refine ⟨?_, ?_⟩
  · obtain ⟨i, hi⟩ := hne
    obtain ⟨_, σ, k1, _, k3⟩ := mem_support.1 hi
    intro x hx hm
    exact mem_pairs.1 hm σ (k1 x hx) k3
  · have hw : ∀ i : Fin (h + 1), ∃ σ : Equiv.Perm (Fin (h + 1)), i ∈ support τ R C →
        Extends τ R σ ∧ σ i = Fin.last h ∧ Falsified σ C := by
      intro i
      by_cases hi : i ∈ support τ R C
      · obtain ⟨_, σ, k⟩ := mem_support.1 hi
        exact ⟨σ, fun _ => k⟩
      · exact ⟨1, fun hi' => absurd hi' hi⟩
    choose w hw using hw
    have hcard : ((support τ R C) ×ˢ (Rᶜ \ support τ R C)).card ≤ (pairs C ∩ grid τ R).card := by
      apply Finset.card_le_card_of_injOn (fun e => (e.1, w e.1 e.2))
      · rintro ⟨i, j⟩ hm
        simp only [Finset.coe_product, Set.mem_prod, Finset.mem_coe, Finset.mem_sdiff, Finset.mem_compl] at hm
        obtain ⟨hi, hj1, hj2⟩ := hm
        obtain ⟨k1, k2, k3⟩ := hw i hi
        have hij : j ≠ i := by rintro rfl; exact hj2 hi
        have hiR := (mem_support.1 hi).1
        simp only [Finset.coe_inter, Set.mem_inter_iff, Finset.mem_coe]
        refine ⟨swap_mem h0 k2 k3 ?_ hij, ?_⟩
        · intro hf
          refine hj2 (mem_support.2 ⟨hj1, w i * Equiv.swap i j, swap_extends k1 hiR hj1, ?_, hf⟩)
          rw [Equiv.Perm.mul_apply, Equiv.swap_apply_right, k2]
        · simp only [grid, Finset.mem_filter, Finset.mem_univ, true_and]
          refine ⟨hiR, ?_, ?_⟩
          · intro hm
            have := k1 _ hm
            rw [Equiv.apply_symm_apply] at this
            have := (w i).injective this
            exact hj1 (this ▸ hm)
          · intro hm
            exact hij ((w i).injective (hm.trans k2.symm))
      · rintro ⟨i, j⟩ _ ⟨i', j'⟩ _ he
        simp only [Prod.mk.injEq] at he
        obtain ⟨rfl, he⟩ := he
        rw [(w i).injective he]
    rw [Finset.card_product, Finset.card_sdiff_of_subset hsub] at hcard
    obtain ⟨d, hd⟩ := Nat.exists_eq_add_of_le (Finset.card_le_card hsub)
    rw [hd] at h1 h2 h3 hcard
    rw [Nat.add_sub_cancel_left] at hcard
    generalize (support τ R C).card = a at *
    generalize (pairs C ∩ grid τ R).card = b at *
    nlinarith

/-- Some line of a refutation has many pairs. -/
theorem exists_large (h0 : 0 < h) {F : List (List Lit)} (hF : Admits h F) {π : List (Finset Lit)}
    (hπ : Refutation F π) {τ : Equiv.Perm (Fin (h + 1))} {R : Finset (Fin (h + 1))}
    (hR : ∀ i ∈ R, τ i ≠ Fin.last h) (h3 : 3 ≤ Rᶜ.card) (h4 : 9 * (h + 1) ^ 2 ≤ 20 * Rᶜ.card ^ 2) :
    ∃ C ∈ π, Large τ R C := by
  by_contra hc
  push Not at hc
  have key : ∀ C, Known F π C → 3 * (support τ R C).card ≤ Rᶜ.card := by
    have h1 := hπ.1
    clear hπ
    induction h1 with
    | nil =>
      rintro C (⟨c, hm, rfl⟩ | hm)
      · obtain ⟨p, hp⟩ := hF c hm
        have : support τ R c.toFinset ⊆ {p} := by
          intro i hi
          obtain ⟨_, σ, _, k2, k3⟩ := mem_support.1 hi
          exact Finset.mem_singleton.2 (σ.injective (k2.trans (hp σ k3).symm))
        have := Finset.card_le_card this
        rw [Finset.card_singleton] at this
        omega
      · cases hm
    | @step π C D E _ hC hD hE ih =>
      have ih := ih fun C hC => hc C (List.mem_cons_of_mem _ hC)
      rintro X (hX | hX)
      · exact ih X (.inl hX)
      · rcases List.mem_cons.1 hX with rfl | hX
        · have hs : support τ R X ⊆ support τ R C ∪ support τ R D := by
            intro i hi
            obtain ⟨k0, σ, k1, k2, k3⟩ := mem_support.1 hi
            obtain ⟨l, hl1, hl2, rfl⟩ := hE
            by_cases hl : LitSat (assign σ) l
            · refine Finset.mem_union_right _ (mem_support.2 ⟨k0, σ, k1, k2, ?_⟩)
              intro o ho
              by_cases he : o = l.neg
              · rw [he, litSat_neg]; exact fun hx => hx hl
              · exact k3 o (Finset.mem_union_right _ (Finset.mem_erase.2 ⟨he, ho⟩))
            · refine Finset.mem_union_left _ (mem_support.2 ⟨k0, σ, k1, k2, ?_⟩)
              intro o ho
              by_cases he : o = l
              · rw [he]; exact hl
              · exact k3 o (Finset.mem_union_left _ (Finset.mem_erase.2 ⟨he, ho⟩))
          have h1 := le_trans (Finset.card_le_card hs) (Finset.card_union_le _ _)
          have h2 := ih C hC
          have h5 := ih D hD
          by_contra hn
          exact hc X (by simp) (large_of_support h0 (by omega) (by omega) h4)
        · exact ih X (.inr hX)
  have h1 := key ∅ hπ.2
  have h2 : support τ R ∅ = Rᶜ := by
    ext i
    rw [mem_support, Finset.mem_compl]
    refine ⟨fun k => k.1, fun hi => ⟨hi, τ * Equiv.swap i (τ.symm (Fin.last h)), ?_, ?_, ?_⟩⟩
    · refine swap_extends (fun _ _ => rfl) hi fun hm => hR _ hm ?_
      rw [Equiv.apply_symm_apply]
    · rw [Equiv.Perm.mul_apply, Equiv.swap_apply_left, Equiv.apply_symm_apply]
    · intro l hl; simp at hl
  rw [h2] at h1
  omega

section
open Classical

/-- How many of the clauses contain the pair. -/
noncomputable def count (L : List (Finset Lit)) (e : Fin (h + 1) × Fin (h + 1)) : Nat :=
  L.countP fun C => decide (e ∈ pairs C)

/-- Counting the pairs of all clauses in two ways. -/
theorem sum_count {N : Nat} {G : Finset (Fin (h + 1) × Fin (h + 1))} : ∀ {L : List (Finset Lit)},
    (∀ C ∈ L, N ≤ 10 * (pairs C ∩ G).card) → L.length * N ≤ 10 * ∑ e ∈ G, count L e
  | [], _ => by simp
  | C :: L, hL => by
    have ih := sum_count (L := L) fun C hC => hL C (List.mem_cons_of_mem _ hC)
    have h1 := hL C (by simp)
    have h2 : ∑ e ∈ G, count (C :: L) e = ∑ e ∈ G, count L e + (pairs C ∩ G).card := by
      have : ∀ e : Fin (h + 1) × Fin (h + 1), count (C :: L) e = count L e + if e ∈ pairs C then 1 else 0 := by
        intro e
        unfold count
        rw [List.countP_cons]
        simp
      simp only [this]
      rw [Finset.sum_add_distrib, Finset.inter_comm, ← Finset.filter_mem_eq_inter, Finset.card_filter]
    rw [h2, List.length_cons]
    nlinarith

/-- Some pair occurs in a tenth of the clauses. -/
theorem exists_pair {G : Finset (Fin (h + 1) × Fin (h + 1))} {L : List (Finset Lit)} (hne : L ≠ [])
    (hL : ∀ C ∈ L, (h + 1) ^ 2 ≤ 10 * (pairs C ∩ G).card) : ∃ e ∈ G, L.length ≤ 10 * count L e := by
  by_contra hc
  push Not at hc
  have h1 := sum_count hL
  have h2 : G.Nonempty := by
    cases L with
    | nil => exact absurd rfl hne
    | cons C L =>
      have h3 := hL C (by simp)
      have h4 : 0 < (pairs C ∩ G).card := by
        have : 0 < (h + 1) ^ 2 := by positivity
        omega
      obtain ⟨e, he⟩ := Finset.card_pos.1 h4
      exact ⟨e, (Finset.mem_inter.1 he).2⟩
  have h3 : ∑ e ∈ G, 10 * count L e < ∑ _e ∈ G, L.length := Finset.sum_lt_sum_of_nonempty h2 hc
  rw [← Finset.mul_sum, Finset.sum_const, nsmul_eq_mul, Nat.cast_id] at h3
  have h4 : G.card ≤ (h + 1) ^ 2 := by
    have := Finset.card_le_univ G
    rw [Fintype.card_prod, Fintype.card_fin] at this
    rw [pow_two]; exact this
  have h5 : G.card * L.length ≤ (h + 1) ^ 2 * L.length := Nat.mul_le_mul_right _ h4
  have h6 : L.length * (h + 1) ^ 2 = (h + 1) ^ 2 * L.length := Nat.mul_comm _ _
  omega

/-- The large clauses of a list. -/
noncomputable def largeOf (τ : Equiv.Perm (Fin (h + 1))) (R : Finset (Fin (h + 1))) (π : List (Finset Lit)) :
    List (Finset Lit) := π.filter fun C => decide (Large τ R C)

/-- Putting one more pigeon into a hole makes a tenth of the large clauses true. -/
theorem exists_next {π : List (Finset Lit)} {τ : Equiv.Perm (Fin (h + 1))} {R : Finset (Fin (h + 1))}
    (hR : ∀ i ∈ R, τ i ≠ Fin.last h) (hc : R.card < h) :
    ∃ τ' R', R'.card = R.card + 1 ∧ (∀ i ∈ R', τ' i ≠ Fin.last h) ∧
      10 * (largeOf τ' R' π).length ≤ 9 * (largeOf τ R π).length := by
  -- a pair of the grid that is in a tenth of the large clauses
  have hp : ∃ e ∈ grid τ R, (largeOf τ R π).length ≤ 10 * count (largeOf τ R π) e := by
    by_cases hne : largeOf τ R π = []
    · have : ∃ i ∉ insert (τ.symm (Fin.last h)) R, True := by
        by_contra hx
        push Not at hx
        have hu : Finset.univ ⊆ insert (τ.symm (Fin.last h)) R := by
          intro i _
          by_contra hi
          exact hx i hi
        have h1 := Finset.card_le_card hu
        have h2 := Finset.card_insert_le (τ.symm (Fin.last h)) R
        rw [Finset.card_univ, Fintype.card_fin] at h1
        omega
      obtain ⟨i, hi, _⟩ := this
      rw [Finset.mem_insert, not_or] at hi
      refine ⟨(i, τ i), ?_, by rw [hne]; simp⟩
      simp only [grid, Finset.mem_filter, Finset.mem_univ, true_and, Equiv.symm_apply_apply]
      refine ⟨hi.2, hi.2, fun h1 => hi.1 ?_⟩
      rw [← h1, Equiv.symm_apply_apply]
    · refine exists_pair hne fun C hC => ?_
      have := (List.mem_filter.1 hC).2
      exact (of_decide_eq_true this).2
  obtain ⟨⟨i, k⟩, he, hcount⟩ := hp
  simp only [grid, Finset.mem_filter, Finset.mem_univ, true_and] at he
  obtain ⟨hi, hk, hl⟩ := he
  have hext : Extends τ R (τ * Equiv.swap i (τ.symm k)) := swap_extends (fun _ _ => rfl) hi hk
  have hik : (τ * Equiv.swap i (τ.symm k)) i = k := by
    rw [Equiv.Perm.mul_apply, Equiv.swap_apply_left, Equiv.apply_symm_apply]
  refine ⟨τ * Equiv.swap i (τ.symm k), insert i R, Finset.card_insert_of_notMem hi, ?_, ?_⟩
  · intro x hx
    rcases Finset.mem_insert.1 hx with rfl | hx
    · rw [hik]; exact hl
    · rw [hext x hx]; exact hR x hx
  · have hsub : ∀ C, Large (τ * Equiv.swap i (τ.symm k)) (insert i R) C → Large τ R C ∧ (i, k) ∉ pairs C := by
      rintro C ⟨k1, k2⟩
      refine ⟨⟨fun x hx => ?_, le_trans k2 (Nat.mul_le_mul_left _ (Finset.card_le_card ?_))⟩, ?_⟩
      · have := k1 x (Finset.mem_insert_of_mem hx)
        rwa [hext x hx] at this
      · refine Finset.inter_subset_inter (Finset.Subset.refl _) ?_
        rintro ⟨a, b⟩ hab
        simp only [grid, Finset.mem_filter, Finset.mem_univ, true_and, Finset.mem_insert, not_or] at hab ⊢
        refine ⟨hab.1.2, fun hm => hab.2.1.2 ?_, hab.2.2⟩
        have e1 := hext _ hm
        rw [Equiv.apply_symm_apply] at e1
        have e2 : (τ * Equiv.swap i (τ.symm k)).symm b = τ.symm b := by
          rw [Equiv.symm_apply_eq]; exact e1.symm
        rw [e2]; exact hm
      · have := k1 i (Finset.mem_insert_self _ _)
        rwa [hik] at this
    have hlen : (largeOf (τ * Equiv.swap i (τ.symm k)) (insert i R) π).length + count (largeOf τ R π) (i, k) ≤
        (largeOf τ R π).length := by
      unfold largeOf count
      clear hcount
      induction π with
      | nil => simp
      | cons C π ih =>
        by_cases h1 : Large τ R C
        · by_cases h2 : Large (τ * Equiv.swap i (τ.symm k)) (insert i R) C
          · have := (hsub C h2).2
            simp only [List.filter_cons, h1, h2, decide_true, if_true, List.countP_cons, List.length_cons, this,
              decide_false, Bool.false_eq_true, if_false]
            omega
          · simp only [List.filter_cons, h1, h2, decide_true, if_true, List.countP_cons, List.length_cons,
              decide_false, Bool.false_eq_true, if_false]
            split <;> omega
        · have h2 : ¬ Large (τ * Equiv.swap i (τ.symm k)) (insert i R) C := fun h2 => h1 (hsub C h2).1
          simp only [List.filter_cons, h1, h2, decide_false, Bool.false_eq_true, if_false]
          exact ih
    omega

/-- A partial assignment of pigeons to holes that leaves few large clauses. -/
theorem exists_matching {π : List (Finset Lit)} : ∀ {t : Nat}, t ≤ h →
    ∃ (τ : Equiv.Perm (Fin (h + 1))) (R : Finset (Fin (h + 1))), R.card = t ∧ (∀ i ∈ R, τ i ≠ Fin.last h) ∧
      10 ^ t * (largeOf τ R π).length ≤ 9 ^ t * π.length
  | 0, _ => ⟨1, ∅, rfl, by simp, by
      rw [pow_zero, pow_zero]
      exact Nat.mul_le_mul_left _ (List.length_filter_le _ _)⟩
  | t + 1, ht => by
    obtain ⟨τ, R, h1, h2, h3⟩ := exists_matching (π := π) (t := t) (by omega)
    obtain ⟨τ', R', k1, k2, k3⟩ := exists_next (π := π) h2 (by omega)
    refine ⟨τ', R', by omega, k2, ?_⟩
    rw [pow_succ, pow_succ]
    nlinarith [Nat.mul_le_mul_left (10 ^ t) k3]

/-- Resolution refutations of the pigeonhole principle are long: for `h + 1` pigeons and any `t` up to about a third
of `h` they have at least `(10 / 9) ^ t` steps. -/
theorem long_refutations (h0 : 0 < h) {F : List (List Lit)} (hF : Admits h F) {π : List (Finset Lit)}
    (hπ : Refutation F π) {t : Nat} (h3 : t + 2 ≤ h) (h4 : 9 * (h + 1) ^ 2 ≤ 20 * (h + 1 - t) ^ 2) :
    10 ^ t ≤ 9 ^ t * π.length := by
  obtain ⟨τ, R, k1, k2, k3⟩ := exists_matching (h := h) (π := π) (t := t) (by omega)
  have hcard : Rᶜ.card = h + 1 - t := by rw [Finset.card_compl, Fintype.card_fin, k1]
  obtain ⟨C, hC, hl⟩ := exists_large h0 hF hπ k2 (by omega) (by rw [hcard]; exact h4)
  have hpos : 1 ≤ (largeOf τ R π).length :=
    List.length_pos_of_mem (List.mem_filter.2 ⟨hC, by simpa using hl⟩)
  calc 10 ^ t = 10 ^ t * 1 := (Nat.mul_one _).symm
    _ ≤ 10 ^ t * (largeOf τ R π).length := Nat.mul_le_mul_left _ hpos
    _ ≤ _ := k3

end

end Pigeons
end Starlit
