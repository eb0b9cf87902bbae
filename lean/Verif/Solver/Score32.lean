import Verif.Float32
import Verif.Solver.Activity

/-!
# Activities approximate the documented scores
-/

namespace Starlit

/-- `val b` is the number with the given bits. -/
local notation "val" => F32.value

namespace Score32

theorem finite_of_le {a : Nat} (h : val a ≤ 2 ^ 127) : a < F32.inf := by
  by_contra hc
  have h1 : val F32.inf ≤ val a := F32.value_le.2 (by omega)
  have h2 : val F32.inf = 2 ^ 128 := by
    rw [FpFormat.value_eq, F32_scale,
      show Fp.units F32.p F32.inf = 2 ^ 128 * 2 ^ 149 by decide +kernel]
    norm_num
  rw [h2] at h1
  norm_num at h h1
  linarith

/-- Addition of numbers up to the limit. -/
theorem add_spec {a i : Nat} (h : val a + val i ≤ 2 ^ 127) :
    |val (F32.add a i) - (val a + val i)| ≤ 1 / 2 ^ 23 * (val a + val i) + 1 / 2 ^ 149 := by
  have h1 := F32.value_nonneg a
  have h2 := F32.value_nonneg i
  have ha := finite_of_le (a := a) (by linarith)
  have hi := finite_of_le (a := i) (by linarith)
  have := FpFormat.add_error ha hi (F32_finite (F32.add_nearest ha hi) h)
  rwa [F32_eps, F32_tiny] at this

/-- Rescaling of numbers that are not too large. -/
theorem rescale_spec {a : Nat} (h : val a ≤ 2 ^ 127) :
    |val (F32.mul a RESCALE_FACTOR) - val a * ((2 ^ 23 + 1) / 2 ^ 147)| ≤
      1 / 2 ^ 23 * (val a * ((2 ^ 23 + 1) / 2 ^ 147)) + 1 / 2 ^ 149 := by
  have h1 := F32.value_nonneg a
  have ha := finite_of_le h
  have hn := F32.mul_nearest (b := RESCALE_FACTOR) ha
  have := FpFormat.mul_error ha (F32_finite hn (by rw [factor_value]; norm_num at h ⊢; linarith))
  rwa [F32_eps, F32_tiny, factor_value] at this

/-- Enlarging the increment. -/
theorem decay_spec {a : Nat} (h : val a ≤ 2 ^ 126) :
    |val (F32.mul a INVERSE_DECAY) - val a * (8830114 / 2 ^ 23)| ≤
      1 / 2 ^ 23 * (val a * (8830114 / 2 ^ 23)) + 1 / 2 ^ 149 := by
  have h1 := F32.value_nonneg a
  have ha := finite_of_le (a := a) (by norm_num at h ⊢; linarith)
  have hn := F32.mul_nearest (b := INVERSE_DECAY) ha
  have := FpFormat.mul_error ha (F32_finite hn (by rw [decay_value]; norm_num at h ⊢; linarith))
  rwa [F32_eps, F32_tiny, decay_value] at this

/-- `A` is within `d` of the score `s` for the increment `I`. -/
def Near (d A I s : ℝ) : Prop := |A - s * I| ≤ d * I

/-- The bounds of increments. -/
def IncOK (i : Nat) : Prop := 1 / 32 ≤ val i ∧ i ≤ RESCALE_LIMIT

theorem le_limit {a : Nat} : a ≤ RESCALE_LIMIT ↔ val a ≤ (2 ^ 24 - 1) * 2 ^ 100 := by
  rw [← limit_value, F32.value_le]

theorem Near.bump {a i : Nat} {d s : ℝ} (hi : IncOK i) (ha : a ≤ RESCALE_LIMIT)
    (h : Near d (val a) (val i) s) (hs : s ≤ 19) (hd : d ≤ 1 / 100) :
    Near (d + 1 / 100000) (val (F32.add a i)) (val i) (s + 1) ∧
      val (F32.add a i) ≤ 2 ^ 126 := by
  unfold Near at *
  obtain ⟨h1, h2⟩ := hi
  rw [le_limit] at h2 ha
  have h0 := F32.value_nonneg a
  have he := add_spec (a := a) (i := i) (by norm_num at ha h2 ⊢; linarith)
  generalize val (F32.add a i) = R at *
  generalize val a = A at *
  generalize val i = I at *
  have hsI : s * I ≤ 19 * I := mul_le_mul_of_nonneg_right hs (by linarith)
  have hdI : d * I ≤ 1 / 100 * I := mul_le_mul_of_nonneg_right hd (by linarith)
  rw [abs_le] at h he
  have hA : A ≤ 19.01 * I := by linarith [h.2]
  refine ⟨?_, ?_⟩
  · rw [abs_le]
    norm_num at he ⊢
    constructor
    · nlinarith [he.1, h.1]
    · nlinarith [he.2, h.2]
  · norm_num at he ha h2 ⊢
    linarith [he.2]

theorem Near.mono {A I s d d' : ℝ} (h : Near d A I s) (hI : 0 ≤ I) (hd : d ≤ d') : Near d' A I s :=
  h.trans (mul_le_mul_of_nonneg_right hd hI)

theorem Near.rescale {a i : Nat} {d s : ℝ} (hi : 1 / 32 ≤ val (F32.mul i RESCALE_FACTOR))
    (hi2 : val i ≤ 2 ^ 126) (ha : val a ≤ 2 ^ 126) (h : Near d (val a) (val i) s) (hs0 : 0 ≤ s)
    (hs : s ≤ 20) (hd0 : 0 ≤ d) (hd : d ≤ 1 / 100) :
    Near (d + 1 / 100000) (val (F32.mul a RESCALE_FACTOR)) (val (F32.mul i RESCALE_FACTOR)) s := by
  unfold Near at *
  have h0 := F32.value_nonneg a
  have h0' := F32.value_nonneg i
  have e1 := rescale_spec (a := a) (by norm_num at ha ⊢; linarith)
  have e2 := rescale_spec (a := i) (by norm_num at hi2 ⊢; linarith)
  generalize val (F32.mul a RESCALE_FACTOR) = A' at *
  generalize val (F32.mul i RESCALE_FACTOR) = I' at *
  generalize val a = A at *
  generalize val i = I at *
  generalize hc : ((2 : ℝ) ^ 23 + 1) / 2 ^ 147 = c at *
  have hc0 : 0 ≤ c := by rw [← hc]; positivity
  -- everything in terms of `c * A` and `c * I`
  have k1 : |A * c - s * (I * c)| ≤ d * (I * c) := by
    have : A * c - s * (I * c) = (A - s * I) * c := by ring
    rw [this, abs_mul, abs_of_nonneg hc0, ← mul_assoc]
    exact mul_le_mul_of_nonneg_right h hc0
  have hAc : 0 ≤ A * c := by positivity
  have hIc : 0 ≤ I * c := by positivity
  generalize A * c = X at *
  generalize I * c = Y at *
  have hsY : s * Y ≤ 20 * Y := mul_le_mul_of_nonneg_right hs hIc
  have hdY : d * Y ≤ 1 / 100 * Y := mul_le_mul_of_nonneg_right hd hIc
  rw [abs_le] at k1 e1 e2
  have hX : X ≤ 20.01 * Y := by linarith [k1.2]
  have hY : |s * (I' - Y)| ≤ 20 * (1 / 2 ^ 23 * Y + 1 / 2 ^ 149) := by
    rw [abs_mul, abs_of_nonneg hs0]
    exact mul_le_mul hs (abs_le.2 e2) (abs_nonneg _) (by norm_num)
  have hdY2 : d * (Y - I') ≤ 1 / 100 * (1 / 2 ^ 23 * Y + 1 / 2 ^ 149) := by
    refine (mul_le_mul_of_nonneg_left (show Y - I' ≤ 1 / 2 ^ 23 * Y + 1 / 2 ^ 149 by linarith [e2.1])
      hd0).trans (mul_le_mul_of_nonneg_right hd (by positivity))
  rw [abs_le] at hY ⊢
  norm_num at e1 e2 hY hdY2 ⊢
  constructor
  · nlinarith [e1.1, k1.1, hY.2]
  · nlinarith [e1.2, k1.2, hY.1]

theorem Near.decay {a i : Nat} {d s : ℝ} (hi : IncOK i) (h : Near d (val a) (val i) s) (hs0 : 0 ≤ s)
    (hs : s ≤ 20) (hd : d ≤ 102 / 100000) :
    Near (98 / 100000) (val a) (val (F32.mul i INVERSE_DECAY)) (19 / 20 * s) ∧
      val i ≤ val (F32.mul i INVERSE_DECAY) ∧ val (F32.mul i INVERSE_DECAY) ≤ 2 ^ 126 := by
  unfold Near at *
  obtain ⟨h1, h2⟩ := hi
  rw [le_limit] at h2
  have e := decay_spec (a := i) (by norm_num at h2 ⊢; linarith)
  generalize val (F32.mul i INVERSE_DECAY) = J at *
  generalize val a = A at *
  generalize val i = I at *
  have hdI : d * I ≤ 102 / 100000 * I := mul_le_mul_of_nonneg_right hd (by linarith)
  rw [abs_le] at e h
  norm_num at e
  have k1 : |I - 19 / 20 * J| ≤ 2 / 10000000 * I := by
    rw [abs_le]; constructor <;> linarith [e.1, e.2]
  have k2 : |s * (I - 19 / 20 * J)| ≤ 20 * (2 / 10000000 * I) := by
    rw [abs_mul, abs_of_nonneg hs0]
    exact mul_le_mul hs k1 (abs_nonneg _) (by norm_num)
  rw [abs_le] at k2
  refine ⟨?_, by linarith [e.1], by norm_num at h2 ⊢; linarith [e.2]⟩
  have k3 : A - 19 / 20 * s * J = (A - s * I) + s * (I - 19 / 20 * J) := by ring
  rw [k3, abs_le]
  constructor <;> linarith [e.1, h.1, h.2, k2.1, k2.2]

/-! ## Conflicts -/

section
variable {order : List (Nat × Nat) → List (Nat × Nat)} {perm : ∀ l, (order l).Perm l}

theorem bumped_eq (a : Act) (x : Nat) : a.bumped (f32Env order perm) x =
    if RESCALE_LIMIT < F32.add (a.vals.getD x 0) a.inc then
      Act.rescaled (f32Env order perm) ⟨a.vals.set x (F32.add (a.vals.getD x 0) a.inc), a.inc⟩
    else ⟨a.vals.set x (F32.add (a.vals.getD x 0) a.inc), a.inc⟩ := by
  unfold Act.bumped
  by_cases h : RESCALE_LIMIT < F32.add (a.vals.getD x 0) a.inc
  · exact (if_pos (show (f32Env order perm).aboveLimit _ = true from decide_eq_true h)).trans
      (if_pos h).symm
  · exact (if_neg (show ¬ (f32Env order perm).aboveLimit _ = true from by
      simpa [f32Env] using h)).trans (if_neg h).symm

theorem decayed_eq (a : Act) : a.decayed (f32Env order perm) =
    if RESCALE_LIMIT < F32.mul a.inc INVERSE_DECAY then
      Act.rescaled (f32Env order perm) ⟨a.vals, F32.mul a.inc INVERSE_DECAY⟩
    else ⟨a.vals, F32.mul a.inc INVERSE_DECAY⟩ := by
  unfold Act.decayed
  by_cases h : RESCALE_LIMIT < F32.mul a.inc INVERSE_DECAY
  · exact (if_pos (show (f32Env order perm).aboveLimit _ = true from decide_eq_true h)).trans
      (if_pos h).symm
  · exact (if_neg (show ¬ (f32Env order perm).aboveLimit _ = true from by
      simpa [f32Env] using h)).trans (if_neg h).symm

/-- The tolerance during a conflict: it grows with a rescaling and for bumped variables. -/
noncomputable def tol (ph done : Bool) : ℝ :=
  1 / 1000 + ((if ph then 1 else 0) + if done then 1 else 0) / 100000

theorem tol_bounds (ph done : Bool) : 0 ≤ tol ph done ∧ tol ph done ≤ 102 / 100000 := by
  cases ph <;> cases done <;> norm_num [tol]

/-- The state during a conflict in which the variables `done` were bumped; `ph` tells whether activities
were rescaled. -/
structure Mid (n : Nat) (done : List Nat) (ph : Bool) (a : Act) (σ : Nat → ℝ) : Prop where
  len : a.vals.length = n
  inc : IncOK a.inc
  small : ph = true → val a.inc ≤ 2
  le : ∀ (x v : Nat), a.vals[x]? = some v → v ≤ RESCALE_LIMIT
  nonneg : ∀ x, 0 ≤ σ x
  score : ∀ x, σ x ≤ if x ∈ done then 20 else 19
  near : ∀ (x v : Nat), a.vals[x]? = some v →
    Near (tol ph (decide (x ∈ done))) (val v) (val a.inc) (σ x)

/-- A bump raises the activity. -/
theorem Mid.lt_add {n : Nat} {done : List Nat} {ph : Bool} {a : Act} {σ : Nat → ℝ}
    (h : Mid n done ph a σ) {x v : Nat} (hv : a.vals[x]? = some v) : v < F32.add v a.inc := by
  have h1 := h.le x v hv
  have h2 := h.inc.2
  have h3 := h.near x v hv
  have h4 := h.inc.1
  have h5 : σ x ≤ 20 := (h.score x).trans (by split <;> norm_num)
  have hl : RESCALE_LIMIT < F32.inf := by rw [RESCALE_LIMIT_eq, F32_inf]; norm_num
  refine FpFormat.lt_add (by omega) (by omega) ?_
  rw [F32_eps, F32_tiny]
  have h6 := (tol_bounds ph (decide (x ∈ done))).2
  unfold Near at h3
  have h7 : σ x * val a.inc ≤ 20 * val a.inc := mul_le_mul_of_nonneg_right h5 (by linarith)
  have h8 := mul_le_mul_of_nonneg_right h6 (show 0 ≤ val a.inc by linarith)
  rw [abs_le] at h3
  norm_num
  linarith [h3.2]

theorem Mid.bump {n : Nat} {done : List Nat} {ph : Bool} {a : Act} {σ : Nat → ℝ}
    (h : Mid n done ph a σ) {x : Nat} (hx : x < n) (hd : x ∉ done) :
    ∃ ph', Mid n (x :: done) ph' (a.bumped (f32Env order perm) x)
      (fun y => σ y + if y = x then 1 else 0) := by
  have hxl : x < a.vals.length := by rw [h.len]; exact hx
  have hv := List.getElem?_eq_getElem hxl
  generalize a.vals[x] = v at hv
  have hI : 0 ≤ val a.inc := F32.value_nonneg _
  have hs19 : σ x ≤ 19 := by have := h.score x; rwa [if_neg hd] at this
  have hn : Near (tol ph false) (val v) (val a.inc) (σ x) := by
    have := h.near x v hv; simpa [hd] using this
  obtain ⟨hb1, hb2⟩ := Near.bump h.inc (h.le x v hv) hn hs19
    ((tol_bounds ph false).2.trans (by norm_num))
  have htol : tol ph false + 1 / 100000 = tol ph true := by cases ph <;> norm_num [tol]
  rw [htol] at hb1
  -- the state before a rescaling
  have hset : ∀ (y w : Nat), (a.vals.set x (F32.add v a.inc))[y]? = some w →
      (y = x ∧ w = F32.add v a.inc) ∨ (y ≠ x ∧ a.vals[y]? = some w) := by
    intro y w hw
    by_cases e : x = y
    · subst e
      rw [List.getElem?_set_self hxl] at hw
      exact .inl ⟨rfl, (Option.some.inj hw).symm⟩
    · rw [List.getElem?_set_ne e] at hw
      exact .inr ⟨fun h => e h.symm, hw⟩
  have hnear : ∀ (y w : Nat), (a.vals.set x (F32.add v a.inc))[y]? = some w →
      Near (tol ph (decide (y ∈ x :: done))) (val w) (val a.inc) (σ y + if y = x then 1 else 0) := by
    intro y w hw
    rcases hset y w hw with ⟨rfl, rfl⟩ | ⟨h1, h2⟩
    · simpa using hb1
    · have := h.near y w h2
      simpa [h1] using this
  have hnn : ∀ y, 0 ≤ σ y + if y = x then (1 : ℝ) else 0 := by
    intro y
    have := h.nonneg y
    split <;> linarith
  have hsc : ∀ y, (σ y + if y = x then (1 : ℝ) else 0) ≤ if y ∈ x :: done then 20 else 19 := by
    intro y
    by_cases e : y = x
    · subst e; simp; linarith
    · have := h.score y; simpa [e] using this
  have hbig : ∀ (y w : Nat), (a.vals.set x (F32.add v a.inc))[y]? = some w → val w ≤ 2 ^ 126 := by
    intro y w hw
    rcases hset y w hw with ⟨_, rfl⟩ | ⟨_, h2⟩
    · exact hb2
    · have := le_limit.1 (h.le y w h2)
      norm_num at this ⊢; linarith
  have hget : a.vals.getD x 0 = v := by rw [List.getD_eq_getElem?_getD, hv]; rfl
  rw [bumped_eq, hget]
  by_cases hlim : RESCALE_LIMIT < F32.add v a.inc
  · rw [if_pos hlim]
    have hI2 := le_limit.1 h.inc.2
    -- no second rescaling
    have hph : ph = false := by
      cases ph with
      | false => rfl
      | true =>
        exfalso
        have h2 := h.small rfl
        rw [← F32.value_lt, limit_value] at hlim
        unfold Near at hb1
        rw [abs_le] at hb1
        have k1 : (σ x + 1) * val a.inc ≤ 20 * val a.inc :=
          mul_le_mul_of_nonneg_right (by linarith) hI
        have k2 := mul_le_mul_of_nonneg_right (tol_bounds true true).2 hI
        norm_num at hlim
        linarith [hb1.2]
    subst hph
    have hr := rescale_spec (a := a.inc) (by norm_num at hI2 ⊢; linarith)
    have hi32 : 1 / 32 ≤ val (F32.mul a.inc RESCALE_FACTOR) := by
      rw [← F32.value_lt, limit_value] at hlim
      unfold Near at hb1
      rw [abs_le] at hb1 hr
      have k1 : (σ x + 1) * val a.inc ≤ 20 * val a.inc :=
        mul_le_mul_of_nonneg_right (by linarith) hI
      have k2 := mul_le_mul_of_nonneg_right (tol_bounds false true).2 hI
      have k3 : (2 ^ 24 - 1) * 2 ^ 100 ≤ 20.1 * val a.inc := by linarith [hb1.2]
      norm_num at hr k3 ⊢
      linarith [hr.1]
    have hi2 : val (F32.mul a.inc RESCALE_FACTOR) ≤ 2 := by
      rw [abs_le] at hr
      norm_num at hr hI2 ⊢
      linarith [hr.2]
    refine ⟨true, by simp [Act.rescaled, h.len], ⟨hi32, ?_⟩, fun _ => hi2, ?_, hnn, hsc, ?_⟩
    · rw [le_limit]
      show val (F32.mul a.inc RESCALE_FACTOR) ≤ _
      norm_num
      linarith
    · intro y w hw
      simp only [Act.rescaled, List.getElem?_map, Option.map_eq_some_iff] at hw
      obtain ⟨w', hw', rfl⟩ := hw
      have h3 := hbig y w' hw'
      have h4 := rescale_spec (a := w') (by norm_num at h3 ⊢; linarith)
      rw [le_limit]
      show val (F32.mul w' RESCALE_FACTOR) ≤ _
      rw [abs_le] at h4
      norm_num at h3 h4 ⊢
      linarith [h4.2]
    · intro y w hw
      simp only [Act.rescaled, List.getElem?_map, Option.map_eq_some_iff] at hw
      obtain ⟨w', hw', rfl⟩ := hw
      have hy20 : (σ y + if y = x then (1 : ℝ) else 0) ≤ 20 :=
        (hsc y).trans (by split <;> norm_num)
      have := (hnear y w' hw').rescale hi32 (by norm_num at hI2 ⊢; linarith) (hbig y w' hw') (hnn y)
        hy20 (tol_bounds _ _).1 ((tol_bounds _ _).2.trans (by norm_num))
      have ht : ∀ b, tol false b + 1 / 100000 = tol true b := by
        intro b; cases b <;> norm_num [tol]
      rw [ht] at this
      exact this
  · rw [if_neg hlim]
    refine ⟨ph, by simp [h.len], h.inc, h.small, ?_, hnn, hsc, hnear⟩
    intro y w hw
    rcases hset y w hw with ⟨_, rfl⟩ | ⟨_, h2⟩
    · omega
    · exact h.le y w h2

/-- The state between conflicts. -/
structure Between (n : Nat) (a : Act) (σ : Nat → ℝ) : Prop where
  len : a.vals.length = n
  inc : IncOK a.inc
  le : ∀ (x v : Nat), a.vals[x]? = some v → v ≤ RESCALE_LIMIT
  nonneg : ∀ x, 0 ≤ σ x
  score : ∀ x, σ x ≤ 19
  near : ∀ (x v : Nat), a.vals[x]? = some v → Near (1 / 1000) (val v) (val a.inc) (σ x)

theorem Between.start {n : Nat} (order : List (Nat × Nat) → List (Nat × Nat))
    (perm : ∀ l, (order l).Perm l) :
    Between n ⟨List.replicate n 0, (f32Env order perm).one⟩ (fun _ => 0) := by
  have h1 : val (f32Env order perm).one = 1 := one_value
  have key : ∀ (x v : Nat), (List.replicate n 0)[x]? = some v → v = 0 := by
    intro x v hv
    exact List.eq_of_mem_replicate (List.mem_of_getElem? hv)
  refine ⟨by simp, ⟨?_, ?_⟩, ?_, fun _ => le_refl _, fun _ => by norm_num, ?_⟩
  · simp only [h1]; norm_num
  · rw [le_limit]; simp only [h1]; norm_num
  · intro x v hv; rw [key x v hv]; exact Nat.zero_le _
  · intro x v hv
    rw [key x v hv]
    unfold Near
    simp only [h1, zero_value]
    norm_num

theorem Between.mid {n : Nat} {a : Act} {σ : Nat → ℝ} (h : Between n a σ) : Mid n [] false a σ := by
  refine ⟨h.len, h.inc, by simp, h.le, h.nonneg, fun x => by simpa using h.score x, ?_⟩
  intro x v hv
  have := h.near x v hv
  simpa [tol] using this

/-- The scores after the variables of a list were bumped. -/
noncomputable def bumpScores (σ : Nat → ℝ) (xs : List Nat) : Nat → ℝ := fun x => σ x + if x ∈ xs then 1 else 0

theorem Mid.bumps {n : Nat} (xs : List Nat) : ∀ {done : List Nat} {ph : Bool} {a : Act} {σ : Nat → ℝ},
    Mid n done ph a σ → xs.Nodup → (∀ x ∈ xs, x < n ∧ x ∉ done) →
    ∃ done' ph', Mid n done' ph' (xs.foldl (Act.bumped (f32Env order perm)) a) (bumpScores σ xs) := by
  induction xs with
  | nil =>
    intro done ph a σ h _ _
    refine ⟨done, ph, ?_⟩
    have : bumpScores σ [] = σ := by funext x; simp [bumpScores]
    rw [this]
    exact h
  | cons x xs ih =>
    intro done ph a σ h hnd hx
    obtain ⟨h1, h2⟩ := List.nodup_cons.1 hnd
    obtain ⟨ph1, m1⟩ := h.bump (order := order) (perm := perm) (hx x (by simp)).1 (hx x (by simp)).2
    obtain ⟨d2, ph2, m2⟩ := ih m1 h2 (by
      intro y hy
      refine ⟨(hx y (by simp [hy])).1, ?_⟩
      simp only [List.mem_cons, not_or]
      exact ⟨fun e => h1 (e ▸ hy), (hx y (by simp [hy])).2⟩)
    refine ⟨d2, ph2, ?_⟩
    have : bumpScores σ (x :: xs) = bumpScores (fun y => σ y + if y = x then 1 else 0) xs := by
      funext y
      unfold bumpScores
      by_cases e : y = x
      · subst e; simp [h1]
      · simp [e]
    rw [this]
    exact m2

theorem Between.conflict {n : Nat} {a : Act} {σ : Nat → ℝ} (h : Between n a σ) {xs : List Nat}
    (hn : xs.Nodup) (hx : ∀ x ∈ xs, x < n) :
    Between n (a.conflict (f32Env order perm) xs) (fun x => 19 / 20 * bumpScores σ xs x) := by
  obtain ⟨done, ph, m⟩ := h.mid.bumps (order := order) (perm := perm) xs hn
    (fun x hx' => ⟨hx x hx', by simp⟩)
  unfold Act.conflict
  generalize xs.foldl (Act.bumped (f32Env order perm)) a = b at m
  have hs20 : ∀ x, bumpScores σ xs x ≤ 20 := fun x => (m.score x).trans (by split <;> norm_num)
  have hd : ∀ (x v : Nat), b.vals[x]? = some v → _ := fun x v hv =>
    (m.near x v hv).decay m.inc (m.nonneg x) (hs20 x) (tol_bounds ph (decide (x ∈ done))).2
  have h0 : Near 0 0 (val b.inc) 0 := by simp [Near]
  have hinc := (Near.decay (a := 0) m.inc (by rw [zero_value]; exact h0) (le_refl _) (by norm_num)
    (by norm_num)).2
  have hnn : ∀ x, 0 ≤ 19 / 20 * bumpScores σ xs x := fun x => by have := m.nonneg x; linarith
  have hsc : ∀ x, 19 / 20 * bumpScores σ xs x ≤ 19 := fun x => by have := hs20 x; linarith
  rw [decayed_eq]
  have hI := m.inc.1
  by_cases hlim : RESCALE_LIMIT < F32.mul b.inc INVERSE_DECAY
  · rw [if_pos hlim]
    have hlim' := F32.value_lt.2 hlim
    rw [limit_value] at hlim'
    have hr := rescale_spec (a := F32.mul b.inc INVERSE_DECAY) (by have := hinc.2; norm_num at this ⊢; linarith)
    have hi32 : 1 / 32 ≤ val (F32.mul (F32.mul b.inc INVERSE_DECAY) RESCALE_FACTOR) := by
      rw [abs_le] at hr
      norm_num at hr hlim' ⊢
      linarith [hr.1]
    have hbig : ∀ (y w : Nat), b.vals[y]? = some w → val w ≤ 2 ^ 126 := by
      intro y w hw
      have := le_limit.1 (m.le y w hw)
      norm_num at this ⊢; linarith
    refine ⟨by simp [Act.rescaled, m.len], ⟨hi32, ?_⟩, ?_, hnn, hsc, ?_⟩
    · rw [le_limit]
      show val (F32.mul (F32.mul b.inc INVERSE_DECAY) RESCALE_FACTOR) ≤ _
      have := hinc.2
      rw [abs_le] at hr
      norm_num at hr this ⊢
      linarith [hr.2]
    · intro y w hw
      simp only [Act.rescaled, List.getElem?_map, Option.map_eq_some_iff] at hw
      obtain ⟨w', hw', rfl⟩ := hw
      have h3 := hbig y w' hw'
      have h4 := rescale_spec (a := w') (by norm_num at h3 ⊢; linarith)
      rw [le_limit]
      show val (F32.mul w' RESCALE_FACTOR) ≤ _
      rw [abs_le] at h4
      norm_num at h3 h4 ⊢
      linarith [h4.2]
    · intro y w hw
      simp only [Act.rescaled, List.getElem?_map, Option.map_eq_some_iff] at hw
      obtain ⟨w', hw', rfl⟩ := hw
      have := (hd y w' hw').1.rescale hi32 hinc.2 (hbig y w' hw') (hnn y) ((hsc y).trans (by norm_num))
        (by norm_num) (by norm_num)
      exact this.mono (F32.value_nonneg _) (by norm_num)
  · rw [if_neg hlim]
    refine ⟨m.len, ⟨hI.trans hinc.1, by simp only; omega⟩, m.le, hnn, hsc, ?_⟩
    intro y w hw
    exact (hd y w hw).1.mono (F32.value_nonneg _) (by norm_num)

end

end Score32

end Starlit
