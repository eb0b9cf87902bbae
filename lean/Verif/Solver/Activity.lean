import Verif.Props.Runs

/-!
# How activities change during a run
-/

namespace Starlit

/-! ## Heap operations keep the values -/

namespace Heap
variable {V : Type} [LinearOrder V] {h h' : Heap V}

theorem swap_values {a b : Nat} (e : h.swap a b = .ok h') : h'.values = h.values := by
  unfold swap at e
  obtain ⟨_, _, e⟩ := bind_eq_ok.1 e
  obtain ⟨_, _, e⟩ := bind_eq_ok.1 e
  obtain ⟨_, _, e⟩ := bind_eq_ok.1 e
  obtain ⟨_, _, e⟩ := bind_eq_ok.1 e
  cases e; rfl

theorem rootLoop_values {v : V} : ∀ (fuel : Nat) {h h' : Heap V} {pos : Nat},
    rootLoop v fuel h pos = .ok h' → h'.values = h.values
  | 0, h, h', pos, e => by
    unfold rootLoop at e
    split at e
    · cases e; rfl
    · simp [throw_eq] at e
  | fuel + 1, h, h', pos, e => by
    unfold rootLoop at e
    split at e
    · obtain ⟨pv, _, e⟩ := bind_eq_ok.1 e
      split at e
      · obtain ⟨h1, e1, e⟩ := bind_eq_ok.1 e
        rw [rootLoop_values fuel e, swap_values e1]
      · cases e; rfl
    · cases e; rfl

theorem moveTowardsRoot_values {pos : Nat} (e : h.moveTowardsRoot pos = .ok h') :
    h'.values = h.values := by
  unfold moveTowardsRoot at e
  obtain ⟨v, _, e⟩ := bind_eq_ok.1 e
  exact rootLoop_values _ e

theorem leavesLoop_values {v : V} : ∀ (fuel : Nat) {h h' : Heap V} {pos : Nat},
    leavesLoop v fuel h pos = .ok h' → h'.values = h.values
  | 0, h, h', pos, e => by simp [leavesLoop, throw_eq] at e
  | fuel + 1, h, h', pos, e => by
    unfold leavesLoop at e
    obtain ⟨sp, _, e⟩ := bind_eq_ok.1 e
    split at e
    · cases e; rfl
    · obtain ⟨h1, e1, e⟩ := bind_eq_ok.1 e
      rw [leavesLoop_values fuel e, swap_values e1]

theorem moveTowardsLeaves_values {pos : Nat} (e : h.moveTowardsLeaves pos = .ok h') :
    h'.values = h.values := by
  unfold moveTowardsLeaves at e
  obtain ⟨v, _, e⟩ := bind_eq_ok.1 e
  exact leavesLoop_values _ e

theorem popLast_values {x : Nat} (e : h.popLast x = .ok h') : h'.values = h.values := by
  unfold popLast at e
  obtain ⟨_, _, e⟩ := bind_eq_ok.1 e
  cases e; rfl

theorem enqueue_values {x : Nat} (e : h.enqueue x = .ok h') : h'.values = h.values := by
  unfold enqueue at e
  obtain ⟨pos, _, e⟩ := bind_eq_ok.1 e
  split at e
  · cases e; rfl
  · obtain ⟨hp, _, e⟩ := bind_eq_ok.1 e
    rw [moveTowardsRoot_values e]

theorem popMax_values {r : Option Nat} (e : h.popMax = .ok (r, h')) : h'.values = h.values := by
  unfold popMax at e
  split at e
  · cases e; rfl
  · simp only at e
    split at e
    · obtain ⟨h1, e1, e⟩ := bind_eq_ok.1 e
      cases e
      exact popLast_values e1
    · obtain ⟨h2, e2, e⟩ := bind_eq_ok.1 e
      obtain ⟨h3, e3, e⟩ := bind_eq_ok.1 e
      obtain ⟨h4, e4, e⟩ := bind_eq_ok.1 e
      cases e
      rw [moveTowardsLeaves_values e4, popLast_values e3, swap_values e2]

theorem increase_values {x : Nat} {f : V → V} (e : h.increase x f = .ok h') :
    ∃ v, h.values[x]? = some v ∧ h'.values = h.values.set x (f v) := by
  unfold increase at e
  obtain ⟨v, e1, e⟩ := bind_eq_ok.1 e
  obtain ⟨vs, e2, e⟩ := bind_eq_ok.1 e
  obtain ⟨pos, _, e⟩ := bind_eq_ok.1 e
  have h2 := (upd_eq_ok.1 e2).2
  refine ⟨v, idx_eq_ok.1 e1, ?_⟩
  split at e
  · rw [moveTowardsRoot_values e, h2]
  · cases e; exact h2

end Heap

/-! ## Activities -/

/-- The activities of the variables and the increment. -/
@[ext] structure Act where
  vals : List Nat
  inc : Nat

/-- All activities and the increment are rescaled. -/
def Act.rescaled (env : Env) (a : Act) : Act := ⟨a.vals.map env.rescale, env.rescale a.inc⟩

/-- The increment is added to the activity of a variable; everything is rescaled if the result is above
the limit. -/
def Act.bumped (env : Env) (a : Act) (x : Nat) : Act :=
  let v := env.add (a.vals.getD x 0) a.inc
  if env.aboveLimit v then Act.rescaled env ⟨a.vals.set x v, a.inc⟩ else ⟨a.vals.set x v, a.inc⟩

/-- The increment is enlarged; everything is rescaled if the result is above the limit. -/
def Act.decayed (env : Env) (a : Act) : Act :=
  let i := env.decay a.inc
  if env.aboveLimit i then Act.rescaled env ⟨a.vals, i⟩ else ⟨a.vals, i⟩

/-- A conflict: the variables of a list are bumped, then the increment is enlarged once. -/
def Act.conflict (env : Env) (a : Act) (xs : List Nat) : Act :=
  (xs.foldl (Act.bumped env) a).decayed env

/-- The activities a run can lead to: all are 0 at the start, and each conflict bumps a set of
variables. -/
inductive Act.Run (env : Env) (n : Nat) : Act → Prop
  | start : Act.Run env n ⟨List.replicate n 0, env.one⟩
  | conflict {a : Act} (xs : List Nat) : Act.Run env n a → xs.Nodup →
      (∀ x ∈ xs, x < a.vals.length) → Act.Run env n (a.conflict env xs)

/-- The activities and the increment of the solver. -/
def Vsids.act (v : Vsids) : Act := ⟨v.activity.values, v.increment⟩

theorem bumpVar_act {env : Env} {v v' : Vsids} {x : Nat} (e : v.bumpVar env x = .ok v') :
    x < v.act.vals.length ∧ v'.act = v.act.bumped env x := by
  unfold Vsids.bumpVar at e
  obtain ⟨old, e1, e⟩ := bind_eq_ok.1 e
  obtain ⟨h', e2, e⟩ := bind_eq_ok.1 e
  obtain ⟨w, h1, h2⟩ := Heap.increase_values e2
  have h3 := idx_eq_ok.1 e1
  rw [h1] at h3
  obtain rfl := Option.some.inj h3
  have hd : v.act.vals.getD x 0 = w := by
    unfold Vsids.act
    rw [List.getD_eq_getElem?_getD, h1]; rfl
  refine ⟨(List.getElem?_eq_some_iff.1 h1).1, ?_⟩
  unfold Act.bumped
  rw [hd]
  simp only at e ⊢
  split at e
  · next hc =>
    cases e
    rw [if_pos (show env.aboveLimit (env.add w v.act.inc) = true from hc)]
    simp [Vsids.act, Vsids.doRescale, Heap.applyMonotone, Act.rescaled, h2]
  · next hc =>
    cases e
    rw [if_neg (show ¬ env.aboveLimit (env.add w v.act.inc) = true from hc)]
    simp [Vsids.act, h2]

theorem doDecay_act (env : Env) (v : Vsids) : (v.doDecay env).act = v.act.decayed env := by
  unfold Vsids.doDecay Act.decayed
  by_cases h : env.aboveLimit (env.decay v.increment) = true
  · simp only [show v.act.inc = v.increment from rfl, if_pos h]; rfl
  · simp only [show v.act.inc = v.increment from rfl, if_neg h]; rfl

theorem popLoop_values {values : PartialAssignment} : ∀ (fuel : Nat) {h h' : Heap Nat}
    {r : Option Nat}, Vsids.popLoop values fuel h = .ok (r, h') → h'.values = h.values
  | 0, h, h', r, e => by simp [Vsids.popLoop, throw_eq] at e
  | fuel + 1, h, h', r, e => by
    unfold Vsids.popLoop at e
    obtain ⟨⟨x, h1⟩, e1, e⟩ := bind_eq_ok.1 e
    cases x with
    | none => cases e; exact Heap.popMax_values e1
    | some x =>
      obtain ⟨b, _, e⟩ := bind_eq_ok.1 e
      cases b with
      | true => rw [popLoop_values fuel e, Heap.popMax_values e1]
      | false => cases e; exact Heap.popMax_values e1

theorem popDecisionVar_act {v v' : Vsids} {values : PartialAssignment} {r : Option Nat}
    (e : v.popDecisionVar values = .ok (r, v')) : v'.act = v.act := by
  unfold Vsids.popDecisionVar at e
  obtain ⟨⟨x, h1⟩, e1, e⟩ := bind_eq_ok.1 e
  cases e
  simp only [Vsids.act, popLoop_values _ e1]

theorem undoLoop_act : ∀ (ss : List Step) {values values' : PartialAssignment} {cb cb' : Callbacks},
    undoLoop ss values cb = .ok (values', cb') → cb'.vsids.act = cb.vsids.act
  | [], values, values', cb, cb', e => by cases e; rfl
  | s :: ss, values, values', cb, cb', e => by
    unfold undoLoop at e
    obtain ⟨cb1, e1, e⟩ := bind_eq_ok.1 e
    obtain ⟨_, _, e⟩ := bind_eq_ok.1 e
    rw [undoLoop_act ss e]
    unfold Callbacks.unassign at e1
    obtain ⟨h1, e2, e1⟩ := bind_eq_ok.1 e1
    obtain ⟨_, _, e1⟩ := bind_eq_ok.1 e1
    cases e1
    simp only [Vsids.act, Heap.enqueue_values e2]

theorem backtrackToLevel_act {p p' : PropState} {level : Nat} {cb cb' : Callbacks}
    (e : backtrackToLevel p level cb = .ok (p', cb')) : cb'.vsids.act = cb.vsids.act := by
  unfold backtrackToLevel at e
  obtain ⟨_, _, e⟩ := bind_eq_ok.1 e
  obtain ⟨_, _, e⟩ := bind_eq_ok.1 e
  obtain ⟨_, _, e⟩ := bind_eq_ok.1 e
  obtain ⟨⟨_, cb1⟩, e1, e⟩ := bind_eq_ok.1 e
  cases e
  exact undoLoop_act _ e1

/-! ## Conflict analysis bumps each variable at most once -/

/-- The variable is assigned above the top level. -/
def Lifted (t : Trail) (x : Nat) : Prop := ∃ s ∈ t.steps, s.lit.index = x ∧ s.level ≠ 0

/-- The variables `xs` were bumped since `a`; those at trail indices below `k` are flagged. -/
structure Bumps (env : Env) (t : Trail) (k : Nat) (a : Act) (xs : List Nat) (an : Analysis)
    (cb : Callbacks) : Prop where
  act : cb.vsids.act = xs.foldl (Act.bumped env) a
  nodup : xs.Nodup
  lt : ∀ x ∈ xs, x < a.vals.length
  flag : ∀ x ∈ xs, ∃ (i : Nat) (s : Step), t.trailIndex[x]? = some i ∧ t.steps[i]? = some s ∧
    s.lit.index = x ∧ s.level ≠ 0 ∧ (i < k → an.currentClauseLits[i]? = some true)
  mem : ∀ (i : Nat) (s : Step), an.currentClauseLits[i]? = some true → t.steps[i]? = some s →
    s.lit.index ∈ xs
  der : ∀ l ∈ an.derivedClause, l.index ∈ xs
  low : ∀ l ∈ an.derivedClause, ∀ s ∈ t.steps, s.lit.index = l.index → s.level ≠ t.decisionLevel
  glue : AllFalse an.glueLevelFlags
  glen : t.decisionLevel < an.glueLevelFlags.length

theorem Act.bumped_len (env : Env) (a : Act) (x : Nat) :
    (a.bumped env x).vals.length = a.vals.length := by
  unfold Act.bumped Act.rescaled
  simp only
  split <;> simp

theorem Act.foldl_bumped_len (env : Env) (xs : List Nat) : ∀ (a : Act),
    (xs.foldl (Act.bumped env) a).vals.length = a.vals.length := by
  induction xs with
  | nil => intro a; rfl
  | cons x xs ih => intro a; rw [List.foldl_cons, ih, Act.bumped_len]

/-- Variables of `ls` were added to `xs`. -/
structure Added (t : Trail) (ls : List Lit) (xs ys : List Nat) : Prop where
  sub : ∀ x ∈ xs, x ∈ ys
  src : ∀ x ∈ ys, x ∈ xs ∨ ∃ l ∈ ls, l.index = x
  all : ∀ l ∈ ls, Lifted t l.index → l.index ∈ ys

section
variable {env : Env} {n : Nat} {values : PartialAssignment} {t : Trail}

theorem addLiteral_bumps (ht : TrailInv n values t) {k : Nat} {l : Lit} {an an' : Analysis}
    {cb cb' : Callbacks} {a : Act} {xs : List Nat} (hb : Before t.steps k l.neg)
    (h : Bumps env t k a xs an cb) (e : an.addLiteral env t l cb = .ok (an', cb')) :
    ∃ ys, Bumps env t k a ys an' cb' ∧ Added t [l] xs ys := by
  obtain ⟨i0, s0, hi0, hs0, e0⟩ := hb
  have hm0 : s0 ∈ t.steps := List.mem_iff_getElem?.2 ⟨i0, hs0⟩
  have hidx : s0.lit.index = l.index := by rw [e0, Lit.index_neg]
  unfold Analysis.addLiteral at e
  obtain ⟨i, e1, e⟩ := bind_eq_ok.1 e
  obtain ⟨s, e2, e⟩ := bind_eq_ok.1 e
  have h1 := Trail.indexOf_eq_ok e1
  have h2 := idx_eq_ok.1 e2
  split at e
  · next hz =>
    cases e
    refine ⟨xs, h, fun _ h => h, fun _ h => .inl h, ?_⟩
    intro l' hl' hlift
    simp only [List.mem_singleton] at hl'
    subst hl'
    obtain ⟨s1, hs1, b1, b2⟩ := hlift
    obtain ⟨j, hj⟩ := List.mem_iff_getElem?.1 hs1
    have := ht.tix_pos hj b2
    rw [b1, h1] at this
    cases this
    rw [h2] at hj
    cases hj
    exact absurd hz b2
  next hz =>
  obtain ⟨i', s', h1', h2', h3', h4'⟩ := ht.step_of_mem hm0
  rw [hidx, h1] at h1'
  cases h1'
  rw [h2] at h2'
  cases h2'
  have hii : i = i0 := by
    have := ht.tix_pos hs0 (by omega)
    rw [hidx, h1] at this
    injection this
  have hik : i < k := by omega
  obtain ⟨old, e3, e⟩ := bind_eq_ok.1 e
  obtain ⟨flags, e4, e⟩ := bind_eq_ok.1 e
  have h3 := idx_eq_ok.1 e3
  obtain ⟨hil, rfl⟩ := upd_eq_ok.1 e4
  have hmem : ∀ j, (an.currentClauseLits.set i true)[j]? = some true ↔
      j = i ∨ an.currentClauseLits[j]? = some true := fun j => getElem?_set_true hil
  have hsl : s.lit.index = l.index := by rw [h3', hidx]
  cases old with
  | true =>
    cases e
    refine ⟨xs, ⟨h.act, h.nodup, h.lt, ?_, ?_, h.der, h.low, h.glue, h.glen⟩, fun _ h => h,
      fun _ h => .inl h, ?_⟩
    · intro x hx
      obtain ⟨j, y, a1, a2, a3, a4, a5⟩ := h.flag x hx
      exact ⟨j, y, a1, a2, a3, a4, fun hj => (hmem j).2 (.inr (a5 hj))⟩
    · intro j y hj hy
      rcases (hmem j).1 hj with rfl | hj
      · exact h.mem _ y h3 hy
      · exact h.mem j y hj hy
    · intro l' hl' _
      simp only [List.mem_singleton] at hl'
      subst hl'
      rw [← hsl]
      exact h.mem i s h3 h2
  | false =>
    simp only [Bool.false_eq_true, if_false] at e
    obtain ⟨v, e5, e⟩ := bind_eq_ok.1 e
    obtain ⟨hlt, hact⟩ := bumpVar_act e5
    have hnew : l.index ∉ xs := by
      intro hc
      obtain ⟨j, y, a1, a2, a3, a4, a5⟩ := h.flag _ hc
      rw [h1] at a1
      cases a1
      have := a5 hik
      rw [h3] at this
      cases this
    have hadd : Added t [l] xs (xs ++ [l.index]) := by
      refine ⟨fun x hx => List.mem_append_left _ hx, ?_, ?_⟩
      · intro x hx
        rcases List.mem_append.1 hx with hx | hx
        · exact .inl hx
        · exact .inr ⟨l, by simp, (List.mem_singleton.1 hx).symm⟩
      · intro l' hl' _
        simp only [List.mem_singleton] at hl'
        subst hl'
        simp
    have base : ∀ an2 : Analysis, an2.currentClauseLits = an.currentClauseLits.set i true →
        an2.glueLevelFlags = an.glueLevelFlags →
        (∀ l' ∈ an2.derivedClause, (l' = l ∧ s.level ≠ t.decisionLevel) ∨ l' ∈ an.derivedClause) →
        Bumps env t k a (xs ++ [l.index]) an2 { cb with vsids := v } := by
      intro an2 hf hg hd
      refine ⟨?_, ?_, ?_, ?_, ?_, ?_, ?_, by rw [hg]; exact h.glue, by rw [hg]; exact h.glen⟩
      · simp only [List.foldl_append, List.foldl_cons, List.foldl_nil, hact, h.act]
      · refine List.nodup_append.2 ⟨h.nodup, by simp, ?_⟩
        intro x hx y hy
        simp only [List.mem_singleton] at hy
        rintro rfl
        exact hnew (hy ▸ hx)
      · intro x hx
        rcases List.mem_append.1 hx with hx | hx
        · exact h.lt x hx
        · simp only [List.mem_singleton] at hx
          rw [hx]
          rwa [h.act, Act.foldl_bumped_len] at hlt
      · intro x hx
        rw [hf]
        rcases List.mem_append.1 hx with hx | hx
        · obtain ⟨j, y, a1, a2, a3, a4, a5⟩ := h.flag x hx
          exact ⟨j, y, a1, a2, a3, a4, fun hj => (hmem j).2 (.inr (a5 hj))⟩
        · simp only [List.mem_singleton] at hx
          subst hx
          exact ⟨i, s, h1, h2, hsl, hz, fun _ => (hmem i).2 (.inl rfl)⟩
      · intro j y hj hy
        rw [hf] at hj
        rcases (hmem j).1 hj with rfl | hj
        · rw [h2] at hy
          cases hy
          simp [hsl]
        · exact List.mem_append_left _ (h.mem j y hj hy)
      · intro l' hl'
        rcases hd l' hl' with ⟨rfl, _⟩ | hl'
        · simp
        · exact List.mem_append_left _ (h.der l' hl')
      · intro l' hl' s1 hs1 h1s
        rcases hd l' hl' with ⟨rfl, hne⟩ | hl'
        · obtain ⟨j, s2, b1, b2, b3, b4⟩ := ht.step_of_mem hs1
          rw [h1s, h1] at b1
          cases b1
          rw [h2] at b2
          cases b2
          have hpos : s1.level ≠ 0 := by omega
          obtain ⟨j, hj⟩ := List.mem_iff_getElem?.1 hs1
          have := ht.tix_pos hj hpos
          rw [h1s, h1] at this
          cases this
          rw [h2] at hj
          cases hj
          exact hne
        · exact h.low l' hl' s1 hs1 h1s
    split at e
    · cases e
      exact ⟨_, base _ rfl rfl (fun l' h => .inr h), hadd⟩
    · next hne =>
      cases e
      refine ⟨_, base _ rfl rfl ?_, hadd⟩
      intro l' hl'
      simp only [List.mem_append, List.mem_singleton] at hl'
      exact hl'.symm.imp_left fun h => ⟨h, hne⟩

theorem addLiterals_bumps (ht : TrailInv n values t) {k : Nat} : ∀ (ls : List Lit)
    {an an' : Analysis} {cb cb' : Callbacks} {a : Act} {xs : List Nat},
    (∀ l ∈ ls, Before t.steps k l.neg) → Bumps env t k a xs an cb →
    Analysis.addLiterals env t ls an cb = .ok (an', cb') →
    ∃ ys, Bumps env t k a ys an' cb' ∧ Added t ls xs ys
  | [], an, an', cb, cb', a, xs, hb, h, e => by
    cases e
    exact ⟨xs, h, fun _ h => h, fun _ h => .inl h, by simp⟩
  | l :: ls, an, an', cb, cb', a, xs, hb, h, e => by
    unfold Analysis.addLiterals at e
    obtain ⟨⟨an1, cb1⟩, e1, e⟩ := bind_eq_ok.1 e
    obtain ⟨ys, h1, a1⟩ := addLiteral_bumps ht (hb l (by simp)) h e1
    obtain ⟨zs, h2, a2⟩ := addLiterals_bumps ht ls (fun x hx => hb x (by simp [hx])) h1 e
    refine ⟨zs, h2, fun x hx => a2.sub x (a1.sub x hx), ?_, ?_⟩
    · intro x hx
      rcases a2.src x hx with hx | ⟨l', hl', e'⟩
      · rcases a1.src x hx with hx | ⟨l', hl', e'⟩
        · exact .inl hx
        · exact .inr ⟨l', by simp_all, e'⟩
      · exact .inr ⟨l', by simp [hl'], e'⟩
    · intro l' hl' hlift
      rcases List.mem_cons.1 hl' with rfl | hl'
      · exact a2.sub _ (a1.all _ (by simp) hlift)
      · exact a2.all _ hl' hlift

end

/-- The variable occurs in the reason of the step at trail index `i`. -/
def InReason (p : PropState) (i x : Nat) : Prop :=
  ∃ (s : Step) (rs : List Lit), p.trail.steps[i]? = some s ∧ p.reasonLits s.reason = .ok rs ∧
    ∃ o ∈ rs, o.index = x

/-- Changes of headers do not change which literals are in a reason. -/
theorem OnlyHeaders.inReason {n : Nat} {S S' : List LC} {p p' : PropState} (hp : PInv n S p)
    (h : OnlyHeaders n S p S' p') {i x : Nat} : InReason p i x ↔ InReason p' i x := by
  have ht : p'.trail = p.trail := by obtain ⟨a, rfl⟩ := h.eq; rfl
  unfold InReason
  rw [ht]
  refine exists_congr fun s => ?_
  by_cases hs : p.trail.steps[i]? = some s
  · simp only [hs, true_and]
    cases hr : s.reason with
    | decision => simp [PropState.reasonLits]
    | unit => simp [PropState.reasonLits]
    | binary o => simp [PropState.reasonLits]
    | long c =>
      obtain ⟨rs, e1, _⟩ := hp.reason hs
      obtain ⟨rs', e1', _⟩ := h.inv.reason (ht ▸ hs)
      have hr1 := hp.reasons i s hs
      have hr2 := h.inv.reasons i s (ht ▸ hs)
      unfold ReasonOK at hr1 hr2
      rw [hr] at hr1 hr2 e1 e1'
      obtain ⟨e, he, c1, rest, h1, h2⟩ := hr1
      obtain ⟨e', he', c1', rest', h1', h2'⟩ := hr2
      obtain ⟨e2, he2, hsim⟩ := h.sim.symm_mem he
      have k1 := hp.rep.lits_ok he
      have k2 := h.inv.rep.lits_ok he2
      have k3 := h.inv.rep.lits_ok he'
      rw [hsim.ref, c1, ← c1', k3] at k2
      have k4 : e'.lits = e2.lits := Except.ok.inj k2
      have hperm := hsim.lits
      rw [← k4, h1', h1] at hperm
      have hperm := (List.perm_cons _).1 hperm
      subst c1
      have e3 : p.reasonLits (.long e.ref) = .ok rest := by
        simp only [PropState.reasonLits]
        rw [k1, h1]; rfl
      have e4 : p'.reasonLits (.long e.ref) = .ok rest' := by
        simp only [PropState.reasonLits]
        rw [← c1', k3, h1']; rfl
      rw [e3, e4]
      simp only [Except.ok.injEq, exists_eq_left']
      exact exists_congr fun o => by rw [hperm.mem_iff]
  · simp [hs]

/-- The variables involved in the resolution steps down to trail index `k`: those of the conflict and of
the reasons of involved variables, without the ones assigned at the top level. -/
structure Involved (p : PropState) (conf : List Lit) (k : Nat) (xs : List Nat) : Prop where
  lifted : ∀ x ∈ xs, Lifted p.trail x
  src : ∀ x ∈ xs, (∃ l ∈ conf, l.index = x) ∨ ∃ (i : Nat) (s : Step), k ≤ i ∧
    p.trail.steps[i]? = some s ∧ s.lit.index ∈ xs ∧ InReason p i x
  start : ∀ l ∈ conf, Lifted p.trail l.index → l.index ∈ xs
  closed : ∀ (i : Nat) (s : Step) (x : Nat), k ≤ i → p.trail.steps[i]? = some s → s.lit.index ∈ xs →
    InReason p i x → Lifted p.trail x → x ∈ xs

/-- A lifted variable is assigned by one step only. -/
theorem TrailInv.lifted_unique {n : Nat} {values : PartialAssignment} {t : Trail}
    (ht : TrailInv n values t) {x i j : Nat} {s u : Step} (hl : Lifted t x) (hi : t.steps[i]? = some s)
    (hs : s.lit.index = x) (hj : t.steps[j]? = some u) (hu : u.lit.index = x) : i = j := by
  obtain ⟨y, hy, h1, h2⟩ := hl
  obtain ⟨m, hm⟩ := List.mem_iff_getElem?.1 hy
  have h3 := ht.tix_pos hm h2
  have key : ∀ {i : Nat} {s : Step}, t.steps[i]? = some s → s.lit.index = x → i = m := by
    intro i s hi hs
    obtain ⟨i', s', b1, b2, b3, b4⟩ := ht.step_of_mem (List.mem_iff_getElem?.2 ⟨i, hi⟩)
    rw [hs, ← h1, h3] at b1
    cases b1
    rw [hm] at b2
    cases b2
    have := ht.tix_pos hi (by omega)
    rw [hs, ← h1, h3] at this
    exact (Option.some.inj this).symm
  rw [key hi hs, key hj hu]

section
variable {env : Env} {n : Nat}

theorem Bumps.lifted {t : Trail} {k : Nat} {a : Act} {xs : List Nat} {an : Analysis} {cb : Callbacks}
    (h : Bumps env t k a xs an cb) {x : Nat} (hx : x ∈ xs) : Lifted t x := by
  obtain ⟨i, s, _, h2, h3, h4, _⟩ := h.flag x hx
  exact ⟨s, List.mem_iff_getElem?.2 ⟨i, h2⟩, h3, h4⟩

/-- `B` has the references of the long clauses used in the resolution steps down to trail index `k`: the
conflict and the reasons of the involved variables. -/
def UsedRefs (p : PropState) (cc : ConflictClause) (k : Nat) (xs B : List Nat) : Prop :=
  ∀ r, r ∈ B ↔ r ∈ cc.refs ∨ ∃ (i : Nat) (s : Step), k ≤ i ∧ p.trail.steps[i]? = some s ∧
    s.lit.index ∈ xs ∧ r ∈ s.reason.refs

theorem bumpS_append {steps : List Step} {S : List LC} {B rs : List Nat} (h : ∀ r ∈ rs, r ∉ B) :
    bumpS steps (bumpS steps S B) rs = bumpS steps S (rs ++ B) := by
  unfold bumpS
  rw [List.map_map]
  apply List.map_congr_left
  intro e _
  simp only [Function.comp_apply, List.mem_append]
  by_cases h1 : e.ref ∈ rs
  · have h2 := h _ h1
    simp [h1, h2]
  · by_cases h2 : e.ref ∈ B
    · simp [h1, h2]
    · simp [h1, h2]

/-- The reason of a step that was not used yet is not among the used clauses. -/
theorem UsedRefs.fresh {S : List LC} {p : PropState} {cc : ConflictClause} {k : Nat} {xs B : List Nat}
    (h : PInv n S p) (hc : ConflictOK S p cc) (hB : UsedRefs p cc (k + 1) xs B) {s : Step}
    (hs : p.trail.steps[k]? = some s) (hl : s.level ≠ 0) : ∀ r ∈ s.reason.refs, r ∉ B := by
  intro r hr hrB
  have hmem : s ∈ p.trail.steps := List.mem_iff_getElem?.2 ⟨k, hs⟩
  have key : ∀ {i : Nat} {y : Step}, p.trail.steps[i]? = some y → r ∈ y.reason.refs →
      ∃ e ∈ S, e.ref = r ∧ ∃ rest, e.lits = y.lit :: rest := by
    intro i y hy hr
    have := h.reasons i y hy
    unfold ReasonOK at this
    cases hx : y.reason with
    | long c =>
      rw [hx] at this hr
      simp only [Reason.refs, List.mem_singleton] at hr
      subst hr
      obtain ⟨e, he, h1, rest, h2, _⟩ := this
      exact ⟨e, he, h1, rest, h2⟩
    | decision => rw [hx] at hr; simp [Reason.refs] at hr
    | unit => rw [hx] at hr; simp [Reason.refs] at hr
    | binary o => rw [hx] at hr; simp [Reason.refs] at hr
  obtain ⟨e, he, h1, rest, h2⟩ := key hs hr
  rcases (hB r).1 hrB with hcr | ⟨i, y, hi, hy, _, hry⟩
  · cases cc with
    | binary a b => simp [ConflictClause.refs] at hcr
    | long c =>
      simp only [ConflictClause.refs, List.mem_singleton] at hcr
      obtain ⟨e', he', h3, _, h4, _⟩ := hc
      have : e = e' := h.rep.unique he he' (by rw [h1, h3, hcr])
      subst this
      obtain ⟨z, hz, ez⟩ := h4 s.lit (by rw [h2]; simp)
      exact h.trail.not_both hz hmem ez
  · obtain ⟨e', he', h3, rest', h4⟩ := key hy hry
    have : e = e' := h.rep.unique he he' (by rw [h1, h3])
    subst this
    rw [h2] at h4
    injection h4 with h4 _
    have := h.trail.lifted_unique (x := s.lit.index) ⟨s, hmem, rfl, hl⟩ hs rfl hy (by rw [h4])
    omega

/-! ### Counting the literals of the conflict level -/

/-- The empty clause and the literals of the trail. -/
def trailDB (t : Trail) : DB := 0 ::ₘ ((t.steps.map (fun s => ({s.lit} : Multiset Lit)) : List _) : Multiset _)

/-- The part of `UipInv` that does not depend on the clauses. -/
abbrev CountInv (t : Trail) (k : Nat) (pend : List Lit) (an : Analysis) : Prop :=
  UipInv (trailDB t) t k pend an

theorem upConflict_zero (t : Trail) (A : Lit → Prop) : UpConflict (trailDB t) A :=
  ⟨0, by simp [trailDB], by simp⟩

theorem implied_trail {t : Trail} {s : Step} (hs : s ∈ t.steps) (A : Lit → Prop) : Implied (trailDB t) A s.lit := by
  refine .unit (R := 0) ?_ (by simp)
  unfold trailDB
  refine Multiset.mem_cons_of_mem ?_
  rw [Multiset.mem_coe]
  exact List.mem_map.2 ⟨s, hs, rfl⟩

theorem CountInv.popFalse {t : Trail} {k : Nat} {an : Analysis} (u : CountInv t (k + 1) [] an)
    (hf : an.currentClauseLits[k]? = some false) :
    CountInv t k [] { an with currentClauseLits := an.currentClauseLits.set k false } := by
  have hset : an.currentClauseLits.set k false = an.currentClauseLits := by
    apply List.ext_getElem?
    intro j
    by_cases hj : k = j
    · subst hj; rw [List.getElem?_set_self (List.getElem?_eq_some_iff.1 hf).1, hf]
    · rw [List.getElem?_set_ne hj]
  rw [hset]
  refine ⟨u.flen, u.glen, u.glue, ?_, u.der, u.nodup, u.der', u.count, u.closure⟩
  intro j hj
  obtain ⟨a, b⟩ := u.low j hj
  refine ⟨?_, b⟩
  rcases Nat.lt_or_ge j k with h | h
  · exact h
  · obtain rfl : j = k := by omega
    rw [hf] at hj; cases hj

/-- The highest flagged literal is of the conflict level. -/
theorem CountInv.level {n : Nat} {values : PartialAssignment} {t : Trail} (ht : TrailInv n values t) {k : Nat}
    {an : Analysis} (u : CountInv t (k + 1) [] an) {s : Step} (hs : t.steps[k]? = some s)
    (hc : an.currentLevelLitCount ≠ 0) : s.level = t.decisionLevel := by
  rw [u.count, ← Nat.pos_iff_ne_zero, Finset.card_pos] at hc
  obtain ⟨i, hi⟩ := hc
  obtain ⟨hi1, x, hx, hxl⟩ := mem_curSet.1 hi
  have hik := (u.low i hi1).1
  have h1 := ht.level_mono hx hs (by omega)
  have h2 := ht.level_le k s hs
  omega

theorem CountInv.popTrue {t : Trail} {k : Nat} {an : Analysis} (u : CountInv t (k + 1) [] an)
    {s : Step} (hs : t.steps[k]? = some s) (hf : an.currentClauseLits[k]? = some true)
    (hlev : s.level = t.decisionLevel) {tmp : List Bool} (ht : AllFalse tmp)
    (hl : tmp.length = an.glueLevelFlags.length) (pend : List Lit) :
    CountInv t k pend { an with
      currentClauseLits := an.currentClauseLits.set k false
      currentLevelLitCount := an.currentLevelLitCount - 1
      glueLevelFlags := tmp } := by
  have hmem : ∀ j, (an.currentClauseLits.set k false)[j]? = some true ↔
      j ≠ k ∧ an.currentClauseLits[j]? = some true := fun j => getElem?_set_false
  refine ⟨by simpa using u.flen, by simp only [hl]; exact u.glen, ht, ?_, ?_, u.nodup, ?_, ?_,
    fun A _ _ => upConflict_zero _ A⟩
  · intro j hj
    obtain ⟨a, b⟩ := (hmem j).1 hj
    obtain ⟨c, d⟩ := u.low j b
    exact ⟨by omega, d⟩
  · intro l hl
    obtain ⟨i, x, a1, a2, a3, a4, a5⟩ := u.der l hl
    refine ⟨i, x, a1, a2, a3, a4, (hmem i).2 ⟨?_, a5⟩⟩
    rintro rfl
    rw [hs] at a1; cases a1; exact a3 hlev
  · intro i x hi hx hne
    exact u.der' i x ((hmem i).1 hi).2 hx hne
  · have : curSet t an.currentClauseLits = insert k (curSet t (an.currentClauseLits.set k false)) := by
      ext j
      rw [Finset.mem_insert, mem_curSet, mem_curSet, hmem]
      constructor
      · rintro ⟨a, b⟩
        by_cases hj : j = k
        · exact .inl hj
        · exact .inr ⟨⟨hj, a⟩, b⟩
      · rintro (rfl | ⟨⟨_, a⟩, b⟩)
        · exact ⟨hf, s, hs, hlev⟩
        · exact ⟨a, b⟩
    have hc := u.count
    rw [this, Finset.card_insert_of_notMem] at hc
    · simp only [hc]; omega
    · rw [mem_curSet, hmem]; simp

/-- Above trail index `k`, every involved variable was resolved away while another one of the conflict level
was left. -/
def Passed (p : PropState) (conf : List Lit) (k : Nat) (xs : List Nat) : Prop :=
  ∀ (v : Nat) (s : Step), k ≤ v → p.trail.steps[v]? = some s → s.lit.index ∈ xs →
    ∃ (w : Nat) (y : Step), w < v ∧ p.trail.steps[w]? = some y ∧ y.level = p.trail.decisionLevel ∧
      y.lit.index ∈ xs ∧ ((∃ l ∈ conf, l.index = y.lit.index) ∨
        ∃ (i : Nat) (z : Step), v < i ∧ p.trail.steps[i]? = some z ∧ z.lit.index ∈ xs ∧ InReason p i y.lit.index)

/-- The step at trail index `u` is where the derivation stops, and the derived clause is `c`. -/
structure FirstUip (p : PropState) (conf : List Lit) (xs : List Nat) (c : List Lit) (u : Nat) (s : Step) :
    Prop where
  step : p.trail.steps[u]? = some s
  level : s.level = p.trail.decisionLevel
  last : c.getLast? = some s.lit.neg
  mem : s.lit.index ∈ xs
  involved : Involved p conf (u + 1) xs
  sole : ∀ (w : Nat) (y : Step), p.trail.steps[w]? = some y → y.level = p.trail.decisionLevel →
    y.lit.index ∈ xs → u ≤ w
  passed : Passed p conf (u + 1) xs
  clause : ∀ l, l ∈ c ↔ l = s.lit.neg ∨ ∃ y ∈ p.trail.steps, y.lit = l.neg ∧
    y.level < p.trail.decisionLevel ∧ y.lit.index ∈ xs

/-- What the derivation does to the activities and the headers. -/
structure Derived (env : Env) (n : Nat) (S : List LC) (p : PropState) (cc : ConflictClause)
    (conf : List Lit) (a : Act) (xs : List Nat) (c : List Lit) (a' : Act) (p' : PropState) : Prop where
  act : a' = xs.foldl (Act.bumped env) a
  nodup : xs.Nodup
  lt : ∀ x ∈ xs, x < a.vals.length
  clause : ∀ l ∈ c, l.index ∈ xs
  involved : ∃ (u : Nat) (s : Step), p.trail.steps[u]? = some s ∧ c.getLast? = some s.lit.neg ∧
    Involved p conf (u + 1) xs ∧ ∃ B, OnlyHeaders n S p (bumpS p.trail.steps S B) p' ∧
      UsedRefs p cc (u + 1) xs B
  first : ∃ (u : Nat) (s : Step), FirstUip p conf xs c u s

theorem uipLoop_bumps {p0 : PropState} {S0 : List LC} {cc : ConflictClause} {conf : List Lit} {a : Act}
    (h0 : PInv n S0 p0) (hcc : ConflictOK S0 p0 cc)
    (k : Nat) : ∀ {S : List LC} {p p' : PropState} {an an' : Analysis} {cb cb' : Callbacks}
    {xs B : List Nat}, OnlyHeaders n S0 p0 S p → S = bumpS p0.trail.steps S0 B →
    UsedRefs p0 cc k xs B → k ≤ p0.trail.steps.length →
    Bumps env p0.trail k a xs an cb → Involved p0 conf k xs → CountInv p0.trail k [] an → CbInv env n cb →
    Passed p0 conf k xs → Analysis.uipLoop env k an p cb = .ok (an', p', cb') →
    (∃ xs, Derived env n S0 p0 cc conf a xs an'.derivedClause cb'.vsids.act p') ∨
      ∀ l ∈ an'.derivedClause, ∀ s ∈ p0.trail.steps, s.lit.index = l.index →
        s.level ≠ p0.trail.decisionLevel := by
  induction k with
  | zero =>
    intro S p p' an an' cb cb' xs B ho hS hB hk hb hi hcnt hcb hpass e
    cases e
    exact .inr hb.low
  | succ k ih =>
    intro S p p' an an' cb cb' xs B ho hS hB hk hb hi hcnt hcb hpass e
    have hp : p.trail = p0.trail := by obtain ⟨a, rfl⟩ := ho.eq; rfl
    have hs := List.getElem?_eq_getElem (show k < p0.trail.steps.length by omega)
    generalize p0.trail.steps[k] = s at hs
    unfold Analysis.uipLoop at e
    obtain ⟨flag, e1, e⟩ := bind_eq_ok.1 e
    obtain ⟨flags, e2, e⟩ := bind_eq_ok.1 e
    have hf := idx_eq_ok.1 e1
    obtain ⟨hkl, rfl⟩ := upd_eq_ok.1 e2
    have hmem : ∀ j, (an.currentClauseLits.set k false)[j]? = some true ↔
        j ≠ k ∧ an.currentClauseLits[j]? = some true := fun j => getElem?_set_false
    have hb1 : ∀ an2 : Analysis, an2.currentClauseLits = an.currentClauseLits.set k false →
        an2.derivedClause = an.derivedClause → AllFalse an2.glueLevelFlags →
        an2.glueLevelFlags.length = an.glueLevelFlags.length → Bumps env p0.trail k a xs an2 cb := by
      intro an2 hc hd hg hl
      refine ⟨hb.act, hb.nodup, hb.lt, ?_, ?_, by rw [hd]; exact hb.der, by rw [hd]; exact hb.low, hg,
        by rw [hl]; exact hb.glen⟩
      · intro x hx
        obtain ⟨i, y, a1, a2, a3, a4, a5⟩ := hb.flag x hx
        refine ⟨i, y, a1, a2, a3, a4, fun hi => ?_⟩
        rw [hc]
        exact (hmem i).2 ⟨by omega, a5 (by omega)⟩
      · intro i y hy hyi
        rw [hc] at hy
        exact hb.mem i y ((hmem i).1 hy).2 hyi
    cases flag with
    | false =>
      simp only [Bool.false_eq_true, if_false] at e
      have hnot : ∀ y, p0.trail.steps[k]? = some y → y.lit.index ∉ xs := by
        intro y hy hyx
        obtain ⟨j, z, a1, a2, a3, a4, a5⟩ := hb.flag _ hyx
        have hji := h0.trail.lifted_unique (hb.lifted hyx) a2 a3 hy rfl
        subst hji
        have := a5 (by omega)
        rw [hf] at this
        cases this
      refine ih ho hS ?_ (by omega)
        (hb1 { an with currentClauseLits := an.currentClauseLits.set k false } rfl rfl hb.glue rfl) ⟨hi.lifted, ?_, hi.start, ?_⟩
        (hcnt.popFalse hf) hcb ?_ e
      · intro r
        rw [hB r]
        refine or_congr_right ⟨fun ⟨i, y, h1, h2⟩ => ⟨i, y, by omega, h2⟩, fun ⟨i, y, h1, h2, h3, h4⟩ => ?_⟩
        refine ⟨i, y, ?_, h2, h3, h4⟩
        rcases Nat.lt_or_ge k i with h5 | h5
        · omega
        · obtain rfl : i = k := by omega
          exact absurd h3 (hnot y h2)
      · intro x hx
        rcases hi.src x hx with h | ⟨i, y, h1, h2⟩
        · exact .inl h
        · exact .inr ⟨i, y, by omega, h2⟩
      · intro i y x hki hy hyx
        by_cases hik : i = k
        · subst hik
          exact absurd hyx (hnot y hy)
        · exact hi.closed i y x (by omega) hy hyx
      · intro v y hkv hy hyx
        by_cases hvk : v = k
        · subst hvk
          exact absurd hyx (hnot y hy)
        · exact hpass v y (by omega) hy hyx
    | true =>
      simp only [if_true] at e
      obtain ⟨s', e3, e⟩ := bind_eq_ok.1 e
      have hs' := idx_eq_ok.1 e3
      rw [hp, hs] at hs'
      obtain rfl := Option.some.inj hs'
      split at e
      · simp [throw_eq] at e
      next hc0 =>
      have hlevk := hcnt.level h0.trail hs hc0
      have hkcur : k ∈ curSet p0.trail an.currentClauseLits := mem_curSet.2 ⟨hf, s, hs, hlevk⟩
      split at e
      · next hc1 =>
        obtain ⟨flags, _, e⟩ := bind_eq_ok.1 e
        cases e
        have hx : s.lit.index ∈ xs := hb.mem k s hf hs
        have hone : ∀ j, j ∈ curSet p0.trail an.currentClauseLits → j = k := by
          have : (curSet p0.trail an.currentClauseLits).card ≤ 1 := by
            rw [← hcnt.count]; omega
          exact fun j hj => Finset.card_le_one.1 this j hj k hkcur
        refine .inl ⟨xs, hb.act, hb.nodup, hb.lt, ?_, ⟨k, s, hs, by simp, hi, B, hS ▸ ho, hB⟩,
          k, s, hs, hlevk, by simp, hx, hi, ?_, hpass, ?_⟩
        · intro l hl
          rcases List.mem_append.1 hl with hl | hl
          · exact hb.der l hl
          · rw [List.mem_singleton.1 hl, Lit.index_neg]; exact hx
        · intro w y hw hyl hyx
          rcases Nat.lt_or_ge w k with hwk | hwk
          · obtain ⟨j, z, a1, a2, a3, a4, a5⟩ := hb.flag _ hyx
            have hji := h0.trail.lifted_unique (hb.lifted hyx) a2 a3 hw rfl
            subst hji
            exact (hone _ (mem_curSet.2 ⟨a5 (by omega), y, hw, hyl⟩)).symm.le
          · exact hwk
        · intro l
          simp only [List.mem_append, List.mem_singleton]
          rw [or_comm]
          refine or_congr_right ⟨fun hl => ?_, ?_⟩
          · obtain ⟨j, y, a1, a2, a3, a4, a5⟩ := hcnt.der l hl
            have := h0.trail.level_le j y a1
            exact ⟨y, List.mem_iff_getElem?.2 ⟨j, a1⟩, a2, by omega, hb.mem j y a5 a1⟩
          · rintro ⟨y, hy, e1, e2, e3⟩
            obtain ⟨w, hw⟩ := List.mem_iff_getElem?.1 hy
            obtain ⟨j, z, a1, a2, a3, a4, a5⟩ := hb.flag _ e3
            have hji := h0.trail.lifted_unique (hb.lifted e3) a2 a3 hw rfl
            subst hji
            have hjk : j < k := by
              rcases Nat.lt_or_ge j k with h | h
              · exact h
              · have := h0.trail.level_mono hs hw h
                omega
            have := hcnt.der' j y (a5 (by omega)) hw (by omega)
            rwa [e1, Lit.neg_neg] at this
      · next hc1 =>
        obtain ⟨⟨an1, p1⟩, e4, e⟩ := bind_eq_ok.1 e
        obtain ⟨rs, e5, e⟩ := bind_eq_ok.1 e
        obtain ⟨⟨an2, cb2⟩, e6, e⟩ := bind_eq_ok.1 e
        obtain ⟨tmp, p2, e7, f1, l1, S1, o1, hS1⟩ := bumpReason_spec
          (an := { an with
            currentClauseLits := an.currentClauseLits.set k false
            currentLevelLitCount := an.currentLevelLitCount - 1 }) ho.inv hb.glue
          (by rw [hp]; exact hb.glen) (show p.trail.steps[k]? = some s by rw [hp]; exact hs)
        rw [e4] at e7
        simp only [Except.ok.injEq, Prod.mk.injEq] at e7
        obtain ⟨rfl, rfl⟩ := e7
        have ho1 := ho.trans o1
        have hp1 : p1.trail = p0.trail := by obtain ⟨a, rfl⟩ := ho1.eq; rfl
        obtain ⟨rs', e8, hbf, _⟩ := ho1.inv.reason (i := k) (s := s) (by rw [hp1]; exact hs)
        rw [e5] at e8
        obtain rfl := Except.ok.inj e8
        rw [hp1] at e6 hbf
        obtain ⟨ys, hb2, had⟩ := addLiterals_bumps h0.trail rs hbf (hb1 { an with
            currentClauseLits := an.currentClauseLits.set k false
            currentLevelLitCount := an.currentLevelLitCount - 1
            glueLevelFlags := tmp } rfl rfl f1 l1) e6
        have hx : s.lit.index ∈ xs := hb.mem k s hf hs
        have hrs : ∀ x, InReason p0 k x ↔ ∃ o ∈ rs, o.index = x := by
          intro x
          rw [ho1.inReason h0]
          unfold InReason
          rw [hp1, hs]
          constructor
          · rintro ⟨s2, rs2, a1, a2, a3⟩
            cases a1
            rw [e5] at a2
            cases a2
            exact a3
          · intro h; exact ⟨s, rs, rfl, e5, h⟩
        have hlev : s.level ≠ 0 := by
          obtain ⟨j, z, a1, a2, a3, a4, a5⟩ := hb.flag _ hx
          have hji := h0.trail.lifted_unique (hb.lifted hx) a2 a3 hs rfl
          subst hji
          rw [hs] at a2
          cases a2
          exact a4
        have hys : ∀ (i : Nat) (y : Step), k ≤ i → p0.trail.steps[i]? = some y → y.lit.index ∈ ys →
            y.lit.index ∈ xs := by
          intro i y hki hy hyx
          rcases had.src _ hyx with hxx | ⟨o, ho, e9⟩
          · exact hxx
          · obtain ⟨j, z, a1, a2, a3⟩ := hbf o ho
            have := h0.trail.lifted_unique (hb2.lifted hyx) hy rfl a2
              (by rw [a3, Lit.index_neg, e9])
            omega
        have hcnt1 := hcnt.popTrue hs hf hlevk f1 l1 rs
        obtain ⟨an3, cb3, e10, hcnt2, hcb2, _⟩ := addLiterals_spec (env := env) h0.trail
          (fun _ hs _ A => implied_trail hs A) rs hcnt1 hcb hbf
        rw [e6] at e10
        simp only [Except.ok.injEq, Prod.mk.injEq] at e10
        obtain ⟨rfl, rfl⟩ := e10
        refine ih ho1 (B := s.reason.refs ++ B) ?_ ?_ (by omega) hb2
          ⟨fun x hx => hb2.lifted hx, ?_, ?_, ?_⟩ hcnt2 hcb2.inv ?_ e
        · rw [hS1, hp, hS, bumpS_append (hB.fresh h0 hcc hs hlev)]
        · intro r
          rw [List.mem_append, hB r]
          constructor
          · rintro (h | h | ⟨i, y, h1, h2, h3, h4⟩)
            · exact .inr ⟨k, s, Nat.le_refl _, hs, had.sub _ hx, h⟩
            · exact .inl h
            · exact .inr ⟨i, y, by omega, h2, had.sub _ h3, h4⟩
          · rintro (h | ⟨i, y, h1, h2, h3, h4⟩)
            · exact .inr (.inl h)
            · by_cases hik : i = k
              · subst hik
                rw [hs] at h2
                cases h2
                exact .inl h4
              · exact .inr (.inr ⟨i, y, by omega, h2, hys i y h1 h2 h3, h4⟩)
        · intro x hxy
          rcases had.src x hxy with hxx | ho
          · rcases hi.src x hxx with h | ⟨i, y, h1, h2, h3, h4⟩
            · exact .inl h
            · exact .inr ⟨i, y, by omega, h2, had.sub _ h3, h4⟩
          · exact .inr ⟨k, s, Nat.le_refl _, hs, had.sub _ hx, (hrs x).2 ho⟩
        · intro l hl hlift
          exact had.sub _ (hi.start l hl hlift)
        · intro i y x hki hy hyx hin hlift
          by_cases hik : i = k
          · subst hik
            obtain ⟨o, ho, rfl⟩ := (hrs x).1 hin
            exact had.all o ho hlift
          · rcases had.src _ hyx with hxx | ⟨o, ho, e9⟩
            · exact had.sub _ (hi.closed i y x (by omega) hy hxx hin hlift)
            · obtain ⟨j, z, a1, a2, a3⟩ := hbf o ho
              have := h0.trail.lifted_unique (hb2.lifted hyx) hy rfl a2
                (by rw [a3, Lit.index_neg, e9])
              omega
        · intro v y hkv hy hyx
          have hyx := hys v y hkv hy hyx
          by_cases hvk : v = k
          · subst hvk
            have h2 : 1 < (curSet p0.trail an.currentClauseLits).card := by
              rw [← hcnt.count]; omega
            obtain ⟨w, hw, hne⟩ := Finset.exists_mem_ne h2 v
            obtain ⟨b1, x, b2, b3⟩ := mem_curSet.1 hw
            have hxx := hb.mem w x b1 b2
            have := (hcnt.low w b1).1
            refine ⟨w, x, by omega, b2, b3, had.sub _ hxx, ?_⟩
            rcases hi.src _ hxx with h | ⟨i, z, c1, c2, c3, c4⟩
            · exact .inl h
            · exact .inr ⟨i, z, by omega, c2, had.sub _ c3, c4⟩
          · obtain ⟨w, x, b1, b2, b3, b4, b5⟩ := hpass v y (by omega) hy hyx
            refine ⟨w, x, b1, b2, b3, had.sub _ b4, b5.imp_right ?_⟩
            rintro ⟨i, z, c1, c2, c3, c4⟩
            exact ⟨i, z, c1, c2, had.sub _ c3, c4⟩

theorem derive1uip_bumps {F L : DB} {S : List LC} {p p' : PropState}
    {an an' : Analysis} {cb cb' : Callbacks} {c : ConflictClause} (h : PInv n S p)
    (d : DBInv F L S p.binary p.trail.steps p.unsat) (ha : AnIdle an) (hcb : CbInv env n cb)
    (hc : ConflictOK S p c) (hl : p.trail.decisionLevel ≠ 0)
    (e : Analysis.derive1uip env an p c cb = .ok (an', p', cb')) :
    ∃ conf xs, c.lits p = .ok conf ∧
      Derived env n S p c conf cb.vsids.act xs an'.derivedClause cb'.vsids.act p' := by
  obtain ⟨_, _, _, S3, e0, _, _, _, _, hu⟩ := derive1uip_spec h d ha hcb hc hl
  rw [e] at e0
  simp only [Except.ok.injEq, Prod.mk.injEq] at e0
  obtain ⟨rfl, rfl, rfl⟩ := e0
  unfold Analysis.derive1uip at e
  simp only at e
  have hg1 := ha.glue.resize (max an.glueLevelFlags.length (p.trail.decisionLevel + 1))
  have hf1 := ha.flags.resize (max an.currentClauseLits.length p.trail.steps.length)
  obtain ⟨tmp, p1, e1, f1, l1, S1, o1, hS1⟩ := bumpConflict_spec
    (an := { an with derivedClause := [] }.updateTrailLen p.trail) h hg1
    (by simp only [Analysis.updateTrailLen, Heap.resizeList_length]; omega) hc
  rw [e1, bind_ok] at e
  simp only at e
  obtain ⟨conf, ec, hbc, _⟩ := h.conflict d hc
  obtain ⟨ls, e2, e⟩ := bind_eq_ok.1 e
  obtain ⟨⟨an2, cb2⟩, e3, e⟩ := bind_eq_ok.1 e
  obtain ⟨⟨an3, p3, cb3⟩, e4, e⟩ := bind_eq_ok.1 e
  obtain ⟨_, _, e⟩ := bind_eq_ok.1 e
  cases e
  have hlc : ∀ l, l ∈ ls ↔ l ∈ conf := by
    cases c with
    | binary a b => cases e2; cases ec; exact fun _ => Iff.rfl
    | long c =>
      obtain ⟨x, hx, rfl, _⟩ := hc
      obtain ⟨y, hy, hsim⟩ := o1.sim.symm_mem hx
      simp only [ConflictClause.lits] at e2 ec
      rw [h.rep.lits_ok hx] at ec
      rw [← hsim.ref, o1.inv.rep.lits_ok hy] at e2
      cases ec
      cases e2
      exact fun l => hsim.lits.mem_iff
  have hp1 : p1.trail = p.trail := by obtain ⟨a, rfl⟩ := o1.eq; rfl
  rw [hp1] at e3 e4
  have hbf : ∀ l ∈ ls, Before p.trail.steps p.trail.steps.length l.neg := by
    intro x hx
    obtain ⟨y, hy, e⟩ := hbc x ((hlc x).1 hx)
    obtain ⟨i, hi⟩ := List.mem_iff_getElem?.1 hy
    exact ⟨i, y, (List.getElem?_eq_some_iff.1 hi).1, hi, e⟩
  have hb0 : Bumps env p.trail p.trail.steps.length cb.vsids.act []
      { ({ an with derivedClause := [] } : Analysis).updateTrailLen p.trail with
        glueLevelFlags := tmp } cb := by
    refine ⟨rfl, List.nodup_nil, by simp, by simp, ?_, by simp [Analysis.updateTrailLen],
      by simp [Analysis.updateTrailLen], f1, ?_⟩
    · intro i x hi; exact absurd hi (hf1 i)
    · simp only [l1, Analysis.updateTrailLen, Heap.resizeList_length]; omega
  obtain ⟨xs, hb, had⟩ := addLiterals_bumps h.trail ls hbf hb0 e3
  have hinv : Involved p conf p.trail.steps.length xs := by
    refine ⟨fun x hx => hb.lifted hx, ?_, ?_, ?_⟩
    · intro x hx
      rcases had.src x hx with hx | ⟨l, hl, e⟩
      · simp at hx
      · exact .inl ⟨l, (hlc l).1 hl, e⟩
    · intro l hl hlift
      exact had.all l ((hlc l).2 hl) hlift
    · intro i y x hi hy
      have := (List.getElem?_eq_some_iff.1 hy).1
      omega
  have hB : UsedRefs p c p.trail.steps.length xs c.refs := by
    intro r
    refine ⟨.inl, ?_⟩
    rintro (h | ⟨i, y, h1, h2, _⟩)
    · exact h
    · have := (List.getElem?_eq_some_iff.1 h2).1
      omega
  have hcnt0 : CountInv p.trail p.trail.steps.length ls
      { ({ an with derivedClause := [] } : Analysis).updateTrailLen p.trail with
        glueLevelFlags := tmp } := by
    refine ⟨?_, hb0.glen, f1, fun i hi => absurd hi (hf1 i), by simp [Analysis.updateTrailLen],
      by simp [Analysis.updateTrailLen], fun i _ hi => absurd hi (hf1 i), ?_, fun A _ _ => upConflict_zero _ A⟩
    · simp only [Analysis.updateTrailLen, Heap.resizeList_length]; omega
    · rw [show curSet p.trail _ = ∅ from ?_]
      · exact ha.count
      · rw [Finset.eq_empty_iff_forall_notMem]
        intro i hi
        exact hf1 i (mem_curSet.1 hi).1
  obtain ⟨an4, cb4, e5, hcnt, hcb2, _⟩ := addLiterals_spec (env := env) h.trail
    (fun _ hs _ A => implied_trail hs A) ls hcnt0 hcb hbf
  rw [e3] at e5
  simp only [Except.ok.injEq, Prod.mk.injEq] at e5
  obtain ⟨rfl, rfl⟩ := e5
  have hpass : Passed p conf p.trail.steps.length xs := by
    intro v y hv hy
    have := (List.getElem?_eq_some_iff.1 hy).1
    omega
  rcases uipLoop_bumps h hc p.trail.steps.length o1 hS1 hB (Nat.le_refl _) hb hinv hcnt hcb2.inv hpass e4 with ⟨ys, hd⟩ | hlow
  · exact ⟨conf, ys, ec, hd⟩
  · obtain ⟨R, k, u, ec, hk, hu1, _⟩ := hu.split
    exact absurd hu1 (hlow u.lit.neg (by rw [ec]; simp) u (List.mem_iff_getElem?.2 ⟨k, hk⟩)
      (Lit.index_neg _).symm)

end


theorem learnAndAssign_derived {ctx ctx' : Ctx} {an an' : Analysis} {p p' : PropState}
    (e : Analysis.learnAndAssign ctx an p = .ok (ctx', an', p')) :
    an'.derivedClause = an.derivedClause := by
  unfold Analysis.learnAndAssign at e
  obtain ⟨_, _, e⟩ := bind_eq_ok.1 e
  obtain ⟨⟨an1, hd⟩, e1, e⟩ := bind_eq_ok.1 e
  obtain ⟨⟨c1, p1, ad⟩, e2, e⟩ := bind_eq_ok.1 e
  have h1 : an1.derivedClause = an.derivedClause := by
    unfold Analysis.learnedHeader at e1
    split at e1
    · obtain ⟨_, _, e1⟩ := bind_eq_ok.1 e1
      cases e1; rfl
    · cases e1; rfl
  rw [← h1]
  cases ad with
  | empty => cases e; rfl
  | unit => cases e; rfl
  | binary a b =>
    obtain ⟨_, _, e⟩ := bind_eq_ok.1 e
    obtain ⟨_, _, e⟩ := bind_eq_ok.1 e
    cases e; rfl
  | long c =>
    obtain ⟨_, _, e⟩ := bind_eq_ok.1 e
    obtain ⟨_, _, e⟩ := bind_eq_ok.1 e
    cases e; rfl

/-- What a conflict does to the activities: the involved variables are bumped once each, then the increment
is enlarged. -/
theorem analyzeConflict_act {env : Env} {n : Nat} {F L : DB} {S : List LC} {ctx ctx' : Ctx}
    {p p' : PropState} {an an' : Analysis} {cb cb' : Callbacks} {c : ConflictClause} (h : PInv n S p)
    (d : DBInv F L S p.binary p.trail.steps p.unsat) (ha : AnIdle an) (hm : MinIdle an.minimize)
    (hcb : CbInv env n cb) (hc : ConflictOK S p c) (hl : p.trail.decisionLevel ≠ 0)
    (e : Analysis.analyzeConflict env ctx an p c cb = .ok (ctx', an', p', cb')) :
    ∃ conf xs, c.lits p = .ok conf ∧ xs.Nodup ∧ (∀ x ∈ xs, x < cb.vsids.act.vals.length) ∧
      cb'.vsids.act = cb.vsids.act.conflict env xs ∧ (∀ l ∈ an'.derivedClause, l.index ∈ xs) ∧
      ∃ (u : Nat) (s : Step), p.trail.steps[u]? = some s ∧ an'.derivedClause.head? = some s.lit.neg ∧
        Involved p conf (u + 1) xs ∧ (∃ B S', UsedRefs p c (u + 1) xs B ∧ PInv n S' p' ∧
          LearnedS p.trail.steps an'.derivedClause (bumpS p.trail.steps S B) S') ∧
        ∃ c1, FirstUip p conf xs c1 u s := by
  obtain ⟨S', C, lvl, target, A⟩ := (analyzeConflict_spec h d ha hm hcb hc hl).ok_elim e
  unfold Analysis.analyzeConflict at e
  obtain ⟨_, _, e⟩ := bind_eq_ok.1 e
  obtain ⟨⟨an1, p1, cb1⟩, e1, e⟩ := bind_eq_ok.1 e
  obtain ⟨⟨an2, level⟩, e2, e⟩ := bind_eq_ok.1 e
  obtain ⟨⟨p2, cb2⟩, e3, e⟩ := bind_eq_ok.1 e
  obtain ⟨⟨ctx3, an3, p3⟩, e4, e⟩ := bind_eq_ok.1 e
  cases e
  obtain ⟨conf, xs, ec, hd⟩ := derive1uip_bumps h d ha hcb hc hl e1
  have hact : cb'.vsids.act = cb.vsids.act.conflict env xs := by
    rw [backtrackToLevel_act e3]
    simp only
    rw [doDecay_act, hd.act]
    rfl
  obtain ⟨_, _, _, S1, e0, o1, k1, c1, m1, hu⟩ := derive1uip_spec h d ha hcb hc hl
  rw [e1] at e0
  simp only [Except.ok.injEq, Prod.mk.injEq] at e0
  obtain ⟨rfl, rfl, rfl⟩ := e0
  have hp1 : p1.trail = p.trail ∧ p1.binary = p.binary ∧ p1.unsat = p.unsat := by
    obtain ⟨a, rfl⟩ := o1.eq; exact ⟨rfl, rfl, rfl⟩
  have hder := learnAndAssign_derived e4
  obtain ⟨m', c', lvl', e5, hm', has, hsub, _⟩ := minimizeDerived_spec (F := F) (L := L) o1.inv
    (by rw [hp1.1, hp1.2.1, hp1.2.2]; exact d.sim o1.sim) (m1 ▸ hm) (hp1.1 ▸ hu) (hp1.1 ▸ hl)
  rw [e2] at e5
  simp only [Except.ok.injEq, Prod.mk.injEq] at e5
  obtain ⟨rfl, rfl⟩ := e5
  simp only at hder
  rw [hder]
  obtain ⟨u, s, hu1, hu2, hinv, B, oB, hB⟩ := hd.involved
  obtain ⟨S', hS', hL⟩ : ∃ S', PInv n S' p' ∧
      LearnedS p.trail.steps c' (bumpS p.trail.steps S B) S' := by
    obtain ⟨a1, rfl⟩ := oB.eq
    have hw := backtrackLearn_spec (ctx := ctx) (m' := m') (C := c') (lvl := level) h d oB
      (k1.trans (doDecay_spec k1.inv)) c1 hm' has
    have hrun : (do
        let (p, cb) ← backtrackToLevel { p with long := a1 } level
          { cb1 with vsids := cb1.vsids.doDecay env }
        let (ctx, an, p) ← Analysis.learnAndAssign ctx { an1 with minimize := m', derivedClause := c' } p
        pure (ctx, an, p, cb) : M (Ctx × Analysis × PropState × Callbacks)) =
        .ok (ctx', an', p', cb') := by
      rw [e3, bind_ok]
      simp only
      rw [e4]
      rfl
    obtain ⟨S', _, hA, hL⟩ := hw.ok_elim hrun
    exact ⟨S', hA.inv, hL⟩
  have hfirst : FirstUip p conf xs an1.derivedClause u s := by
    obtain ⟨u', s', hf⟩ := hd.first
    have hlit : s.lit = s'.lit := by
      have h1 := hf.last
      rw [hu2] at h1
      simpa using congrArg Lit.neg (Option.some.inj h1)
    have := h.trail.lifted_unique (hf.involved.lifted _ hf.mem) hf.step rfl hu1 (by rw [hlit])
    subst this
    cases hu1.symm.trans hf.step
    exact hf
  refine ⟨conf, xs, ec, hd.nodup, hd.lt, hact, fun l hl => hd.clause l (hsub l hl), u, s, hu1, ?_, hinv,
    ⟨B, S', hB, hS', hL⟩, _, hfirst⟩
  rw [hp1.1] at has
  obtain ⟨R, k, u', ec', hk, hu', _, hR⟩ := hu.split
  obtain ⟨k2, u2, rest, ec2, hk2, hu2', _⟩ := has.head
  rw [ec2]
  have h3 : u2.lit.neg ∈ an1.derivedClause := hsub _ (by rw [ec2]; simp)
  rw [ec'] at h3 hu2
  have h4 : u'.lit.neg = s.lit.neg := by simpa using hu2
  rcases List.mem_append.1 h3 with h3 | h3
  · obtain ⟨i, y, b1, b2, b3, b4⟩ := hR _ h3
    have : i = k2 := h.trail.lifted_unique (x := y.lit.index)
      ⟨y, List.mem_iff_getElem?.2 ⟨i, b1⟩, rfl, b3⟩ b1 rfl hk2 (by rw [b2]; simp)
    subst this
    rw [b1] at hk2
    cases hk2
    omega
  · rw [← h4, List.mem_singleton.1 h3]; rfl

/-! ## Runs -/

section
variable {env : Env} {F : List (List Lit)} {s s' : Solver}

/-- The activities in a state of the solver. -/
def Solver.act (s : Solver) : Act := s.search.cb.vsids.act

theorem maybeRestart_act (e : s.maybeRestart = .ok s') : s'.act = s.act := by
  unfold Solver.maybeRestart at e
  split at e
  · simp only at e
    obtain ⟨⟨ctx, search⟩, e1, e⟩ := bind_eq_ok.1 e
    cases e
    unfold restart at e1
    simp only at e1
    split at e1
    · obtain ⟨⟨p, cb⟩, e2, e1⟩ := bind_eq_ok.1 e1
      cases e1
      exact backtrackToLevel_act e2
    · cases e1; rfl
  · cases e; rfl

theorem maybeReduce_act (e : s.maybeReduce env = .ok s') : s'.act = s.act := by
  unfold Solver.maybeReduce at e
  split at e
  · simp only at e
    obtain ⟨⟨ctx, search⟩, e1, e⟩ := bind_eq_ok.1 e
    cases e
    unfold reduce at e1
    simp only at e1
    obtain ⟨_, _, e1⟩ := bind_eq_ok.1 e1
    obtain ⟨_, _, e1⟩ := bind_eq_ok.1 e1
    obtain ⟨_, _, e1⟩ := bind_eq_ok.1 e1
    obtain ⟨_, _, e1⟩ := bind_eq_ok.1 e1
    cases e1; rfl
  · cases e; rfl

theorem addClause_act (h : Solver.Input env F s) {c : List Lit} (hc : ∀ l ∈ c, l.Valid)
    (e : s.addClause c = .ok s') :
    s'.act = ⟨s.act.vals ++ List.replicate (max (formulaVars F) (Solver.varCount c) - formulaVars F) 0,
      s.act.inc⟩ := by
  obtain ⟨S, hi⟩ := h.inv
  unfold Solver.addClause at e
  obtain ⟨s1, e2, e⟩ := bind_eq_ok.1 e
  obtain ⟨⟨ctx, p, r⟩, e3, e⟩ := bind_eq_ok.1 e
  cases e
  show s1.act = _
  unfold Solver.ensureVars at e2
  rw [hi.stats.vars] at e2
  split at e2
  · next hlt =>
    unfold Solver.resize at e2
    obtain ⟨a, e4, e2⟩ := bind_eq_ok.1 e2
    cases e2
    have hw := hi.cb.wf
    have hlen := hi.cb.len
    have hn : Solver.varCount c ≤ 2 ^ 32 := by
      have := varCount_le hc
      rw [MAX_INDEX_eq] at this
      omega
    obtain ⟨h', e5, _, hv, _⟩ := Heap.resizeEnqueued_ok hw 0 hn
    simp only at e4
    rw [e5] at e4
    cases e4
    ext1
    · simp only [Solver.act, Vsids.act, hv, Heap.resizeList]
      rw [List.take_of_length_le (by omega), hlen, Nat.max_eq_right (by omega)]
    · rfl
  · cases e2
    rw [Nat.max_eq_left (by omega)]
    simp [Solver.act]

theorem Solver.Input.act (h : Solver.Input env F s) :
    s.act = ⟨List.replicate (formulaVars F) 0, env.one⟩ := by
  induction h with
  | new => rfl
  | proof _ ih => exact ih
  | @add F s s' c h hc e ih =>
    have e1 : formulaVars (F ++ [c]) = max (formulaVars F) (Solver.varCount c) := by
      simp [formulaVars]
    rw [addClause_act h hc e, ih, e1]
    ext1
    · simp only [List.replicate_append_replicate]
      congr 1
      omega
    · rfl

/-- What a step of the search does to the activities. -/
theorem StepCase.act {ctx : Ctx} {search : Search} {r : Option Bool}
    (h : StepCase env F s ctx search r) : search.cb.vsids.act = s.act ∨
      ∃ xs, xs.Nodup ∧ (∀ x ∈ xs, x < s.act.vals.length) ∧
        search.cb.vsids.act = s.act.conflict env xs := by
  cases h with
  | already => exact .inl rfl
  | fail => exact .inl rfl
  | learn hp h0 e =>
    obtain ⟨L, S, S2, hi, q⟩ := hp.phase
    obtain ⟨conf, xs, _, h1, h2, h3, _⟩ := analyzeConflict_act q.inv q.inv.storedInv hi.an hi.min hi.cb
      (q.conflict _ rfl) h0 e
    exact .inr ⟨xs, h1, h2, h3⟩
  | decide hp e => exact .inl (popDecisionVar_act e)
  | sat hp e => exact .inl (popDecisionVar_act e)

/-- The activities of a reachable state come from bumps and decays. -/
theorem Solver.Reachable.act (h : Solver.Reachable env F s) :
    Act.Run env (formulaVars F) s.act := by
  induction h with
  | input h => rw [h.act]; exact .start
  | restart _ e ih => rw [maybeRestart_act e]; exact ih
  | reduce _ e ih => rw [maybeReduce_act e]; exact ih
  | @step s ctx search r h e ih =>
    rcases (searchStep_cases h e).act with h1 | ⟨xs, h1, h2, h3⟩
    · show Act.Run env _ search.cb.vsids.act
      rw [h1]
      exact ih
    · show Act.Run env _ search.cb.vsids.act
      rw [h3]
      exact ih.conflict xs h1 h2

end

end Starlit
