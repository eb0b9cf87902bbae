import Mathlib.Algebra.BigOperators.Group.Finset.Basic
import Mathlib.Algebra.Order.BigOperators.Group.Finset
import Verif.Props.Analysis

/-!
# C66, C67: clause minimisation takes linear time, and its recursion limit does not matter

The functions of `minimize.rs` again, with the limit of the recursion depth as a parameter and a counter of loop
iterations and calls.
-/

namespace Starlit

namespace Minimize

/-- `lookahead` (`/repo/starlit/src/minimize.rs:169-181`, `262-277`) with the number of iterations. -/
def lookaheadT (m : Minimize) (t : Trail) : List Lit → Option Bool → M (Nat × Option Bool)
  | [], acc => pure (0, acc)
  | l :: ls, acc => do
    let i ← t.indexOf l.index
    match ← m.cached t i with
    | some false => pure (1, some false)
    | some true => do
      let (k, r) ← lookaheadT m t ls acc
      pure (k + 1, r)
    | none => do
      let (k, r) ← lookaheadT m t ls none
      pure (k + 1, r)

/-- `iterLoop` (`/repo/starlit/src/minimize.rs:246-297`) with the number of iterations of all its loops, including the
one of `return_false!`. -/
def iterLoopT (p : PropState) : Nat → Minimize → List (Nat × List Lit) → Nat → List Lit →
    M (Nat × Minimize × Bool)
  | 0, _, _, _, _ => throw .fuel
  | fuel + 1, m, stack, i, [] => do
    let m ← m.setCache i true
    match stack with
    | [] => pure (1, m, true)
    | (i', ls') :: stack' => do
      let (k, r) ← iterLoopT p fuel m stack' i' ls'
      pure (k + 1, r)
  | fuel + 1, m, stack, i, l :: ls => do
    let j ← p.trail.indexOf l.index
    match ← m.cached p.trail j with
    | some true => do
      let (k, r) ← iterLoopT p fuel m stack i ls
      pure (k + 1, r)
    | some false => do
      let m ← m.setCache i false
      let m ← m.failStack stack.reverse
      pure (stack.length + 1, m, false)
    | none => do
      let s ← idx p.trail.steps j
      let rs ← p.reasonLits s.reason
      let (k, r) ← m.lookaheadT p.trail rs (some true)
      match r with
      | some false => do
        let m ← m.setCache j false
        let m ← m.setCache i false
        let m ← m.failStack stack.reverse
        pure (k + stack.length + 1, m, false)
      | some true => do
        let m ← m.setCache j true
        let (k', r) ← iterLoopT p fuel m stack i ls
        pure (k + k' + 1, r)
      | none => do
        let (k', r) ← iterLoopT p fuel m ((i, ls) :: stack) j rs
        pure (k + k' + 1, r)

/-- `allRedundant` (`/repo/starlit/src/minimize.rs:192-199`) with the number of iterations. -/
def allRedundantT (t : Trail) (f : Minimize → Nat → M (Nat × Minimize × Bool)) :
    List Lit → Minimize → M (Nat × Minimize × Bool)
  | [], m => pure (0, m, true)
  | l :: ls, m => do
    let i ← t.indexOf l.index
    let (k, m, b) ← f m i
    if b then do
      let (k', r) ← allRedundantT t f ls m
      pure (k + k' + 1, r)
    else pure (k + 1, m, false)

/-- `literal_index_is_redundant_rec` (`/repo/starlit/src/minimize.rs:144-155`). -/
def redundantRecT (t : Trail) (f : Minimize → Nat → M (Nat × Minimize × Bool)) (m : Minimize) (i : Nat) :
    M (Nat × Minimize × Bool) := do
  match ← m.cached t i with
  | some b => pure (0, m, b)
  | none => f m i

/-- `literal_index_is_redundant_rec_uncached` (`/repo/starlit/src/minimize.rs:159-205`); each call counts one. -/
def redundantUncachedT (p : PropState) : Nat → Minimize → Nat → M (Nat × Minimize × Bool)
  | 0, m, i => do
    let s ← idx p.trail.steps i
    let rs ← p.reasonLits s.reason
    let (k, r) ← m.lookaheadT p.trail rs (some true)
    match r with
    | some false => do
      let m ← m.setCache i false
      pure (k + 1, m, false)
    | some true => do
      let m ← m.setCache i true
      pure (k + 1, m, true)
    | none => do
      let (k', r) ← iterLoopT p (iterFuel p i) m [] i rs
      pure (k + k' + 1, r)
  | d + 1, m, i => do
    let s ← idx p.trail.steps i
    let rs ← p.reasonLits s.reason
    let (k, r) ← m.lookaheadT p.trail rs (some true)
    match r with
    | some false => do
      let m ← m.setCache i false
      pure (k + 1, m, false)
    | some true => do
      let m ← m.setCache i true
      pure (k + 1, m, true)
    | none => do
      let (k', m, b) ← allRedundantT p.trail (redundantRecT p.trail (redundantUncachedT p d)) rs m
      let m ← m.setCache i b
      pure (k + k' + 1, m, b)

/-- The closure passed to `retain` (`/repo/starlit/src/minimize.rs:74-90`); each call counts one.  The literal `d` is the
largest depth of the recursion plus one, `21` in the code. -/
def retainLitT (p : PropState) (d : Nat) (m : Minimize) (l : Lit) : M (Nat × Minimize × Bool) := do
  let i ← p.trail.indexOf l.index
  let s ← idx p.trail.steps i
  let first ← idx m.firstOnLevel s.level
  if first > i then do
    let f ← upd m.firstOnLevel s.level i
    let m ← { m with firstOnLevel := f }.setCache i true
    pure (1, m, true)
  else do
    let (k, m, b) ← redundantUncachedT p d m i
    let m ← m.setCache i true
    pure (k + 1, m, !b)

/-- `clause.retain(..)` (`/repo/starlit/src/minimize.rs:74-90`). -/
def retainLoopT (p : PropState) (d : Nat) : List Lit → Minimize → M (Nat × Minimize × List Lit)
  | [], m => pure (0, m, [])
  | l :: ls, m => do
    let (k, m, b) ← retainLitT p d m l
    let (k', m, ls) ← retainLoopT p d ls m
    pure (k + k', m, if b then l :: ls else ls)

/-- `minimize` (`/repo/starlit/src/minimize.rs:50-110`) with the number of iterations of its loops, calls and cleanup;
the sorting and resizing by functions of the standard library count nothing. -/
def minimizeT (d : Nat) (m : Minimize) (clause : List Lit) (p : PropState) :
    M (Nat × Minimize × List Lit × Nat) := do
  let m ← m.prepare p.trail
  let keyed ← sortByIndex p.trail clause
  let sorted := keyed.map (·.2)
  match sorted.getLast? with
  | none => throw .panic
  | some propagated => do
    let (k, m, kept) ← retainLoopT p d sorted.dropLast m
    let clause := kept ++ [propagated]
    let cache ← cleanCache m.toClean m.cache
    let f ← cleanLevels p.trail clause m.firstOnLevel
    let k := k + m.toClean.length + clause.length
    let clause := clause.reverse
    let l ← idx clause 1
    let s ← p.trail.stepForVar l.index
    pure (k, { firstOnLevel := f, cache := cache, toClean := [] }, clause, s.level)

end Minimize

/-! ## The counters change nothing -/

section
variable {α β γ : Type}

theorem map_snd_bind (x : M α) (f : α → M (β × γ)) :
    Except.map Prod.snd (x >>= f) = x >>= fun a => Except.map Prod.snd (f a) := by
  cases x <;> rfl

theorem bind_map_snd (x : M (α × β)) (f : β → M γ) :
    (Except.map Prod.snd x >>= f) = x >>= fun a => f a.2 := by
  cases x <;> rfl

theorem map_snd_pure (a : α × β) : Except.map Prod.snd (pure a : M (α × β)) = pure a.2 := rfl

end

namespace Minimize

theorem lookaheadT_erase (m : Minimize) (t : Trail) (ls : List Lit) : ∀ acc : Option Bool,
    Except.map Prod.snd (m.lookaheadT t ls acc) = m.lookahead t ls acc := by
  induction ls with
  | nil => intro acc; rfl
  | cons l ls ih =>
    intro acc
    simp only [lookaheadT, lookahead, map_snd_bind]
    congr 1; funext i; congr 1; funext r
    match r with
    | some false => rfl
    | some true => simp only [map_snd_bind, map_snd_pure, ← ih]; cases lookaheadT m t ls acc <;> rfl
    | none => simp only [map_snd_bind, map_snd_pure, ← ih]; cases lookaheadT m t ls none <;> rfl

theorem iterLoopT_erase (p : PropState) (fuel : Nat) : ∀ (m : Minimize) (stack : List (Nat × List Lit)) (i : Nat)
    (ls : List Lit), Except.map Prod.snd (iterLoopT p fuel m stack i ls) = iterLoop p fuel m stack i ls := by
  induction fuel with
  | zero => intros; rfl
  | succ fuel ih =>
    intro m stack i ls
    match ls with
    | [] =>
      simp only [iterLoopT, iterLoop, map_snd_bind]
      congr 1; funext m
      match stack with
      | [] => rfl
      | (i', ls') :: stack' => simp only [map_snd_bind, map_snd_pure, ← ih]; cases iterLoopT p fuel m stack' i' ls' <;> rfl
    | l :: ls =>
      simp only [iterLoopT, iterLoop, map_snd_bind]
      congr 1; funext j; congr 1; funext r
      match r with
      | some true => simp only [map_snd_bind, map_snd_pure, ← ih]; cases iterLoopT p fuel m stack i ls <;> rfl
      | some false => simp only [map_snd_bind, map_snd_pure]
      | none =>
        simp only [map_snd_bind]
        congr 1; funext s; congr 1; funext rs
        rw [← lookaheadT_erase, bind_map_snd]
        congr 1; funext x
        obtain ⟨k, r⟩ := x
        match r with
        | some false => simp only [map_snd_bind, map_snd_pure]
        | some true =>
          simp only [map_snd_bind, map_snd_pure, ← ih]
          congr 1
        | none =>
          simp only [map_snd_bind, map_snd_pure, ← ih]
          cases iterLoopT p fuel m ((i, ls) :: stack) j rs <;> rfl

theorem allRedundantT_erase {t : Trail} {f : Minimize → Nat → M (Nat × Minimize × Bool)}
    {g : Minimize → Nat → M (Minimize × Bool)} (h : ∀ m i, Except.map Prod.snd (f m i) = g m i) (ls : List Lit) :
    ∀ m, Except.map Prod.snd (allRedundantT t f ls m) = allRedundant t g ls m := by
  induction ls with
  | nil => intro m; rfl
  | cons l ls ih =>
    intro m
    simp only [allRedundantT, allRedundant, map_snd_bind]
    congr 1; funext i
    rw [← h, bind_map_snd]
    congr 1; funext x
    obtain ⟨k, m, b⟩ := x
    cases b with
    | false => rfl
    | true =>
      simp only [if_true, map_snd_bind, map_snd_pure, ← ih]
      cases allRedundantT t f ls m <;> rfl

theorem redundantRecT_erase {t : Trail} {f : Minimize → Nat → M (Nat × Minimize × Bool)}
    {g : Minimize → Nat → M (Minimize × Bool)} (h : ∀ m i, Except.map Prod.snd (f m i) = g m i) (m : Minimize) (i : Nat) :
    Except.map Prod.snd (redundantRecT t f m i) = redundantRec t g m i := by
  simp only [redundantRecT, redundantRec, map_snd_bind]
  congr 1; funext r
  cases r with
  | none => exact h m i
  | some b => rfl

theorem redundantUncachedT_erase (p : PropState) (d : Nat) : ∀ (m : Minimize) (i : Nat),
    Except.map Prod.snd (redundantUncachedT p d m i) = redundantUncached p d m i := by
  induction d with
  | zero =>
    intro m i
    simp only [redundantUncachedT, redundantUncached, map_snd_bind]
    congr 1; funext s; congr 1; funext rs
    rw [← lookaheadT_erase, bind_map_snd]
    congr 1; funext x
    obtain ⟨k, r⟩ := x
    match r with
    | some false => simp only [map_snd_bind, map_snd_pure]
    | some true => simp only [map_snd_bind, map_snd_pure]
    | none =>
      simp only [map_snd_bind, map_snd_pure, ← iterLoopT_erase]
      cases iterLoopT p (iterFuel p i) m [] i rs <;> rfl
  | succ d ih =>
    intro m i
    simp only [redundantUncachedT, redundantUncached, map_snd_bind]
    congr 1; funext s; congr 1; funext rs
    rw [← lookaheadT_erase, bind_map_snd]
    congr 1; funext x
    obtain ⟨k, r⟩ := x
    match r with
    | some false => simp only [map_snd_bind, map_snd_pure]
    | some true => simp only [map_snd_bind, map_snd_pure]
    | none =>
      simp only [map_snd_bind, map_snd_pure]
      rw [← allRedundantT_erase (fun m i => redundantRecT_erase ih m i), bind_map_snd]

theorem retainLitT_erase (p : PropState) (m : Minimize) (l : Lit) :
    Except.map Prod.snd (retainLitT p 21 m l) = retainLit p m l := by
  simp only [retainLitT, retainLit, map_snd_bind]
  congr 1; funext i; congr 1; funext s; congr 1; funext first
  split
  · simp only [map_snd_bind, map_snd_pure]
  · simp only [map_snd_bind, map_snd_pure]
    rw [← redundantUncachedT_erase, bind_map_snd]

theorem retainLoopT_erase (p : PropState) (ls : List Lit) : ∀ m : Minimize,
    Except.map Prod.snd (retainLoopT p 21 ls m) = retainLoop p ls m := by
  induction ls with
  | nil => intro m; rfl
  | cons l ls ih =>
    intro m
    simp only [retainLoopT, retainLoop, map_snd_bind]
    rw [← retainLitT_erase, bind_map_snd]
    congr 1; funext x
    simp only [map_snd_pure]
    rw [← ih, bind_map_snd]

theorem minimizeT_erase (m : Minimize) (clause : List Lit) (p : PropState) :
    Except.map Prod.snd (minimizeT 21 m clause p) = minimize m clause p := by
  simp only [minimizeT, minimize, map_snd_bind]
  congr 1; funext m; congr 1; funext keyed
  cases (keyed.map (·.2)).getLast? with
  | none => rfl
  | some propagated =>
    simp only [map_snd_bind, map_snd_pure]
    rw [← retainLoopT_erase, bind_map_snd]

end Minimize

/-! ## The number of iterations -/

/-- Number of iterations and calls that a redundancy check of the literal at a trail position can take, apart from checks
of other literals: two for each literal of its reason, and three more. -/
def checkCost (p : PropState) (i : Nat) : Nat :=
  match p.trail.steps[i]? with
  | none => 0
  | some s =>
    match p.reasonLits s.reason with
    | .ok rs => 2 * rs.length + 3
    | .error _ => 0

/-- The cost of checking all literals of the trail that have no cached result. -/
def potential (p : PropState) (cache : List (Option Bool)) : Nat :=
  ∑ i ∈ Finset.range p.trail.steps.length, if cache[i]? = some none then checkCost p i else 0

/-- Literals of reasons are earlier on the trail, or of the top level. -/
def Earlier (p : PropState) (i : Nat) (ls : List Lit) : Prop :=
  ∀ o ∈ ls, ∀ (j : Nat) (x : Step), p.trail.indexOf o.index = .ok j → p.trail.steps[j]? = some x → x.level ≠ 0 → j < i

section
variable {n : Nat} {S : List LC} {p : PropState}

theorem checkCost_eq {i : Nat} {s : Step} {rs : List Lit} (hs : p.trail.steps[i]? = some s)
    (hr : p.reasonLits s.reason = .ok rs) : checkCost p i = 2 * rs.length + 3 := by
  simp only [checkCost, hs, hr]

theorem potential_set {c : List (Option Bool)} {i : Nat} (b : Bool) (hi : i < p.trail.steps.length)
    (hc : i < c.length) :
    potential p (c.set i (some b)) + (if c[i]? = some none then checkCost p i else 0) = potential p c := by
  unfold potential
  have hm : i ∈ Finset.range p.trail.steps.length := Finset.mem_range.2 hi
  rw [← Finset.add_sum_erase _ _ hm, ← Finset.add_sum_erase (Finset.range p.trail.steps.length)
    (fun i => if c[i]? = some none then checkCost p i else 0) hm]
  have e : ∑ x ∈ (Finset.range p.trail.steps.length).erase i,
      (if (c.set i (some b))[x]? = some none then checkCost p x else 0) =
      ∑ x ∈ (Finset.range p.trail.steps.length).erase i, if c[x]? = some none then checkCost p x else 0 := by
    refine Finset.sum_congr rfl fun x hx => ?_
    rw [List.getElem?_set_ne (Ne.symm (Finset.ne_of_mem_erase hx))]
  rw [e, List.getElem?_set_self hc]
  simp
  omega

/-- `t` iterations that are paid for by new cached results at positions below `i`. -/
structure Spent (p : PropState) (i t : Nat) (m m' : Minimize) : Prop where
  bound : t + m'.toClean.length + potential p m'.cache ≤ m.toClean.length + potential p m.cache
  frame : ∀ k, i ≤ k → m'.cache[k]? = m.cache[k]?
  first : m'.firstOnLevel = m.firstOnLevel

theorem Spent.refl (i : Nat) (m : Minimize) : Spent p i 0 m m := ⟨by omega, fun _ _ => rfl, rfl⟩

theorem Spent.trans {i t t' : Nat} {a b c : Minimize} (h : Spent p i t a b) (h' : Spent p i t' b c) :
    Spent p i (t + t') a c :=
  ⟨by have := h.bound; have := h'.bound; omega, fun k hk => (h'.frame k hk).trans (h.frame k hk),
    h'.first.trans h.first⟩

theorem Spent.mono {i i' t t' : Nat} {a b : Minimize} (h : Spent p i t a b) (hi : i ≤ i') (ht : t' ≤ t) :
    Spent p i' t' a b :=
  ⟨by have := h.bound; omega, fun k hk => h.frame k (by omega), h.first⟩

namespace Minimize

theorem setCache_eq_ok {m m' : Minimize} {i : Nat} {b : Bool} (h : m.setCache i b = .ok m') :
    i < m.cache.length ∧ m' = { m with cache := m.cache.set i (some b), toClean := m.toClean ++ [i] } := by
  unfold setCache at h
  obtain ⟨c, e, h⟩ := bind_eq_ok.1 h
  obtain ⟨h1, rfl⟩ := upd_eq_ok.1 e
  cases h
  exact ⟨h1, rfl⟩

/-- A new cached result pays for the check. -/
theorem setCache_spent {m m' : Minimize} {i : Nat} {b : Bool} (h : m.setCache i b = .ok m')
    (hi : i < p.trail.steps.length) (hc : m.cache[i]? = some none) :
    m'.toClean.length = m.toClean.length + 1 ∧ potential p m'.cache + checkCost p i = potential p m.cache ∧
    (∀ k, k ≠ i → m'.cache[k]? = m.cache[k]?) ∧ m'.firstOnLevel = m.firstOnLevel := by
  obtain ⟨h1, rfl⟩ := setCache_eq_ok h
  refine ⟨by simp, ?_, fun k hk => List.getElem?_set_ne (Ne.symm hk), rfl⟩
  have := potential_set (p := p) b hi h1
  rwa [if_pos hc] at this

theorem cached_none {m : Minimize} {t : Trail} {i : Nat} (h : m.cached t i = .ok none) :
    m.cache[i]? = some none ∧ ∃ s, t.steps[i]? = some s ∧ s.level ≠ 0 := by
  unfold cached at h
  obtain ⟨c, e, h⟩ := bind_eq_ok.1 h
  have e := idx_eq_ok.1 e
  cases c with
  | some b => cases h
  | none =>
    simp only at h
    obtain ⟨s, e2, h⟩ := bind_eq_ok.1 h
    obtain ⟨f, e3, h⟩ := bind_eq_ok.1 h
    refine ⟨e, s, idx_eq_ok.1 e2, ?_⟩
    intro h0
    split at h
    · cases h
    · cases h

theorem lookaheadT_le {m : Minimize} {t : Trail} (ls : List Lit) : ∀ {acc r : Option Bool} {k : Nat},
    m.lookaheadT t ls acc = .ok (k, r) → k ≤ ls.length := by
  induction ls with
  | nil => intro acc r k h; cases h; simp
  | cons l ls ih =>
    intro acc r k h
    simp only [lookaheadT] at h
    obtain ⟨i, _, h⟩ := bind_eq_ok.1 h
    obtain ⟨c, _, h⟩ := bind_eq_ok.1 h
    match c with
    | some false => cases h; simp
    | some true =>
      simp only at h
      obtain ⟨⟨k', r'⟩, e, h⟩ := bind_eq_ok.1 h
      cases h
      have := ih e
      simp; omega
    | none =>
      simp only at h
      obtain ⟨⟨k', r'⟩, e, h⟩ := bind_eq_ok.1 h
      cases h
      have := ih e
      simp; omega

/-- The frames of the iterative check. -/
structure FramesOK (p : PropState) (root : Nat) (m : Minimize) (fr : List (Nat × List Lit)) : Prop where
  sorted : fr.Pairwise (fun a b => a.1 < b.1)
  open_ : ∀ x ∈ fr, m.cache[x.1]? = some none ∧ x.1 ≤ root ∧ Earlier p x.1 x.2

theorem failStack_spent (st : List (Nat × List Lit)) : ∀ {m m' : Minimize}, m.failStack st = .ok m' →
    (∀ x ∈ st, x.1 < p.trail.steps.length ∧ m.cache[x.1]? = some none) → (st.map Prod.fst).Nodup →
    m'.toClean.length = m.toClean.length + st.length ∧
    potential p m'.cache + (st.map (fun x => checkCost p x.1)).sum = potential p m.cache ∧
    (∀ k, (∀ x ∈ st, k ≠ x.1) → m'.cache[k]? = m.cache[k]?) ∧ m'.firstOnLevel = m.firstOnLevel := by
  induction st with
  | nil => intro m m' h _ _; cases h; simp
  | cons x st ih =>
    intro m m' h ho hnd
    obtain ⟨i, ls⟩ := x
    simp only [failStack] at h
    obtain ⟨m1, e1, h⟩ := bind_eq_ok.1 h
    have hx := ho (i, ls) (by simp)
    obtain ⟨a1, a2, a3, a4⟩ := setCache_spent e1 hx.1 hx.2
    simp only [List.map_cons, List.nodup_cons] at hnd
    obtain ⟨b1, b2, b3, b4⟩ := ih h (by
      intro y hy
      have := ho y (by simp [hy])
      refine ⟨this.1, ?_⟩
      rw [a3 _ ?_]
      · exact this.2
      · intro e
        exact hnd.1 (e ▸ List.mem_map_of_mem hy)) hnd.2
    refine ⟨by simp; omega, by simp; omega, ?_, b4.trans a4⟩
    intro k hk
    rw [b3 k (fun y hy => hk y (by simp [hy])), a3 k (hk (i, ls) (by simp))]

theorem frames_sum (st : List (Nat × List Lit)) : 2 * st.length ≤ (st.map (fun x => x.2.length + 2)).sum := by
  induction st with
  | nil => simp
  | cons x st ih => simp only [List.length_cons, List.map_cons, List.sum_cons]; omega

/-- The iterative check: what it takes beyond the remaining literals of its frames is paid for by new cached results. -/
theorem iterLoopT_spent (hE : ∀ (i : Nat) (s : Step) (rs : List Lit), p.trail.steps[i]? = some s →
    p.reasonLits s.reason = .ok rs → Earlier p i rs) {root : Nat} (hroot : root < p.trail.steps.length) (fuel : Nat) :
    ∀ {m m' : Minimize} {stack : List (Nat × List Lit)} {i t : Nat} {ls : List Lit} {b : Bool},
    iterLoopT p fuel m stack i ls = .ok (t, m', b) → FramesOK p root m ((i, ls) :: stack) →
    t + m'.toClean.length + potential p m'.cache + (((i, ls) :: stack).map (fun x => checkCost p x.1)).sum ≤
      m.toClean.length + potential p m.cache + (((i, ls) :: stack).map (fun x => x.2.length + 2)).sum ∧
    (∀ k, root < k → m'.cache[k]? = m.cache[k]?) ∧ m'.firstOnLevel = m.firstOnLevel := by
  induction fuel with
  | zero => intro m m' stack i t ls b h; cases h
  | succ fuel ih =>
    intro m m' stack i t ls b h hf
    obtain ⟨hsort, hopen⟩ := hf
    rw [List.pairwise_cons] at hsort
    have hi := hopen (i, ls) (by simp)
    simp only at hi
    have hlen : ∀ x ∈ (i, ls) :: stack, x.1 < p.trail.steps.length := fun x hx => by
      have := (hopen x hx).2.1; omega
    -- failing
    have hfail : ∀ {m0 m1 m2 : Minimize}, m0.setCache i false = .ok m1 → m1.failStack stack.reverse = .ok m2 →
        (∀ x ∈ (i, ls) :: stack, m0.cache[x.1]? = some none) →
        m2.toClean.length = m0.toClean.length + 1 + stack.length ∧
        potential p m2.cache + (((i, ls) :: stack).map (fun x => checkCost p x.1)).sum = potential p m0.cache ∧
        (∀ k, root < k → m2.cache[k]? = m0.cache[k]?) ∧ m2.firstOnLevel = m0.firstOnLevel := by
      intro m0 m1 m2 e1 e2 ho
      obtain ⟨a1, a2, a3, a4⟩ := setCache_spent e1 (hlen (i, ls) (by simp)) (ho (i, ls) (by simp))
      obtain ⟨b1, b2, b3, b4⟩ := failStack_spent (p := p) stack.reverse e2 (by
        intro x hx
        have hx := List.mem_reverse.1 hx
        refine ⟨hlen x (by simp [hx]), ?_⟩
        rw [a3 _ (Nat.ne_of_gt (hsort.1 x hx))]
        exact ho x (by simp [hx])) (by
        rw [List.map_reverse, List.nodup_reverse, List.Nodup, List.pairwise_map]
        exact hsort.2.imp fun h => Nat.ne_of_lt h)
      rw [List.map_reverse, List.sum_reverse] at b2
      rw [List.length_reverse] at b1
      refine ⟨by omega, by simp only [List.map_cons, List.sum_cons]; omega, ?_, b4.trans a4⟩
      intro k hk
      rw [b3 k (fun x hx => ?_), a3 k (by omega)]
      have := (hopen x (by simp [List.mem_reverse.1 hx])).2.1
      omega
    cases ls with
    | nil =>
      simp only [iterLoopT] at h
      obtain ⟨m1, e1, h⟩ := bind_eq_ok.1 h
      obtain ⟨a1, a2, a3, a4⟩ := setCache_spent e1 (hlen (i, []) (by simp)) hi.1
      cases stack with
      | nil =>
        cases h
        refine ⟨by simp; omega, fun k hk => a3 k (by omega), a4⟩
      | cons x stack' =>
        obtain ⟨i', ls'⟩ := x
        simp only at h
        obtain ⟨⟨k, r⟩, e2, h⟩ := bind_eq_ok.1 h
        cases h
        obtain ⟨b1, b2, b3⟩ := ih e2 ⟨hsort.2, fun x hx => by
          have := hopen x (by simp [hx])
          rw [a3 _ (Nat.ne_of_gt (hsort.1 x hx))]
          exact this⟩
        refine ⟨?_, fun k hk => (b2 k hk).trans (a3 k (by omega)), b3.trans a4⟩
        simp only [List.map_cons, List.sum_cons, List.length_nil] at b1 ⊢
        omega
    | cons l ls =>
      simp only [iterLoopT] at h
      obtain ⟨j, ej, h⟩ := bind_eq_ok.1 h
      obtain ⟨c, ec, h⟩ := bind_eq_ok.1 h
      have hnext : ∀ {m0 : Minimize}, (∀ k, i ≤ k → m0.cache[k]? = m.cache[k]?) →
          FramesOK p root m0 ((i, ls) :: stack) := by
        intro m0 h0
        refine ⟨List.pairwise_cons.2 hsort, fun x hx => ?_⟩
        rcases List.mem_cons.1 hx with rfl | hx
        · rw [h0 _ (Nat.le_refl _)]
          exact ⟨hi.1, hi.2.1, fun o ho => hi.2.2 o (by simp [ho])⟩
        · rw [h0 _ (Nat.le_of_lt (hsort.1 x hx))]
          exact hopen x (by simp [hx])
      match c with
      | some true =>
        simp only at h
        obtain ⟨⟨k, r⟩, e2, h⟩ := bind_eq_ok.1 h
        cases h
        obtain ⟨b1, b2, b3⟩ := ih e2 (hnext fun _ _ => rfl)
        refine ⟨?_, b2, b3⟩
        simp only [List.map_cons, List.sum_cons, List.length_cons] at b1 ⊢
        omega
      | some false =>
        simp only at h
        obtain ⟨m1, e1, h⟩ := bind_eq_ok.1 h
        obtain ⟨m2, e2, h⟩ := bind_eq_ok.1 h
        cases h
        obtain ⟨a1, a2, a3, a4⟩ := hfail e1 e2 (fun x hx => (hopen x hx).1)
        refine ⟨?_, a3, a4⟩
        simp only [List.map_cons, List.sum_cons, List.length_cons] at a2 ⊢
        have := frames_sum stack
        omega
      | none =>
        obtain ⟨hj, x, hx, hx0⟩ := cached_none ec
        have hji := hi.2.2 l (by simp) j x ej hx hx0
        have hjl := (List.getElem?_eq_some_iff.1 hx).1
        simp only at h
        obtain ⟨s, es, h⟩ := bind_eq_ok.1 h
        have es := idx_eq_ok.1 es
        obtain ⟨rs, er, h⟩ := bind_eq_ok.1 h
        obtain ⟨⟨k, r⟩, el, h⟩ := bind_eq_ok.1 h
        have hk := lookaheadT_le rs el
        have hcost := checkCost_eq es er
        have hsum2 := frames_sum stack
        match r with
        | some false =>
          simp only at h
          obtain ⟨m0, e0, h⟩ := bind_eq_ok.1 h
          obtain ⟨m1, e1, h⟩ := bind_eq_ok.1 h
          obtain ⟨m2, e2, h⟩ := bind_eq_ok.1 h
          cases h
          obtain ⟨c1, c2, c3, c4⟩ := setCache_spent e0 hjl hj
          obtain ⟨a1, a2, a3, a4⟩ := hfail e1 e2 (fun x hx => by
            rw [c3 _ ?_]
            · exact (hopen x hx).1
            · rcases List.mem_cons.1 hx with rfl | hx
              · exact Nat.ne_of_gt hji
              · have := hsort.1 x hx; simp only at this; omega)
          refine ⟨?_, fun k hk => (a3 k hk).trans (c3 k (by omega)), a4.trans c4⟩
          simp only [List.map_cons, List.sum_cons, List.length_cons] at a2 ⊢
          omega
        | some true =>
          simp only at h
          obtain ⟨m0, e0, h⟩ := bind_eq_ok.1 h
          obtain ⟨⟨k', r'⟩, e2, h⟩ := bind_eq_ok.1 h
          cases h
          obtain ⟨c1, c2, c3, c4⟩ := setCache_spent e0 hjl hj
          obtain ⟨b1, b2, b3⟩ := ih e2 (hnext fun k hk => c3 k (by omega))
          refine ⟨?_, fun k hk => (b2 k hk).trans (c3 k (by omega)), b3.trans c4⟩
          simp only [List.map_cons, List.sum_cons, List.length_cons] at b1 ⊢
          omega
        | none =>
          simp only at h
          obtain ⟨⟨k', r'⟩, e2, h⟩ := bind_eq_ok.1 h
          cases h
          obtain ⟨q1, q2⟩ := hnext (m0 := m) fun _ _ => rfl
          obtain ⟨b1, b2, b3⟩ := ih e2 ⟨List.pairwise_cons.2 ⟨fun x hx => by
              rcases List.mem_cons.1 hx with rfl | hx
              · exact hji
              · have := hsort.1 x hx; simp only at this ⊢; omega, q1⟩, fun x hx => by
              rcases List.mem_cons.1 hx with rfl | hx
              · exact ⟨hj, by simp only; omega, hE j s rs es er⟩
              · exact q2 x hx⟩
          refine ⟨?_, b2, b3⟩
          simp only [List.map_cons, List.sum_cons, List.length_cons] at b1 ⊢
          omega

theorem allRedundantT_spent {i : Nat} {f : Minimize → Nat → M (Nat × Minimize × Bool)}
    (hf : ∀ {m m' : Minimize} {j t : Nat} {b : Bool}, f m j = .ok (t, m', b) → j < p.trail.steps.length →
      m.cache[j]? = some none → Spent p (j + 1) t m m') (ls : List Lit) :
    ∀ {m m' : Minimize} {t : Nat} {b : Bool}, allRedundantT p.trail (redundantRecT p.trail f) ls m = .ok (t, m', b) →
    Earlier p i ls → ∃ t0, t ≤ t0 + ls.length ∧ Spent p i t0 m m' := by
  induction ls with
  | nil => intro m m' t b h _; cases h; exact ⟨0, by simp, Spent.refl _ _⟩
  | cons l ls ih =>
    intro m m' t b h hE
    simp only [allRedundantT] at h
    obtain ⟨j, ej, h⟩ := bind_eq_ok.1 h
    obtain ⟨⟨k, m1, b1⟩, e1, h⟩ := bind_eq_ok.1 h
    have hs : Spent p i k m m1 := by
      unfold redundantRecT at e1
      obtain ⟨c, ec, e1⟩ := bind_eq_ok.1 e1
      match c with
      | some b => cases e1; exact Spent.refl _ _
      | none =>
        obtain ⟨hj, x, hx, hx0⟩ := cached_none ec
        exact (hf e1 (List.getElem?_eq_some_iff.1 hx).1 hj).mono (hE l (by simp) j x ej hx hx0) (Nat.le_refl _)
    cases b1 with
    | false =>
      cases h
      exact ⟨k, by simp, hs⟩
    | true =>
      simp only [if_true] at h
      obtain ⟨⟨k', r⟩, e2, h⟩ := bind_eq_ok.1 h
      cases h
      obtain ⟨t0, h1, h2⟩ := ih e2 (fun o ho => hE o (by simp [ho]))
      exact ⟨k + t0, by simp; omega, hs.trans h2⟩

theorem redundantUncachedT_spent (hE : ∀ (i : Nat) (s : Step) (rs : List Lit), p.trail.steps[i]? = some s →
    p.reasonLits s.reason = .ok rs → Earlier p i rs) (d : Nat) :
    ∀ {m m' : Minimize} {i t : Nat} {b : Bool}, redundantUncachedT p d m i = .ok (t, m', b) →
      i < p.trail.steps.length → m.cache[i]? = some none → Spent p (i + 1) t m m' := by
  induction d with
  | zero =>
    intro m m' i t b h hi hc
    simp only [redundantUncachedT] at h
    obtain ⟨s, es, h⟩ := bind_eq_ok.1 h
    have es := idx_eq_ok.1 es
    obtain ⟨rs, er, h⟩ := bind_eq_ok.1 h
    obtain ⟨⟨k, r⟩, el, h⟩ := bind_eq_ok.1 h
    have hk := lookaheadT_le rs el
    have hcost := checkCost_eq es er
    match r with
    | some false =>
      simp only at h
      obtain ⟨m1, e1, h⟩ := bind_eq_ok.1 h
      cases h
      obtain ⟨a1, a2, a3, a4⟩ := setCache_spent e1 hi hc
      exact ⟨by omega, fun k hk => a3 k (by omega), a4⟩
    | some true =>
      simp only at h
      obtain ⟨m1, e1, h⟩ := bind_eq_ok.1 h
      cases h
      obtain ⟨a1, a2, a3, a4⟩ := setCache_spent e1 hi hc
      exact ⟨by omega, fun k hk => a3 k (by omega), a4⟩
    | none =>
      simp only at h
      obtain ⟨⟨k', r'⟩, e2, h⟩ := bind_eq_ok.1 h
      cases h
      obtain ⟨b1, b2, b3⟩ := iterLoopT_spent hE hi _ e2 ⟨by simp, fun x hx => by
        simp only [List.mem_singleton] at hx
        subst hx
        exact ⟨hc, Nat.le_refl _, hE i s rs es er⟩⟩
      refine ⟨?_, fun k hk => b2 k (by omega), b3⟩
      simp only [List.map_cons, List.map_nil, List.sum_cons, List.sum_nil] at b1
      omega
  | succ d ih =>
    intro m m' i t b h hi hc
    simp only [redundantUncachedT] at h
    obtain ⟨s, es, h⟩ := bind_eq_ok.1 h
    have es := idx_eq_ok.1 es
    obtain ⟨rs, er, h⟩ := bind_eq_ok.1 h
    obtain ⟨⟨k, r⟩, el, h⟩ := bind_eq_ok.1 h
    have hk := lookaheadT_le rs el
    have hcost := checkCost_eq es er
    match r with
    | some false =>
      simp only at h
      obtain ⟨m1, e1, h⟩ := bind_eq_ok.1 h
      cases h
      obtain ⟨a1, a2, a3, a4⟩ := setCache_spent e1 hi hc
      exact ⟨by omega, fun k hk => a3 k (by omega), a4⟩
    | some true =>
      simp only at h
      obtain ⟨m1, e1, h⟩ := bind_eq_ok.1 h
      cases h
      obtain ⟨a1, a2, a3, a4⟩ := setCache_spent e1 hi hc
      exact ⟨by omega, fun k hk => a3 k (by omega), a4⟩
    | none =>
      simp only at h
      obtain ⟨⟨k', m1, b1⟩, e1, h⟩ := bind_eq_ok.1 h
      obtain ⟨m2, e2, h⟩ := bind_eq_ok.1 h
      cases h
      obtain ⟨t0, h1, h2⟩ := allRedundantT_spent (i := i) (fun e hj hc => ih e hj hc) rs e1 (hE i s rs es er)
      obtain ⟨a1, a2, a3, a4⟩ := setCache_spent e2 hi (by rw [h2.frame i (Nat.le_refl _)]; exact hc)
      refine ⟨?_, fun k hk => (a3 k (by omega)).trans (h2.frame k (by omega)), a4.trans h2.first⟩
      have := h2.bound
      simp only at a1 a2
      omega

end Minimize

/-! ## The limit of the recursion -/

/-- States that differ in the order of the entries of `to_clean` only. -/
structure Same (m m' : Minimize) : Prop where
  first : m'.firstOnLevel = m.firstOnLevel
  cache : m'.cache = m.cache
  clean : m'.toClean.Perm m.toClean

theorem Same.refl (m : Minimize) : Same m m := ⟨rfl, rfl, List.Perm.refl _⟩

theorem Same.symm {a b : Minimize} (h : Same a b) : Same b a := ⟨h.first.symm, h.cache.symm, h.clean.symm⟩

theorem Same.trans {a b c : Minimize} (h : Same a b) (h' : Same b c) : Same a c :=
  ⟨h'.first.trans h.first, h'.cache.trans h.cache, h'.clean.trans h.clean⟩

theorem MInv.same {K : Nat → Prop} {bnd : Nat} {m m' : Minimize} (h : MInv p K bnd m) (hs : Same m m') :
    MInv p K bnd m' := by
  obtain ⟨e1, e2, e3⟩ := hs
  refine ⟨by rw [e1]; exact h.flen, by rw [e2]; exact h.clen, by rw [e1]; exact h.f0, by rw [e1]; exact h.first,
    by rw [e2]; exact h.kept, by rw [e2]; exact h.cache, ?_, ?_⟩
  · intro i c hi
    rw [e2] at hi
    exact e3.mem_iff.2 (h.clean i c hi)
  · intro i hi
    rw [e2]
    exact h.cleanlt i (e3.mem_iff.1 hi)

namespace Minimize

/-- The recursive check without limit, for a depth less than the first argument. -/
def redundantFull (p : PropState) : Nat → Minimize → Nat → M (Minimize × Bool)
  | 0, _, _ => throw .fuel
  | r + 1, m, i => do
    let s ← idx p.trail.steps i
    let rs ← p.reasonLits s.reason
    match ← m.lookahead p.trail rs (some true) with
    | some false => do
      let m ← m.setCache i false
      pure (m, false)
    | some true => do
      let m ← m.setCache i true
      pure (m, true)
    | none => do
      let (m, b) ← allRedundant p.trail (redundantRec p.trail (redundantFull p r)) rs m
      let m ← m.setCache i b
      pure (m, b)

/-- What is left to do for the frames of a stack. -/
def finishFrames (p : PropState) (r : Nat) : List (Nat × List Lit) → Minimize → Bool → M (Minimize × Bool)
  | [], m, b => pure (m, b)
  | (i, _) :: st, m, false => do
    let m ← m.setCache i false
    finishFrames p r st m false
  | (i, ls) :: st, m, true => do
    let (m, b) ← allRedundant p.trail (redundantRec p.trail (redundantFull p r)) ls m
    let m ← m.setCache i b
    finishFrames p r st m b

theorem cached_same {m m' : Minimize} (h : Same m m') (t : Trail) (i : Nat) : m'.cached t i = m.cached t i := by
  unfold cached
  rw [h.cache, h.first]

theorem lookahead_same {m m' : Minimize} (h : Same m m') (t : Trail) (ls : List Lit) : ∀ acc,
    m'.lookahead t ls acc = m.lookahead t ls acc := by
  induction ls with
  | nil => intro acc; rfl
  | cons l ls ih => intro acc; simp only [lookahead, cached_same h, ih]

theorem setCache_same {m m' m1 : Minimize} (h : Same m m') {i : Nat} {b : Bool} (e : m.setCache i b = .ok m1) :
    ∃ m2, m'.setCache i b = .ok m2 ∧ Same m1 m2 := by
  obtain ⟨h1, rfl⟩ := setCache_eq_ok e
  refine ⟨{ m' with cache := m'.cache.set i (some b), toClean := m'.toClean ++ [i] }, ?_, h.first, by
    simp only [h.cache], h.clean.append_right _⟩
  unfold setCache
  rw [upd_ok (by rw [h.cache]; exact h1)]; rfl

theorem allRedundant_mono {t : Trail} {f g : Minimize → Nat → M (Minimize × Bool)}
    (h : ∀ m i x, f m i = .ok x → g m i = .ok x) (ls : List Lit) : ∀ {m : Minimize} {x : Minimize × Bool},
    allRedundant t (redundantRec t f) ls m = .ok x → allRedundant t (redundantRec t g) ls m = .ok x := by
  induction ls with
  | nil => intro m x e; exact e
  | cons l ls ih =>
    intro m x e
    simp only [allRedundant] at e ⊢
    obtain ⟨i, e1, e⟩ := bind_eq_ok.1 e
    obtain ⟨⟨m1, b⟩, e2, e⟩ := bind_eq_ok.1 e
    have e3 : redundantRec t g m i = .ok (m1, b) := by
      unfold redundantRec at e2 ⊢
      obtain ⟨c, e4, e2⟩ := bind_eq_ok.1 e2
      rw [e4, bind_ok]
      cases c with
      | none => exact h _ _ _ e2
      | some c => exact e2
    rw [e1, bind_ok, e3, bind_ok]
    cases b with
    | false => exact e
    | true => simp only [if_true] at e ⊢; exact ih e

theorem redundantFull_succ (r : Nat) : ∀ (m : Minimize) (i : Nat) (x : Minimize × Bool),
    redundantFull p r m i = .ok x → redundantFull p (r + 1) m i = .ok x := by
  induction r with
  | zero => intro m i x e; cases e
  | succ r ih =>
    intro m i x e
    rw [redundantFull] at e ⊢
    obtain ⟨s, e1, e⟩ := bind_eq_ok.1 e
    obtain ⟨rs, e2, e⟩ := bind_eq_ok.1 e
    obtain ⟨c, e3, e⟩ := bind_eq_ok.1 e
    rw [e1, bind_ok, e2, bind_ok, e3, bind_ok]
    match c with
    | some false => exact e
    | some true => exact e
    | none =>
      simp only at e ⊢
      obtain ⟨y, e4, e⟩ := bind_eq_ok.1 e
      rw [allRedundant_mono ih rs e4, bind_ok]
      exact e

theorem redundantFull_mono {r r' : Nat} (h : r ≤ r') {m : Minimize} {i : Nat} {x : Minimize × Bool}
    (e : redundantFull p r m i = .ok x) : redundantFull p r' m i = .ok x := by
  induction h with
  | refl => exact e
  | step _ ih => exact redundantFull_succ _ _ _ _ ih

theorem finishFrames_mono {r r' : Nat} (h : r ≤ r') (st : List (Nat × List Lit)) : ∀ {m : Minimize} {b : Bool}
    {x : Minimize × Bool}, finishFrames p r st m b = .ok x → finishFrames p r' st m b = .ok x := by
  induction st with
  | nil => intro m b x e; cases b <;> exact e
  | cons y st ih =>
    obtain ⟨i, ls⟩ := y
    intro m b x e
    cases b with
    | false =>
      simp only [finishFrames] at e ⊢
      obtain ⟨m1, e1, e⟩ := bind_eq_ok.1 e
      rw [e1, bind_ok]; exact ih e
    | true =>
      simp only [finishFrames] at e ⊢
      obtain ⟨⟨m1, b⟩, e1, e⟩ := bind_eq_ok.1 e
      obtain ⟨m2, e2, e⟩ := bind_eq_ok.1 e
      rw [allRedundant_mono (fun _ _ _ => redundantFull_mono h) ls e1, bind_ok]
      simp only at e2 e ⊢
      rw [e2, bind_ok]; exact ih e

/-- The check does not depend on the order of `to_clean`. -/
theorem allRedundant_same {t : Trail} {f g : Nat → Minimize → Nat → M (Minimize × Bool)} {r0 : Nat}
    (hg : ∀ {r r' m i x}, r ≤ r' → g r m i = .ok x → g r' m i = .ok x)
    (h : ∀ {m m0 i m' b}, f r0 m i = .ok (m', b) → Same m m0 → ∃ r m2, g r m0 i = .ok (m2, b) ∧ Same m' m2)
    (ls : List Lit) : ∀ {m m0 m' : Minimize} {b : Bool},
    allRedundant t (redundantRec t (f r0)) ls m = .ok (m', b) → Same m m0 →
    ∃ r m2, allRedundant t (redundantRec t (g r)) ls m0 = .ok (m2, b) ∧ Same m' m2 := by
  induction ls with
  | nil => intro m m0 m' b e hs; cases e; exact ⟨0, m0, rfl, hs⟩
  | cons l ls ih =>
    intro m m0 m' b e hs
    simp only [allRedundant] at e
    obtain ⟨i, e1, e⟩ := bind_eq_ok.1 e
    obtain ⟨⟨m1, b1⟩, e2, e⟩ := bind_eq_ok.1 e
    obtain ⟨r, m2, e3, s2⟩ : ∃ r m2, redundantRec t (g r) m0 i = .ok (m2, b1) ∧ Same m1 m2 := by
      unfold redundantRec at e2 ⊢
      obtain ⟨c, e4, e2⟩ := bind_eq_ok.1 e2
      rw [cached_same hs, e4]
      cases c with
      | none => exact h e2 hs
      | some c => cases e2; exact ⟨0, m0, rfl, hs⟩
    cases b1 with
    | false =>
      cases e
      refine ⟨r, m2, ?_, s2⟩
      simp only [allRedundant, e1, bind_ok, e3]; rfl
    | true =>
      simp only [if_true] at e
      obtain ⟨r', m3, e5, s3⟩ := ih e s2
      refine ⟨max r r', m3, ?_, s3⟩
      have e6 : redundantRec t (g (max r r')) m0 i = .ok (m2, true) := by
        unfold redundantRec at e3 ⊢
        obtain ⟨c, e4, e3⟩ := bind_eq_ok.1 e3
        rw [e4, bind_ok]
        cases c with
        | none => exact hg (Nat.le_max_left _ _) e3
        | some c => exact e3
      simp only [allRedundant, e1, bind_ok, e6, if_true]
      exact allRedundant_mono (fun _ _ _ => hg (Nat.le_max_right _ _)) ls e5

theorem failStack_eq_ok (st : List (Nat × List Lit)) : ∀ {m m' : Minimize}, m.failStack st = .ok m' ↔
    (∀ x ∈ st, x.1 < m.cache.length) ∧
    m' = { m with cache := st.foldl (fun c x => c.set x.1 (some false)) m.cache,
                  toClean := m.toClean ++ st.map Prod.fst } := by
  induction st with
  | nil =>
    intro m m'
    simp only [failStack, List.foldl_nil, List.map_nil, List.append_nil]
    constructor
    · intro h; cases h; exact ⟨by simp, rfl⟩
    · rintro ⟨-, rfl⟩; rfl
  | cons x st ih =>
    intro m m'
    obtain ⟨i, ls⟩ := x
    simp only [failStack]
    constructor
    · intro h
      obtain ⟨m1, e1, h⟩ := bind_eq_ok.1 h
      obtain ⟨h1, rfl⟩ := setCache_eq_ok e1
      obtain ⟨h2, rfl⟩ := ih.1 h
      refine ⟨?_, ?_⟩
      · intro y hy
        rcases List.mem_cons.1 hy with rfl | hy
        · exact h1
        · simpa using h2 y hy
      · simp
    · rintro ⟨h1, rfl⟩
      have : m.setCache i false =
          .ok { m with cache := m.cache.set i (some false), toClean := m.toClean ++ [i] } := by
        unfold setCache
        rw [upd_ok (h1 (i, ls) (by simp))]; rfl
      rw [this, bind_ok, ih]
      exact ⟨fun y hy => by simpa using h1 y (by simp [hy]), by simp⟩

theorem finishFrames_false (r : Nat) (st : List (Nat × List Lit)) : ∀ {m m' : Minimize}, m.failStack st = .ok m' →
    finishFrames p r st m false = .ok (m', false) := by
  induction st with
  | nil => intro m m' h; cases h; rfl
  | cons x st ih =>
    intro m m' h
    obtain ⟨i, ls⟩ := x
    simp only [failStack, finishFrames] at h ⊢
    obtain ⟨m1, e1, h⟩ := bind_eq_ok.1 h
    rw [e1, bind_ok]; exact ih h

theorem failStack_reverse {st : List (Nat × List Lit)} {m m0 m' : Minimize} (h : m.failStack st.reverse = .ok m')
    (hs : Same m m0) : ∃ m2, m0.failStack st = .ok m2 ∧ Same m' m2 := by
  obtain ⟨h1, rfl⟩ := (failStack_eq_ok _).1 h
  refine ⟨_, (failStack_eq_ok _).2 ⟨fun x hx => ?_, rfl⟩, hs.first, ?_, ?_⟩
  · rw [hs.cache]; exact h1 x (List.mem_reverse.2 hx)
  · simp only [hs.cache]
    refine (st.reverse_perm).symm.foldl_eq' ?_ _
    intro x _ y _ c
    by_cases e : x.1 = y.1
    · rw [e]
    · exact List.set_comm _ _ e
  · simp only
    exact hs.clean.append ((List.reverse_perm _).map _).symm

/-- The iterative check does the same as the recursive one. -/
theorem iterLoop_full (fuel : Nat) : ∀ {m m0 m' : Minimize} {stack : List (Nat × List Lit)} {i : Nat} {ls : List Lit}
    {b : Bool}, iterLoop p fuel m stack i ls = .ok (m', b) → Same m m0 →
    ∃ r m2, finishFrames p r ((i, ls) :: stack) m0 true = .ok (m2, b) ∧ Same m' m2 := by
  induction fuel with
  | zero => intro m m0 m' stack i ls b h; cases h
  | succ fuel ih =>
    intro m m0 m' stack i ls b h hs
    cases ls with
    | nil =>
      simp only [iterLoop] at h
      obtain ⟨m1, e1, h⟩ := bind_eq_ok.1 h
      obtain ⟨m2, e2, s2⟩ := setCache_same hs e1
      cases stack with
      | nil =>
        cases h
        refine ⟨0, m2, ?_, s2⟩
        simp only [finishFrames, allRedundant]
        show (m0.setCache i true >>= fun m => pure (m, true)) = _
        rw [e2]; rfl
      | cons x stack =>
        obtain ⟨i', ls'⟩ := x
        simp only at h
        obtain ⟨r, m3, e3, s3⟩ := ih h s2
        refine ⟨r, m3, ?_, s3⟩
        rw [finishFrames]
        show (m0.setCache i true >>= fun m => finishFrames p r _ m true) = _
        rw [e2, bind_ok]; exact e3
    | cons l ls =>
      simp only [iterLoop] at h
      obtain ⟨j, ej, h⟩ := bind_eq_ok.1 h
      obtain ⟨c, ec, h⟩ := bind_eq_ok.1 h
      have ec0 := (cached_same hs _ _).trans ec
      -- the first literal is redundant
      have hnext : ∀ {r0 : Nat} {m1 m2 : Minimize}, iterLoop p fuel m1 stack i ls = .ok (m', b) → Same m1 m2 →
          redundantRec p.trail (redundantFull p r0) m0 j = .ok (m2, true) →
          ∃ r m2, finishFrames p r ((i, l :: ls) :: stack) m0 true = .ok (m2, b) ∧ Same m' m2 := by
        intro r0 m1 m2 h1 h2 h3
        obtain ⟨r, m3, e3, s3⟩ := ih h1 h2
        refine ⟨max r0 r, m3, ?_, s3⟩
        have e4 : redundantRec p.trail (redundantFull p (max r0 r)) m0 j = .ok (m2, true) := by
          unfold redundantRec at h3 ⊢
          obtain ⟨c, e4, h3⟩ := bind_eq_ok.1 h3
          rw [e4, bind_ok]
          cases c with
          | none => exact redundantFull_mono (Nat.le_max_left _ _) h3
          | some c => exact h3
        have e5 := finishFrames_mono (Nat.le_max_right r0 r) _ e3
        rw [finishFrames] at e5 ⊢
        simp only [allRedundant, ej, bind_ok, e4, if_true]
        exact e5
      -- the first literal is not redundant
      have hfail : ∀ {r0 : Nat} {m1 m2 m3 m4 : Minimize},
          redundantRec p.trail (redundantFull p r0) m0 j = .ok (m2, false) → Same m1 m2 →
          m1.setCache i false = .ok m3 → m3.failStack stack.reverse = .ok m4 →
          ∃ r m2, finishFrames p r ((i, l :: ls) :: stack) m0 true = .ok (m2, false) ∧ Same m4 m2 := by
        intro r0 m1 m2 m3 m4 h1 h2 h3 h4
        obtain ⟨m5, e5, s5⟩ := setCache_same h2 h3
        obtain ⟨m6, e6, s6⟩ := failStack_reverse h4 s5
        refine ⟨r0, m6, ?_, s6⟩
        rw [finishFrames]
        simp only [allRedundant, ej, bind_ok, h1, Bool.false_eq_true, if_false]
        show (m2.setCache i false >>= fun m => finishFrames p r0 stack m false) = _
        rw [e5, bind_ok]
        exact finishFrames_false _ _ e6
      match c with
      | some true =>
        refine hnext (r0 := 0) h hs ?_
        simp only [redundantRec, ec0, bind_ok]; rfl
      | some false =>
        simp only at h
        obtain ⟨m1, e1, h⟩ := bind_eq_ok.1 h
        obtain ⟨m2, e2, h⟩ := bind_eq_ok.1 h
        cases h
        refine hfail (r0 := 0) ?_ hs e1 e2
        simp only [redundantRec, ec0, bind_ok]; rfl
      | none =>
        simp only at h
        obtain ⟨s, es, h⟩ := bind_eq_ok.1 h
        obtain ⟨rs, er, h⟩ := bind_eq_ok.1 h
        obtain ⟨c, el, h⟩ := bind_eq_ok.1 h
        have el0 := (lookahead_same hs _ _ _).trans el
        match c with
        | some false =>
          simp only at h
          obtain ⟨m1, e1, h⟩ := bind_eq_ok.1 h
          obtain ⟨m2, e2, h⟩ := bind_eq_ok.1 h
          obtain ⟨m3, e3, h⟩ := bind_eq_ok.1 h
          cases h
          obtain ⟨m4, e4, s4⟩ := setCache_same hs e1
          refine hfail (r0 := 1) (m2 := m4) ?_ s4 e2 e3
          simp only [redundantRec, ec0, bind_ok, redundantFull, es, er, el0, e4]; rfl
        | some true =>
          simp only at h
          obtain ⟨m1, e1, h⟩ := bind_eq_ok.1 h
          obtain ⟨m4, e4, s4⟩ := setCache_same hs e1
          refine hnext (r0 := 1) (m2 := m4) h s4 ?_
          simp only [redundantRec, ec0, bind_ok, redundantFull, es, er, el0, e4]; rfl
        | none =>
          simp only at h
          obtain ⟨r, m2, e2, s2⟩ := ih h hs
          refine ⟨r + 1, m2, ?_, s2⟩
          rw [finishFrames] at e2
          obtain ⟨⟨m3, b3⟩, e3, e2⟩ := bind_eq_ok.1 e2
          obtain ⟨m4, e4, e2⟩ := bind_eq_ok.1 e2
          have e5 : redundantRec p.trail (redundantFull p (r + 1)) m0 j = .ok (m4, b3) := by
            simp only [redundantRec, ec0, bind_ok, redundantFull, es, er, el0, e3, e4]; rfl
          rw [finishFrames]
          cases b3 with
          | false =>
            simp only [allRedundant, ej, bind_ok, e5, Bool.false_eq_true, if_false]
            exact finishFrames_mono (Nat.le_succ r) _ e2
          | true =>
            have e6 := finishFrames_mono (Nat.le_succ r) _ e2
            rw [finishFrames] at e6
            simp only [allRedundant, ej, bind_ok, e5, if_true]
            exact e6

/-- Whatever the limit, the check does the same as the recursive one without limit. -/
theorem redundantUncached_full (d : Nat) : ∀ {m m0 m' : Minimize} {i : Nat} {b : Bool},
    redundantUncached p d m i = .ok (m', b) → Same m m0 →
    ∃ r m2, redundantFull p r m0 i = .ok (m2, b) ∧ Same m' m2 := by
  induction d with
  | zero =>
    intro m m0 m' i b h hs
    simp only [redundantUncached] at h
    obtain ⟨s, es, h⟩ := bind_eq_ok.1 h
    obtain ⟨rs, er, h⟩ := bind_eq_ok.1 h
    obtain ⟨c, el, h⟩ := bind_eq_ok.1 h
    have el0 := (lookahead_same hs _ _ _).trans el
    match c with
    | some false =>
      simp only at h
      obtain ⟨m1, e1, h⟩ := bind_eq_ok.1 h
      cases h
      obtain ⟨m4, e4, s4⟩ := setCache_same hs e1
      exact ⟨1, m4, by simp only [redundantFull, es, bind_ok, er, el0, e4]; rfl, s4⟩
    | some true =>
      simp only at h
      obtain ⟨m1, e1, h⟩ := bind_eq_ok.1 h
      cases h
      obtain ⟨m4, e4, s4⟩ := setCache_same hs e1
      exact ⟨1, m4, by simp only [redundantFull, es, bind_ok, er, el0, e4]; rfl, s4⟩
    | none =>
      simp only at h
      obtain ⟨r, m2, e2, s2⟩ := iterLoop_full _ h hs
      refine ⟨r + 1, m2, ?_, s2⟩
      rw [finishFrames] at e2
      obtain ⟨⟨m3, b3⟩, e3, e2⟩ := bind_eq_ok.1 e2
      obtain ⟨m4, e4, e2⟩ := bind_eq_ok.1 e2
      simp only [redundantFull, es, bind_ok, er, el0, e3, e4]
      cases b3 <;> exact e2
  | succ d ih =>
    intro m m0 m' i b h hs
    simp only [redundantUncached] at h
    obtain ⟨s, es, h⟩ := bind_eq_ok.1 h
    obtain ⟨rs, er, h⟩ := bind_eq_ok.1 h
    obtain ⟨c, el, h⟩ := bind_eq_ok.1 h
    have el0 := (lookahead_same hs _ _ _).trans el
    match c with
    | some false =>
      simp only at h
      obtain ⟨m1, e1, h⟩ := bind_eq_ok.1 h
      cases h
      obtain ⟨m4, e4, s4⟩ := setCache_same hs e1
      exact ⟨1, m4, by simp only [redundantFull, es, bind_ok, er, el0, e4]; rfl, s4⟩
    | some true =>
      simp only at h
      obtain ⟨m1, e1, h⟩ := bind_eq_ok.1 h
      cases h
      obtain ⟨m4, e4, s4⟩ := setCache_same hs e1
      exact ⟨1, m4, by simp only [redundantFull, es, bind_ok, er, el0, e4]; rfl, s4⟩
    | none =>
      simp only at h
      obtain ⟨⟨m1, b1⟩, e1, h⟩ := bind_eq_ok.1 h
      obtain ⟨m2, e2, h⟩ := bind_eq_ok.1 h
      cases h
      obtain ⟨r, m3, e3, s3⟩ := allRedundant_same (f := redundantUncached p) (g := redundantFull p) (r0 := d)
        (fun h e => redundantFull_mono h e) (fun e hs => ih e hs) rs e1 hs
      obtain ⟨m4, e4, s4⟩ := setCache_same s3 e2
      refine ⟨r + 1, m4, ?_, s4⟩
      simp only at e4
      simp only [redundantFull, es, bind_ok, er, el0, e3, e4]; rfl

/-- Two limits give the same result. -/
theorem redundantUncached_same {d d' : Nat} {m m0 m1 m2 : Minimize} {i : Nat} {b b' : Bool} (hs : Same m m0)
    (h : redundantUncached p d m i = .ok (m1, b)) (h' : redundantUncached p d' m0 i = .ok (m2, b')) :
    b = b' ∧ Same m1 m2 := by
  obtain ⟨r, m3, e3, s3⟩ := redundantUncached_full d h hs
  obtain ⟨r', m4, e4, s4⟩ := redundantUncached_full d' h' (Same.refl _)
  have e3 := redundantFull_mono (Nat.le_max_left r r') e3
  have e4 := redundantFull_mono (Nat.le_max_right r r') e4
  rw [e3] at e4
  cases e4
  exact ⟨rfl, s3.trans s4.symm⟩

end Minimize
end

/-! ## The whole minimisation -/

section
variable {n : Nat} {S : List LC} {p : PropState} {F L : DB} {K : Nat → Prop} {bnd : Nat}

theorem PInv.earlier (h : PInv n S p) (i : Nat) (s : Step) (rs : List Lit) (hs : p.trail.steps[i]? = some s)
    (hr : p.reasonLits s.reason = .ok rs) : Earlier p i rs := by
  intro o ho j x hj hx hx0
  obtain ⟨rs', e, hb, _⟩ := h.reason hs
  cases hr.symm.trans e
  obtain ⟨j', s', h1, h2, h3, h4⟩ := h.position (hb o ho)
  rw [Trail.indexOf_ok h1 h2 (by rw [h3, Lit.index_neg])] at hj
  cases hj
  rw [h2] at hx
  cases hx
  exact h4 hx0

theorem map_snd_eq_ok {α β : Type} {x : M (α × β)} {b : β} (h : Except.map Prod.snd x = .ok b) :
    ∃ a, x = .ok (a, b) := by
  cases x with
  | error e => cases h
  | ok y => obtain ⟨a, b'⟩ := y; cases h; exact ⟨a, rfl⟩

namespace Minimize

theorem retainLitT_ok (h : PInv n S p) (d : Nat) {m m0 m' : Minimize} {l : Lit} {i : Nat} {b : Bool}
    (hm : MInv p K i m) (hat : At p.trail l i) (hs : Same m m0) (e : retainLit p m l = .ok (m', b)) :
    ∃ t m2, retainLitT p d m0 l = .ok (t, m2, b) ∧ Same m' m2 ∧
      t + m2.toClean.length + potential p m2.cache ≤ m0.toClean.length + potential p m0.cache + 2 := by
  obtain ⟨h1, s, h2, h3, h4⟩ := hat
  have his : i < p.trail.steps.length := (List.getElem?_eq_some_iff.1 h2).1
  have hK : ¬ K i := fun hk => by have := hm.kept_lt hk; omega
  have hm1 := hm.raise (show i ≤ i + 1 by omega)
  have hlev := h.trail.level_le i s h2
  have hlf : s.level < m.firstOnLevel.length := by have := hm.flen; omega
  have hf := List.getElem?_eq_getElem hlf
  generalize m.firstOnLevel[s.level] = f at hf
  have hic : i < m.cache.length := Nat.lt_of_lt_of_le his hm.clen
  have hci : m.cache[i]? = some none := by
    cases hc : m.cache[i] with
    | none => rw [← hc]; exact List.getElem?_eq_getElem hic
    | some c =>
      have := (hm.cache i c (by rw [← hc]; exact List.getElem?_eq_getElem hic)).1
      omega
  obtain ⟨f1, f2⟩ := hm.first s.level f h4 hf
  unfold retainLit at e
  rw [Trail.indexOf_ok h1 h2 (by rw [h3, Lit.index_neg]), bind_ok, idx_ok h2, bind_ok, idx_ok hf, bind_ok] at e
  unfold retainLitT
  rw [Trail.indexOf_ok h1 h2 (by rw [h3, Lit.index_neg]), bind_ok, idx_ok h2, bind_ok, hs.first, idx_ok hf, bind_ok]
  by_cases hfi : f > i
  · rw [if_pos hfi, upd_ok hlf, bind_ok] at e ⊢
    obtain ⟨m1, e1, e⟩ := bind_eq_ok.1 e
    cases e
    obtain ⟨m2, e2, s2⟩ := setCache_same (m := { m with firstOnLevel := m.firstOnLevel.set s.level i })
      (m' := { m0 with firstOnLevel := m.firstOnLevel.set s.level i })
      ⟨rfl, hs.cache, hs.clean⟩ e1
    refine ⟨1, m2, ?_, s2, ?_⟩
    · rw [e2]; rfl
    · obtain ⟨a1, a2, _⟩ := setCache_spent e2 his (by simp only [hs.cache]; exact hci)
      simp only at a1 a2
      omega
  · rw [if_neg hfi] at e ⊢
    have hfK : K f ∧ ∃ x, p.trail.steps[f]? = some x ∧ x.level = s.level := by
      rcases f1 with e | e
      · have := h.small; omega
      · exact e
    have hd : s.reason ≠ .decision := by
      intro hd
      obtain ⟨a, x, hx, hxl⟩ := hfK
      have hr := h.reasons i s h2
      unfold ReasonOK at hr
      rw [hd] at hr
      have := (h.trail.level f x hx s.level i hr.1 hr.2).1 (by omega)
      have e : f = i := by omega
      exact hK (e ▸ a)
    obtain ⟨⟨m1, b1⟩, e1, e⟩ := bind_eq_ok.1 e
    obtain ⟨m2, e2, e⟩ := bind_eq_ok.1 e
    cases e
    obtain ⟨m3, b3, e3, s3, _⟩ := redundantUncached_spec h d (hm1.same hs) hK (by omega) h2 hd h4
    obtain ⟨rfl, s4⟩ := redundantUncached_same hs e1 e3
    rw [← redundantUncachedT_erase] at e3
    obtain ⟨t, e3⟩ := map_snd_eq_ok e3
    obtain ⟨m4, e4, s5⟩ := setCache_same s4 e2
    have hsp := redundantUncachedT_spent h.earlier d e3 his (by rw [hs.cache]; exact hci)
    refine ⟨t + 1, m4, ?_, s5, ?_⟩
    · rw [e3, bind_ok]
      simp only
      rw [e4]; rfl
    · obtain ⟨a1, rfl⟩ := setCache_eq_ok e4
      have := potential_set (p := p) true his a1
      have := hsp.bound
      simp only [List.length_append, List.length_singleton]
      omega

theorem retainLoopT_ok (h : PInv n S p) (d : Nat) (ls : List Lit) : ∀ {m m0 m' : Minimize} {K : Nat → Prop} {bnd : Nat}
    {kept : List Lit}, MInv p K bnd m → (∀ l ∈ ls, ∃ i, At p.trail l i ∧ bnd ≤ i) →
    ls.Pairwise (fun a b => ∀ i j, At p.trail a i → At p.trail b j → i < j) → Same m m0 →
    retainLoop p ls m = .ok (m', kept) →
    ∃ t m2, retainLoopT p d ls m0 = .ok (t, m2, kept) ∧ Same m' m2 ∧
      t + m2.toClean.length + potential p m2.cache ≤
        m0.toClean.length + potential p m0.cache + 2 * ls.length := by
  induction ls with
  | nil => intro m m0 m' K bnd kept _ _ _ hs e; cases e; exact ⟨0, m0, rfl, hs, by simp⟩
  | cons l ls ih =>
    intro m m0 m' K bnd kept hm hls hpw hs e
    obtain ⟨i, hat, hbi⟩ := hls l (by simp)
    rw [List.pairwise_cons] at hpw
    have hnext : ∀ x ∈ ls, ∃ j, At p.trail x j ∧ i + 1 ≤ j := by
      intro x hx
      obtain ⟨j, hj, _⟩ := hls x (by simp [hx])
      exact ⟨j, hj, hpw.1 x hx i j hat hj⟩
    obtain ⟨m1, b, e1, q1, q2⟩ := retainLit_spec h (hm.raise hbi) hat
    obtain ⟨t1, m2, e2, s2, c2⟩ := retainLitT_ok h d (hm.raise hbi) hat hs e1
    obtain ⟨K', hm1⟩ : ∃ K', MInv p K' (i + 1) m1 := by
      cases b with
      | true => exact ⟨_, (q1 rfl).1⟩
      | false => exact ⟨_, (q2 rfl).1⟩
    unfold retainLoop at e
    rw [e1, bind_ok] at e
    obtain ⟨⟨m3, kept'⟩, e3, e⟩ := bind_eq_ok.1 e
    cases e
    obtain ⟨t2, m4, e4, s4, c4⟩ := ih hm1 hnext hpw.2 s2 e3
    refine ⟨t1 + t2, m4, ?_, s4, by simp only [List.length_cons]; omega⟩
    unfold retainLoopT
    rw [e2, bind_ok]
    simp only
    rw [e4, bind_ok]; rfl

theorem cleanCache_eq_ok (is : List Nat) : ∀ {c c' : List (Option Bool)}, cleanCache is c = .ok c' ↔
    (∀ i ∈ is, i < c.length) ∧ c' = is.foldl (fun c i => c.set i none) c := by
  induction is with
  | nil =>
    intro c c'
    simp only [cleanCache, List.foldl_nil]
    constructor
    · intro h; cases h; exact ⟨by simp, rfl⟩
    · rintro ⟨-, rfl⟩; rfl
  | cons i is ih =>
    intro c c'
    simp only [cleanCache, List.foldl_cons]
    constructor
    · intro h
      obtain ⟨c1, e1, h⟩ := bind_eq_ok.1 h
      obtain ⟨h1, rfl⟩ := upd_eq_ok.1 e1
      obtain ⟨h2, rfl⟩ := ih.1 h
      refine ⟨?_, rfl⟩
      intro y hy
      rcases List.mem_cons.1 hy with rfl | hy
      · exact h1
      · simpa using h2 y hy
    · rintro ⟨h1, rfl⟩
      rw [upd_ok (h1 i (by simp)), bind_ok, ih]
      exact ⟨fun y hy => by simpa using h1 y (by simp [hy]), rfl⟩

theorem cleanCache_perm {is is' : List Nat} (h : is'.Perm is) {c c' : List (Option Bool)}
    (e : cleanCache is c = .ok c') : cleanCache is' c = .ok c' := by
  obtain ⟨h1, rfl⟩ := (cleanCache_eq_ok _).1 e
  refine (cleanCache_eq_ok _).2 ⟨fun i hi => h1 i (h.mem_iff.1 hi), ?_⟩
  refine h.symm.foldl_eq' ?_ _
  intro x _ y _ c
  by_cases e : x = y
  · rw [e]
  · exact List.set_comm _ _ e

end Minimize

/-- Sum of the lengths of the reasons on the trail: the number of edges of the implication graph. -/
def graphSize (p : PropState) : Nat :=
  (p.trail.steps.map fun st => match p.reasonLits st.reason with
    | .ok rs => rs.length
    | .error _ => 0).sum

theorem sum_range_getElem? {α : Type} (l : List α) (f : α → Nat) :
    ∑ i ∈ Finset.range l.length, (l[i]?.map f).getD 0 = (l.map f).sum := by
  induction l with
  | nil => rfl
  | cons x l ih =>
    rw [List.length_cons, Finset.sum_range_succ']
    simp only [List.getElem?_cons_succ, List.getElem?_cons_zero, Option.map_some, Option.getD_some, List.map_cons,
      List.sum_cons]
    rw [ih]; omega

theorem potential_le (p : PropState) (c : List (Option Bool)) :
    potential p c ≤ 2 * graphSize p + 3 * p.trail.steps.length := by
  have h : potential p c ≤ ∑ i ∈ Finset.range p.trail.steps.length, (p.trail.steps[i]?.map fun st =>
      2 * (match p.reasonLits st.reason with
        | .ok rs => rs.length
        | .error _ => 0) + 3).getD 0 := by
    unfold potential
    refine Finset.sum_le_sum fun i hi => ?_
    rw [List.getElem?_eq_getElem (Finset.mem_range.1 hi)]
    simp only [Option.map_some, Option.getD_some, checkCost, List.getElem?_eq_getElem (Finset.mem_range.1 hi)]
    split
    · split <;> simp
    · omega
  rw [sum_range_getElem?] at h
  refine Nat.le_trans h ?_
  unfold graphSize
  generalize p.trail.steps = l
  induction l with
  | nil => simp
  | cons x l ih => simp only [List.map_cons, List.sum_cons, List.length_cons]; omega

/-- The literals of a derived clause in the order in which minimisation looks at them. -/
theorem sortByIndex_uip (h : PInv n S p) {c : List Lit} (hc : UipClause (F + L) p.trail c) (hlen : 1 < c.length) :
    ∃ keyed ini lst, Minimize.sortByIndex p.trail c = .ok keyed ∧ keyed.map (·.2) = ini ++ [lst] ∧
      ini.length + 1 = c.length ∧ (∀ l ∈ ini, ∃ i, At p.trail l i) ∧
      ini.Pairwise (fun a b => ∀ i j, At p.trail a i → At p.trail b j → i < j) := by
  obtain ⟨R, k, u, ec, hk, hu, hnd, hR⟩ := hc.split
  have hpos : 0 < p.trail.decisionLevel := by
    match R, ec, hR with
    | [], ec, _ => rw [ec] at hlen; simp at hlen
    | l :: R, _, hR =>
      obtain ⟨i, s, _, _, _, _⟩ := hR l (by simp)
      omega
  have hatu : At p.trail u.lit.neg k := by
    refine ⟨?_, u, hk, by simp, by omega⟩
    rw [Lit.index_neg]; exact h.trail.tix_pos hk (by omega)
  have hatR : ∀ l ∈ R, ∃ i s, At p.trail l i ∧ p.trail.steps[i]? = some s ∧
      s.level < p.trail.decisionLevel := by
    intro l hl
    obtain ⟨i, s, h1, h2, h3, h4⟩ := hR l hl
    refine ⟨i, s, ⟨?_, s, h1, h2, h3⟩, h1, h4⟩
    have := h.trail.tix_pos h1 (by omega)
    rwa [h2, Lit.index_neg] at this
  have hatc : ∀ l ∈ c, ∃ i, At p.trail l i := by
    intro l hl
    rw [ec] at hl
    rcases List.mem_append.1 hl with hl | hl
    · obtain ⟨i, _, ha, _⟩ := hatR l hl; exact ⟨i, ha⟩
    · simp at hl; subst hl; exact ⟨k, hatu⟩
  have hcnd : c.Nodup := by
    rw [ec, List.nodup_append]
    refine ⟨hnd, by simp, ?_⟩
    intro a ha b hb e
    simp only [List.mem_singleton] at hb
    subst hb e
    obtain ⟨i, s, h1, h2, h3⟩ := hatR _ ha
    have := h1.unique hatu
    subst this
    rw [hk] at h2
    cases h2
    omega
  obtain ⟨keyed, e2, k1, k2, k3⟩ := sortByIndex_spec (t := p.trail) c
    (fun l hl => by obtain ⟨i, ha⟩ := hatc l hl; exact ⟨i, ha.indexOf⟩)
  have hat : ∀ x ∈ keyed, At p.trail x.2 x.1 := by
    intro x hx
    obtain ⟨i, ha⟩ := hatc x.2 (k1.mem_iff.1 (List.mem_map_of_mem hx))
    have := ha.1
    rw [k3 x hx] at this
    injection this with this
    rw [this]; exact ha
  have hne : keyed.map (·.2) ≠ [] := by
    intro e
    have := k1.length_eq
    rw [e] at this; simp at this; omega
  have hpw : (keyed.map (·.2)).Pairwise (fun a b => ∀ i j, At p.trail a i → At p.trail b j → i < j) := by
    have hpl : (keyed.map (·.2)).Pairwise (fun a b => ∀ i j, At p.trail a i → At p.trail b j → i ≤ j) := by
      rw [List.pairwise_map]
      refine k2.imp_of_mem ?_
      intro a b ha hb hab i j hi hj
      have h1 := (hat a ha).unique hi
      have h2 := (hat b hb).unique hj
      omega
    refine List.Pairwise.imp₂ ?_ hpl (k1.nodup_iff.2 hcnd)
    intro a b hab hne i j hi hj
    rcases Nat.lt_or_ge i j with hij | hij
    · exact hij
    · have := hab i j hi hj
      have e : i = j := by omega
      subst e
      exact absurd (hi.inj hj) hne
  have hsp := List.dropLast_append_getLast hne
  refine ⟨keyed, (keyed.map (·.2)).dropLast, (keyed.map (·.2)).getLast hne, e2, hsp.symm, ?_, ?_, ?_⟩
  · have h1 := congrArg List.length hsp
    have h2 := k1.length_eq
    simp only [List.length_append, List.length_singleton] at h1
    omega
  · intro l hl
    exact hatc l (k1.mem_iff.1 (List.dropLast_subset _ hl))
  · exact hpw.sublist (List.dropLast_sublist _)

theorem minimizeT_ok (h : PInv n S p) (db : DBInv F L S p.binary p.trail.steps p.unsat) {m : Minimize} (hm : MinIdle m)
    {c : List Lit} (hc : UipClause (F + L) p.trail c) (hlen : 1 < c.length) (d : Nat) :
    ∃ t r, Minimize.minimizeT d m c p = .ok (t, r) ∧ m.minimize c p = .ok r ∧
      t ≤ 2 * graphSize p + 3 * p.trail.steps.length + 3 * c.length := by
  obtain ⟨m', c', lvl, e, -⟩ := minimize_spec h db hm hc hlen
  have e0 := e
  obtain ⟨keyed, ini, lst, ek, es, hl, hat, hpw⟩ := sortByIndex_uip h hc hlen
  obtain ⟨m1, e1, hm1⟩ := prepare_spec (p := p) hm
  unfold Minimize.minimize at e
  rw [e1, bind_ok, ek, bind_ok] at e
  simp only [es, List.getLast?_append, List.getLast?_singleton, Option.some_or, List.dropLast_concat] at e
  obtain ⟨⟨m2, kept⟩, e2, e⟩ := bind_eq_ok.1 e
  simp only at e
  obtain ⟨cache, e3, e⟩ := bind_eq_ok.1 e
  obtain ⟨f, e4, e⟩ := bind_eq_ok.1 e
  obtain ⟨t, m3, e5, s5, c5⟩ := Minimize.retainLoopT_ok h d ini hm1 (fun l hl => by
    obtain ⟨i, hi⟩ := hat l hl; exact ⟨i, hi, Nat.zero_le _⟩) hpw (Same.refl _) e2
  obtain ⟨_, kept', _, e6, _, hsub, _⟩ := retainLoop_spec h ini hm1 (fun l hl => by
    obtain ⟨i, hi⟩ := hat l hl; exact ⟨i, hi, Nat.zero_le _⟩) hpw
  rw [e2] at e6
  cases e6
  have hk := hsub.length_le
  refine ⟨t + m3.toClean.length + (kept ++ [lst]).length, (m', c', lvl), ?_, e0, ?_⟩
  · unfold Minimize.minimizeT
    rw [e1, bind_ok, ek, bind_ok]
    simp only [es, List.getLast?_append, List.getLast?_singleton, Option.some_or, List.dropLast_concat]
    rw [e5, bind_ok]
    simp only
    rw [s5.cache, Minimize.cleanCache_perm s5.clean e3, bind_ok, s5.first, e4, bind_ok]
    obtain ⟨l, e7, e⟩ := bind_eq_ok.1 e
    obtain ⟨st, e8, e⟩ := bind_eq_ok.1 e
    cases e
    rw [e7, bind_ok, e8]; rfl
  · have h1 := potential_le p m1.cache
    have h2 : m1.toClean = [] := by
      unfold Minimize.prepare at e1
      obtain ⟨x, _, e1⟩ := bind_eq_ok.1 e1
      cases e1
      exact hm.clean
    rw [h2] at c5
    simp only [List.length_append, List.length_singleton, List.length_nil] at c5 ⊢
    omega

end

/-! ## C66, C67 -/

section
variable {env : Env} {F : List (List Lit)} {s : Solver} {p1 p p' : PropState} {ctx : Ctx}
  {c : ConflictClause} {cb' : Callbacks}

theorem minimizeT_conflict (h : Solver.Propagating env F s p1 ctx p (some c)) (h0 : p.trail.decisionLevel ≠ 0)
    {an : Analysis} (e : Analysis.derive1uip env s.search.analysis p c s.search.cb = .ok (an, p', cb'))
    (hlen : 1 < an.derivedClause.length) (d : Nat) :
    ∃ t r, Minimize.minimizeT d an.minimize an.derivedClause p' = .ok (t, r) ∧
      an.minimize.minimize an.derivedClause p' = .ok r ∧
      t ≤ 2 * graphSize p' + 3 * p'.trail.steps.length + 3 * an.derivedClause.length := by
  obtain ⟨L, S, S2, hi, q⟩ := h.phase
  obtain ⟨an', p2, cb2, S3, e3, oh, _, _, hmin, uip⟩ := derive1uip_spec (env := env) q.inv
    q.inv.storedInv hi.an hi.cb (q.conflict c rfl) h0
  cases e.symm.trans e3
  have hi3 := oh.inv
  have db3 : storedBase S2 p + liveRed S2 = storedBase S3 p' + liveRed S3 := by
    obtain ⟨a, rfl⟩ := oh.eq
    unfold storedBase
    rw [oh.sim.liveIrr, oh.sim.liveRed]
  have htr : p'.trail = p.trail := by obtain ⟨a, rfl⟩ := oh.eq; rfl
  rw [← htr, db3] at uip
  exact minimizeT_ok hi3 hi3.storedInv (by rw [hmin]; exact hi.min) uip hlen d

/-- C66: minimisation takes linear time: whatever the limit of the recursion depth, the number of iterations of its
loops and of calls is at most twice the number of edges of the implication graph plus three times the number of
literals on the trail and in the clause. -/
theorem C66_linear (h : Solver.Propagating env F s p1 ctx p (some c)) (h0 : p.trail.decisionLevel ≠ 0)
    {an : Analysis} (e : Analysis.derive1uip env s.search.analysis p c s.search.cb = .ok (an, p', cb'))
    (hlen : 1 < an.derivedClause.length) (d : Nat) :
    ∃ t r, Minimize.minimizeT d an.minimize an.derivedClause p' = .ok (t, r) ∧
      t ≤ 2 * graphSize p' + 3 * p'.trail.steps.length + 3 * an.derivedClause.length := by
  obtain ⟨t, r, h1, _, h2⟩ := minimizeT_conflict h h0 e hlen d
  exact ⟨t, r, h1, h2⟩

/-- C66: the counted function is the one of the model. -/
theorem C66_counted (m : Minimize) (clause : List Lit) (p : PropState) :
    Except.map Prod.snd (Minimize.minimizeT 21 m clause p) = Minimize.minimize m clause p :=
  Minimize.minimizeT_erase m clause p

/-- C67: the limit of the recursion depth at which the iterative check takes over has no influence on the result: the
clause, the level and all buffers are the same for every limit. -/
theorem C67_limit (h : Solver.Propagating env F s p1 ctx p (some c)) (h0 : p.trail.decisionLevel ≠ 0)
    {an : Analysis} (e : Analysis.derive1uip env s.search.analysis p c s.search.cb = .ok (an, p', cb'))
    (hlen : 1 < an.derivedClause.length) (d : Nat) :
    Except.map Prod.snd (Minimize.minimizeT d an.minimize an.derivedClause p') =
      an.minimize.minimize an.derivedClause p' := by
  obtain ⟨t, r, h1, h2, _⟩ := minimizeT_conflict h h0 e hlen d
  rw [h1, h2]; rfl

end

/-- The hypotheses of C66 and C67 are met by a conflict with the clause `1 6 5`.  `6` is removed, as its negation follows
from that of `4`, that from that of `2`, and that from that of `1`; with the limit 0 the iterative search finds this. -/
theorem C66_example : ∃ s p1 ctx p c an p' cb', Solver.Propagating Example.env
    (Example.cnf [[1, -2], [2, -4], [4, -6], [5, 1, 6, 3], [5, 1, 6, -3]]) s p1 ctx p (some c) ∧ p.trail.decisionLevel = 2 ∧
    Analysis.derive1uip Example.env s.search.analysis p c s.search.cb = .ok (an, p', cb') ∧
    an.derivedClause = [1, 6, 5].map Example.lit ∧ graphSize p' = 6 ∧ p'.trail.steps.length = 6 ∧
    (∃ r, Minimize.minimizeT 21 an.minimize an.derivedClause p' = .ok (17, r) ∧ r.2.1 = [5, 1].map Example.lit) ∧
    ∃ r, Minimize.minimizeT 0 an.minimize an.derivedClause p' = .ok (17, r) ∧ r.2.1 = [5, 1].map Example.lit := by
  have h : (do
      let x ← Example.mid [[1, -2], [2, -4], [4, -6], [5, 1, 6, 3], [5, 1, 6, -3]] 2
      match x.2.2.2.2 with
      | none => throw .panic
      | some c => do
        let y ← Analysis.derive1uip Example.env x.1.search.analysis x.2.2.2.1 c x.1.search.cb
        let z ← Minimize.minimizeT 21 y.1.minimize y.1.derivedClause y.2.1
        let w ← Minimize.minimizeT 0 y.1.minimize y.1.derivedClause y.2.1
        pure ([x.2.2.2.1.trail.decisionLevel, graphSize y.2.1, y.2.1.trail.steps.length, z.1, w.1],
          [y.1.derivedClause, z.2.2.1, w.2.2.1]) : M (List Nat × List (List Lit))) =
      .ok ([2, 6, 6, 17, 17], [[1, 6, 5].map Example.lit, [5, 1].map Example.lit, [5, 1].map Example.lit]) := by
    decide +kernel
  obtain ⟨⟨s, p1, ctx, p, r⟩, h1, h2⟩ := bind_eq_ok.1 h
  cases r with
  | none => cases h2
  | some c =>
    simp only at h2
    obtain ⟨⟨an, p', cb'⟩, h3, h2⟩ := bind_eq_ok.1 h2
    obtain ⟨⟨t, r⟩, h4, h2⟩ := bind_eq_ok.1 h2
    obtain ⟨⟨t', r'⟩, h5, h2⟩ := bind_eq_ok.1 h2
    have h2 := Except.ok.inj h2
    simp only [Prod.mk.injEq, List.cons.injEq, and_true] at h2
    obtain ⟨⟨a1, a3, a4, rfl, rfl⟩, a2, a5, a6⟩ := h2
    exact ⟨s, p1, ctx, p, c, an, p', cb', Example.mid_propagating (by decide +kernel) h1, a1, h3, a2, a3, a4,
      ⟨r, h4, a5⟩, r', h5, a6⟩

/-- For C67: the limit 0 and the limit of the code in the same conflict. -/
theorem C67_example : ∃ s p1 ctx p c an p' cb', Solver.Propagating Example.env
    (Example.cnf [[1, -2], [2, -4], [4, -6], [5, 1, 6, 3], [5, 1, 6, -3]]) s p1 ctx p (some c) ∧
    p.trail.decisionLevel ≠ 0 ∧ Analysis.derive1uip Example.env s.search.analysis p c s.search.cb = .ok (an, p', cb') ∧
    1 < an.derivedClause.length ∧ ∃ r, an.minimize.minimize an.derivedClause p' = .ok r ∧
    Except.map Prod.snd (Minimize.minimizeT 0 an.minimize an.derivedClause p') = .ok r ∧
    r.2.1 = [5, 1].map Example.lit := by
  obtain ⟨s, p1, ctx, p, c, an, p', cb', h1, h2, h3, h4, _, _, ⟨r, h5, h6⟩, _⟩ := C66_example
  have h7 := C66_counted an.minimize an.derivedClause p'
  rw [h5] at h7
  refine ⟨s, p1, ctx, p, c, an, p', cb', h1, by omega, h3, by rw [h4]; decide, r, h7.symm, ?_, h6⟩
  rw [C67_limit h1 (by omega) h3 (by rw [h4]; decide) 0]
  exact h7.symm

end Starlit
