import Verif.Props.HeapCost
import Verif.Solver.Solve
import Verif.Solver.Example

/-!
# C104: adding clauses takes linear time

`add_clause` again with the number of steps: iterations of loops, entries that are appended to a
vector, words that are written to the arena.
-/

namespace Starlit

namespace Heap

variable {V : Type} [LinearOrder V]

/-- `dequeueRange` (`/repo/starlit/src/heap.rs:58-60`) with the number of steps. -/
def dequeueRangeT (h : Heap V) (i : Nat) : Nat → M (Nat × Heap V)
  | 0 => pure (0, h)
  | k + 1 => do
    let (t, h) ← h.dequeueT i
    let (u, h) ← h.dequeueRangeT (i + 1) k
    pure (t + 1 + u, h)

/-- `enqueueRange` (`/repo/starlit/src/heap.rs:77-79`) with the number of steps. -/
def enqueueRangeT (h : Heap V) (i : Nat) : Nat → M (Nat × Heap V)
  | 0 => pure (0, h)
  | k + 1 => do
    let (t, h) ← h.enqueueT i
    let (u, h) ← h.enqueueRangeT (i + 1) k
    pure (t + 1 + u, h)

/-- `Vec::resize`: entries that are appended or dropped. -/
def resizeListT {α : Type} (v : List α) (len : Nat) (x : α) : Nat × List α :=
  ((len - v.length) + (v.length - len), resizeList v len x)

/-- `resize` (`/repo/starlit/src/heap.rs:51-65`) with the number of steps. -/
def resizeT (h : Heap V) (len : Nat) (value : V) : M (Nat × Heap V) := do
  assertM (decide (len ≤ 2 ^ 32))
  let (t, h) ← if len < h.values.length then h.dequeueRangeT len (h.values.length - len) else pure (0, h)
  let (u, values) := resizeListT h.values len value
  let (v, heapPos) := resizeListT h.heapPos len NONE
  pure (t + u + v, { h with values, heapPos })

/-- `resize_enqueued` (`/repo/starlit/src/heap.rs:71-80`) with the number of steps. -/
def resizeEnqueuedT (h : Heap V) (len : Nat) (value : V) : M (Nat × Heap V) := do
  let old := h.values.length
  let (t, h) ← h.resizeT len value
  let (u, h) ← h.enqueueRangeT old (len - old)
  pure (t + u, h)

theorem dequeueRangeT_erase (k : Nat) : ∀ (h : Heap V) (i : Nat),
    Except.map Prod.snd (h.dequeueRangeT i k) = h.dequeueRange i k := by
  induction k with
  | zero => intro h i; rfl
  | succ k ih =>
    intro h i
    unfold dequeueRangeT dequeueRange
    rw [← dequeueT_erase]
    cases h.dequeueT i with
    | error e => rfl
    | ok r =>
      simp only [bind_ok, Except.map]
      rw [← ih]
      cases r.2.dequeueRangeT (i + 1) k <;> rfl

theorem enqueueRangeT_erase (k : Nat) : ∀ (h : Heap V) (i : Nat),
    Except.map Prod.snd (h.enqueueRangeT i k) = h.enqueueRange i k := by
  induction k with
  | zero => intro h i; rfl
  | succ k ih =>
    intro h i
    unfold enqueueRangeT enqueueRange
    rw [← enqueueT_erase]
    cases h.enqueueT i with
    | error e => rfl
    | ok r =>
      simp only [bind_ok, Except.map]
      rw [← ih]
      cases r.2.enqueueRangeT (i + 1) k <;> rfl

theorem resizeT_erase (h : Heap V) (n : Nat) (x : V) :
    Except.map Prod.snd (h.resizeT n x) = h.resize n x := by
  unfold resizeT resize
  cases assertM (decide (n ≤ 2 ^ 32)) with
  | error e => rfl
  | ok u =>
    simp only [bind_ok]
    by_cases hl : n < h.values.length
    · rw [if_pos hl, if_pos hl, ← dequeueRangeT_erase]
      cases h.dequeueRangeT n (h.values.length - n) <;> rfl
    · rw [if_neg hl, if_neg hl]; rfl

theorem resizeEnqueuedT_erase (h : Heap V) (n : Nat) (x : V) :
    Except.map Prod.snd (h.resizeEnqueuedT n x) = h.resizeEnqueued n x := by
  unfold resizeEnqueuedT resizeEnqueued
  simp only
  rw [← resizeT_erase]
  cases h.resizeT n x with
  | error e => rfl
  | ok r =>
    simp only [bind_ok, Except.map]
    rw [← enqueueRangeT_erase]
    cases r.2.enqueueRangeT h.values.length (n - h.values.length) <;> rfl

/-- A key with the least value stays at the end: one comparison. -/
theorem rootLoopT_least {v : V} (hv : ∀ y : V, ¬ y < v) (fuel : Nat) {h h' : Heap V} {pos t : Nat}
    (e : rootLoopT v fuel h pos = .ok (t, h')) : t ≤ 1 := by
  cases fuel with
  | zero =>
    unfold rootLoopT at e
    split at e
    · cases e; omega
    · cases e
  | succ fuel =>
    unfold rootLoopT at e
    split at e
    · obtain ⟨pv, _, e⟩ := bind_eq_ok.1 e
      rw [if_neg (hv pv)] at e
      cases e; omega
    · cases e; omega

theorem enqueueT_least {v : V} (hv : ∀ y : V, ¬ y < v) {h h' : Heap V} {i t : Nat}
    (hi : i < 2 ^ 32) (hx : h.values[i]? = some v) (e : h.enqueueT i = .ok (t, h')) : t ≤ 1 := by
  unfold enqueueT at e
  obtain ⟨pos, _, e⟩ := bind_eq_ok.1 e
  split at e
  · cases e; omega
  · obtain ⟨hp, _, e⟩ := bind_eq_ok.1 e
    unfold moveTowardsRootT at e
    obtain ⟨w, e1, e⟩ := bind_eq_ok.1 e
    have : w = v := by
      unfold valueAt at e1
      obtain ⟨x, e2, e1⟩ := bind_eq_ok.1 e1
      have e2 := idx_eq_ok.1 e2
      rw [List.getElem?_append_right (Nat.le_refl _)] at e2
      simp only [Nat.sub_self, List.getElem?_cons_zero, Option.some.injEq] at e2
      rw [Nat.mod_eq_of_lt hi] at e2
      have e1 := idx_eq_ok.1 e1
      simp only at e1
      rw [← e2, hx] at e1
      exact (Option.some.inj e1).symm
    rw [this] at e
    exact rootLoopT_least hv _ e

theorem enqueueRangeT_least {v : V} (hv : ∀ y : V, ¬ y < v) (k : Nat) : ∀ {h h' : Heap V} {i t : Nat},
    h.WF → i + k ≤ h.values.length → (∀ j, i ≤ j → j < i + k → h.values[j]? = some v) →
    h.enqueueRangeT i k = .ok (t, h') → t ≤ 2 * k := by
  induction k with
  | zero => intro h h' i t _ _ _ e; cases e; omega
  | succ k ih =>
    intro h h' i t w hk hx e
    unfold enqueueRangeT at e
    obtain ⟨⟨t1, h1⟩, e1, e⟩ := bind_eq_ok.1 e
    obtain ⟨⟨t2, h2⟩, e2, e⟩ := bind_eq_ok.1 e
    cases e
    have hs := w.small
    have := enqueueT_least hv (by omega) (hx i (Nat.le_refl _) (by omega)) e1
    obtain ⟨h1', e1', w1, v1, _⟩ := enqueue_ok w (x := i) (by omega)
    have er := enqueueT_erase h i
    rw [e1, e1'] at er
    have : h1 = h1' := by simpa [Except.map] using er
    subst this
    have := ih w1 (by rw [v1]; omega) (by intro j h1 h2; rw [v1]; exact hx j (by omega) (by omega)) e2
    omega

/-- Growing the heap with keys of the least value takes four steps for each of them. -/
theorem resizeEnqueuedT_least {v : V} (hv : ∀ y : V, ¬ y < v) {h h' : Heap V} {n t : Nat} (w : h.WF)
    (hn : h.values.length ≤ n) (e : h.resizeEnqueuedT n v = .ok (t, h')) :
    t ≤ 4 * (n - h.values.length) := by
  unfold resizeEnqueuedT at e
  simp only at e
  obtain ⟨⟨t1, h1⟩, e1, e⟩ := bind_eq_ok.1 e
  obtain ⟨⟨t2, h2⟩, e2, e⟩ := bind_eq_ok.1 e
  cases e
  have hn32 : n ≤ 2 ^ 32 := by
    unfold resizeT at e1
    obtain ⟨_, e0, _⟩ := bind_eq_ok.1 e1
    unfold assertM at e0
    split at e0
    · next hb => simpa using hb
    · cases e0
  obtain ⟨h1', e1', w1, v1, _, _⟩ := resize_ok w v hn32
  have er := resizeT_erase h n v
  rw [e1, e1'] at er
  have : h1 = h1' := by simpa [Except.map] using er
  subst this
  have ht1 : t1 ≤ 2 * (n - h.values.length) := by
    unfold resizeT at e1
    obtain ⟨_, _, e1⟩ := bind_eq_ok.1 e1
    rw [if_neg (by omega)] at e1
    cases e1
    have := w.len
    show 0 + (n - h.values.length + (h.values.length - n)) + (n - h.heapPos.length + (h.heapPos.length - n)) ≤ _
    omega
  have := enqueueRangeT_least hv (n - h.values.length) w1
    (by rw [v1, resizeList_length]; omega)
    (by
      intro j h1 h2
      rw [v1, resizeList_get _ _ _ _ (by omega), List.getD_eq_getElem?_getD,
        List.getElem?_eq_none h1]
      rfl) e2
  omega

end Heap

open Heap (resizeListT)

/-- `resize` (`/repo/starlit/src/prop.rs:33-40`, `partial_assignment.rs:74-82`, `prop/binary.rs:28-32`,
`prop/watch.rs:122-126`, `prop/trail.rs:158-162`) with the number of steps. -/
def PropState.resizeT (p : PropState) (n : Nat) : Nat × PropState :=
  let (b, binary) := resizeListT p.binary (n * 2) []
  let (w, byLit) := resizeListT p.watches.byLit (n * 2) []
  let (x, trailIndex) := resizeListT p.trail.trailIndex n UNASSIGNED
  ((n - p.values.assigned.length) + (p.values.assigned.length - n) + b + w + x,
    { p with
      values := p.values.resize n
      binary := binary
      watches := { p.watches with byLit := byLit }
      trail := { p.trail with trailIndex := trailIndex } })

namespace Solver

/-- `resize` (`/repo/starlit/src/state.rs:23-27`, `search.rs:32-38`, `search/vsids.rs:75-79`,
`search/phases.rs:17-21`) with the number of steps. -/
def resizeT (s : Solver) (n : Nat) : M (Nat × Solver) := do
  let (t, activity) ← s.search.cb.vsids.activity.resizeEnqueuedT n 0
  let (u, prop) := s.search.prop.resizeT n
  let (v, phases) := resizeListT s.search.cb.phases n false
  pure (t + u + v, { s with search := { s.search with
    prop := prop
    cb := { vsids := { s.search.cb.vsids with activity := activity }, phases := phases } } })

/-- `if self.ctx.stats.formula.vars < var_count { .. }` (`/repo/starlit/src/solver.rs:32-35`) with the
number of steps. -/
def ensureVarsT (s : Solver) (n : Nat) : M (Nat × Solver) :=
  if s.ctx.formula.vars < n then
    resizeT { s with ctx := { s.ctx with formula := { s.ctx.formula with vars := n } } } n
  else pure (0, s)

/-- The words and entries that `add_clause_verbatim` (`/repo/starlit/src/prop.rs:85-128`) writes: an
assignment and a step of the trail, two entries of binary lists, or the header, the length and the
literals in the arena and two watches. -/
def verbatimSteps : List Lit → Nat
  | [] => 0
  | [_] => 2
  | [_, _] => 2
  | ls => Long.hl + 1 + ls.length + 2

/-- `add_clause` (`/repo/starlit/src/solver.rs:23-43`) with the number of steps; the maximum in line
26 looks at every literal. -/
def addClauseT (s : Solver) (ls : List Lit) : M (Nat × Solver) := do
  let (t, s) ← s.ensureVarsT (varCount ls)
  let (ctx, p, _) ← addClauseVerbatim s.ctx s.search.prop .newInputClause ls
  pure (ls.length + t + verbatimSteps ls, { s with ctx := ctx, search := { s.search with prop := p } })

/-- `add_clause` for each of a list of clauses, with the number of steps. -/
def addClausesT (s : Solver) : List (List Lit) → M (Nat × Solver)
  | [] => pure (0, s)
  | c :: cs => do
    let (t, s) ← s.addClauseT c
    let (u, s) ← addClausesT s cs
    pure (t + u, s)

theorem resizeT_erase (s : Solver) (n : Nat) : Except.map Prod.snd (s.resizeT n) = s.resize n := by
  unfold resizeT resize
  rw [← Heap.resizeEnqueuedT_erase]
  cases s.search.cb.vsids.activity.resizeEnqueuedT n 0 <;> rfl

theorem ensureVarsT_erase (s : Solver) (n : Nat) :
    Except.map Prod.snd (s.ensureVarsT n) = s.ensureVars n := by
  unfold ensureVarsT ensureVars
  split
  · exact resizeT_erase _ _
  · rfl

theorem addClauseT_erase (s : Solver) (ls : List Lit) :
    Except.map Prod.snd (s.addClauseT ls) = s.addClause ls := by
  unfold addClauseT addClause
  rw [← ensureVarsT_erase]
  cases s.ensureVarsT (varCount ls) with
  | error e => rfl
  | ok r =>
    simp only [bind_ok, Except.map]
    cases addClauseVerbatim r.2.ctx r.2.search.prop .newInputClause ls <;> rfl

theorem addClausesT_erase (Ls : List (List Lit)) : ∀ s : Solver,
    Except.map Prod.snd (s.addClausesT Ls) = s.addClauses Ls := by
  induction Ls with
  | nil => intro s; rfl
  | cons c cs ih =>
    intro s
    unfold addClausesT addClauses
    rw [← addClauseT_erase]
    cases s.addClauseT c with
    | error e => rfl
    | ok r =>
      simp only [bind_ok, Except.map]
      rw [← ih]
      cases r.2.addClausesT cs <;> rfl

/-- All vectors of the solver have the size that the number of variables asks for. -/
structure Fitted (s : Solver) : Prop where
  values : s.search.prop.values.assigned.length = s.ctx.formula.vars
  tix : s.search.prop.trail.trailIndex.length = s.ctx.formula.vars
  bin : s.search.prop.binary.length = s.ctx.formula.vars * 2
  wat : s.search.prop.watches.byLit.length = s.ctx.formula.vars * 2
  wf : s.search.cb.vsids.activity.WF
  act : s.search.cb.vsids.activity.values.length = s.ctx.formula.vars
  phases : s.search.cb.phases.length = s.ctx.formula.vars

theorem Reachable.fitted {env : Env} {F : List (List Lit)} {s : Solver} (h : Solver.Reachable env F s) :
    s.Fitted := by
  obtain ⟨L, S, h⟩ := h.inv
  have hv := h.stats.vars
  have hs := h.prop.sized
  exact ⟨by rw [hs.values, hv], by rw [hs.tix, hv], by rw [hs.bin, hv], by rw [hs.wat, hv], h.cb.wf,
    by rw [h.cb.len, hv], by rw [h.cb.phases, hv]⟩

theorem ensureVarsT_le {s s' : Solver} (h : s.Fitted) {n t : Nat} (e : s.ensureVarsT n = .ok (t, s')) :
    s'.Fitted ∧ s'.ctx.formula.vars = max s.ctx.formula.vars n ∧
      t ≤ 11 * (s'.ctx.formula.vars - s.ctx.formula.vars) := by
  unfold ensureVarsT at e
  split at e
  · next hlt =>
    unfold resizeT at e
    obtain ⟨⟨t1, a⟩, e1, e⟩ := bind_eq_ok.1 e
    simp only at e1
    have ht := Heap.resizeEnqueuedT_least (v := (0 : Nat)) (by intro y; omega) h.wf
      (by rw [h.act]; omega) e1
    have hn : n ≤ 2 ^ 32 := by
      unfold Heap.resizeEnqueuedT Heap.resizeT at e1
      obtain ⟨_, e2, _⟩ := bind_eq_ok.1 e1
      obtain ⟨_, e0, _⟩ := bind_eq_ok.1 e2
      unfold assertM at e0
      split at e0
      · next hb => simpa using hb
      · cases e0
    obtain ⟨a', e2, w', v', _⟩ := Heap.resizeEnqueued_ok h.wf (0 : Nat) hn
    have er := Heap.resizeEnqueuedT_erase s.search.cb.vsids.activity n 0
    rw [e1, e2] at er
    have : a = a' := by simpa [Except.map] using er
    subst this
    cases e
    refine ⟨⟨?_, ?_, ?_, ?_, w', ?_, ?_⟩, ?_, ?_⟩
    · exact PartialAssignment.resize_length _ _
    · exact Heap.resizeList_length _ _ _
    · exact Heap.resizeList_length _ _ _
    · exact Heap.resizeList_length _ _ _
    · show a.values.length = n
      rw [v', Heap.resizeList_length]
    · exact Heap.resizeList_length _ _ _
    · show n = _; omega
    · show t1 + ((n - s.search.prop.values.assigned.length) + (s.search.prop.values.assigned.length - n) +
          ((n * 2 - s.search.prop.binary.length) + (s.search.prop.binary.length - n * 2)) +
          ((n * 2 - s.search.prop.watches.byLit.length) + (s.search.prop.watches.byLit.length - n * 2)) +
          ((n - s.search.prop.trail.trailIndex.length) + (s.search.prop.trail.trailIndex.length - n))) +
          ((n - s.search.cb.phases.length) + (s.search.cb.phases.length - n)) ≤ 11 * (n - s.ctx.formula.vars)
      rw [h.act] at ht
      rw [h.values, h.bin, h.wat, h.tix, h.phases]
      omega
  · cases e
    exact ⟨h, by omega, by omega⟩

theorem addClauseVerbatim_lengths {ctx ctx' : Ctx} {p p' : PropState} {hd : LongHeader} {ls : List Lit}
    {a : AddedClause} (e : addClauseVerbatim ctx p hd ls = .ok (ctx', p', a)) :
    p'.values.assigned.length = p.values.assigned.length ∧
    p'.trail.trailIndex.length = p.trail.trailIndex.length ∧
    p'.binary.length = p.binary.length ∧ p'.watches.byLit.length = p.watches.byLit.length ∧
    ctx'.formula.vars = ctx.formula.vars := by
  have upd_len : ∀ {α : Type} {v w : List α} {i : Nat} {x : α}, upd v i x = .ok w → w.length = v.length := by
    intro α v w i x e
    have := (upd_eq_ok.1 e).2
    subst this; simp
  match ls, e with
  | [], e => cases e; exact ⟨rfl, rfl, rfl, rfl, rfl⟩
  | [l], e =>
    simp only [addClauseVerbatim] at e
    obtain ⟨b, _, e⟩ := bind_eq_ok.1 e
    cases b with
    | true => cases e; exact ⟨rfl, rfl, rfl, rfl, rfl⟩
    | false =>
      obtain ⟨q, e1, e⟩ := bind_eq_ok.1 e
      cases e
      unfold PropState.assignUnit at e1
      split at e1
      · obtain ⟨ti, e2, e1⟩ := bind_eq_ok.1 e1
        obtain ⟨vs, e3, e1⟩ := bind_eq_ok.1 e1
        cases e1
        obtain ⟨as, e4, e3⟩ := bind_eq_ok.1 e3
        cases e3
        exact ⟨upd_len e4, upd_len e2, rfl, rfl, rfl⟩
      · cases e1
  | [l, m], e =>
    simp only [addClauseVerbatim] at e
    obtain ⟨b, e1, e⟩ := bind_eq_ok.1 e
    cases e
    unfold binaryAdd at e1
    obtain ⟨_, _, e1⟩ := bind_eq_ok.1 e1
    obtain ⟨b1, e2, e1⟩ := bind_eq_ok.1 e1
    obtain ⟨_, _, e1⟩ := bind_eq_ok.1 e1
    exact ⟨rfl, rfl, (upd_len e1).trans (upd_len e2), rfl, rfl⟩
  | l :: m :: k :: ls, e =>
    simp only [addClauseVerbatim] at e
    obtain ⟨r, e1, e⟩ := bind_eq_ok.1 e
    cases r with
    | none => cases e
    | some r =>
      obtain ⟨w, e2, e⟩ := bind_eq_ok.1 e
      cases e
      refine ⟨rfl, rfl, rfl, ?_, by cases hd.redundant <;> rfl⟩
      unfold Watches.watchClause at e2
      split at e2
      · obtain ⟨w1, e3, e2⟩ := bind_eq_ok.1 e2
        unfold Watches.push at e2 e3
        obtain ⟨_, _, e3⟩ := bind_eq_ok.1 e3
        obtain ⟨_, _, e3⟩ := bind_eq_ok.1 e3
        obtain ⟨_, _, e2⟩ := bind_eq_ok.1 e2
        obtain ⟨_, _, e2⟩ := bind_eq_ok.1 e2
        obtain ⟨c1, f4, e3⟩ := bind_eq_ok.1 e3
        obtain ⟨c2, f5, e2⟩ := bind_eq_ok.1 e2
        cases e3; cases e2
        exact (upd_len f5).trans (upd_len f4)
      · cases e2; rfl

theorem addClauseT_le {s s' : Solver} (h : s.Fitted) {c : List Lit} {t : Nat}
    (e : s.addClauseT c = .ok (t, s')) :
    s'.Fitted ∧ s'.ctx.formula.vars = max s.ctx.formula.vars (varCount c) ∧
      t ≤ 2 * c.length + 5 + 11 * (s'.ctx.formula.vars - s.ctx.formula.vars) := by
  unfold addClauseT at e
  obtain ⟨⟨t1, s1⟩, e1, e⟩ := bind_eq_ok.1 e
  obtain ⟨⟨ctx, p, a⟩, e2, e⟩ := bind_eq_ok.1 e
  cases e
  obtain ⟨h1, hv, ht⟩ := ensureVarsT_le h e1
  obtain ⟨q1, q2, q3, q4, q5⟩ := addClauseVerbatim_lengths e2
  simp only at q1 q2 q3 q4 q5 ⊢
  refine ⟨⟨?_, ?_, ?_, ?_, h1.wf, ?_, ?_⟩, by rw [q5, hv], ?_⟩
  · show p.values.assigned.length = ctx.formula.vars
    rw [q1, q5, h1.values]
  · show p.trail.trailIndex.length = ctx.formula.vars
    rw [q2, q5, h1.tix]
  · show p.binary.length = ctx.formula.vars * 2
    rw [q3, q5, h1.bin]
  · show p.watches.byLit.length = ctx.formula.vars * 2
    rw [q4, q5, h1.wat]
  · show s1.search.cb.vsids.activity.values.length = ctx.formula.vars
    rw [q5, h1.act]
  · show s1.search.cb.phases.length = ctx.formula.vars
    rw [q5, h1.phases]
  · have : verbatimSteps c ≤ c.length + 5 := by
      match c with
      | [] => simp [verbatimSteps]
      | [_] => simp [verbatimSteps]
      | [_, _] => simp [verbatimSteps]
      | _ :: _ :: _ :: _ => simp [verbatimSteps, Long.hl]; omega
    rw [q5]
    omega

theorem addClausesT_le (Ls : List (List Lit)) : ∀ {s s' : Solver} {t : Nat}, s.Fitted →
    s.addClausesT Ls = .ok (t, s') →
    s'.Fitted ∧ s.ctx.formula.vars ≤ s'.ctx.formula.vars ∧
      s'.ctx.formula.vars = (Ls.map varCount).foldl max s.ctx.formula.vars ∧
      t ≤ 2 * (Ls.map List.length).sum + 5 * Ls.length + 11 * (s'.ctx.formula.vars - s.ctx.formula.vars) := by
  induction Ls with
  | nil => intro s s' t h e; cases e; exact ⟨h, Nat.le_refl _, rfl, by omega⟩
  | cons c cs ih =>
    intro s s' t h e
    unfold addClausesT at e
    obtain ⟨⟨t1, s1⟩, e1, e⟩ := bind_eq_ok.1 e
    obtain ⟨⟨t2, s2⟩, e2, e⟩ := bind_eq_ok.1 e
    cases e
    obtain ⟨h1, v1, b1⟩ := addClauseT_le h e1
    obtain ⟨h2, v2, w2, b2⟩ := ih h1 e2
    refine ⟨h2, by omega, by rw [w2, v1]; rfl, ?_⟩
    simp only [List.map_cons, List.sum_cons, List.length_cons]
    omega

end Solver

section
variable {env : Env} {F : List (List Lit)} {s s' : Solver}

/-- C104: in every state of every run, adding clauses takes at most two steps for each literal, five
for each clause and eleven for each variable that is new.  In particular variables are enqueued in
constant time. -/
theorem C104_add (h : Solver.Reachable env F s) (Ls : List (List Lit)) {t : Nat}
    (e : s.addClausesT Ls = .ok (t, s')) :
    t ≤ 2 * (Ls.map List.length).sum + 5 * Ls.length + 11 * (s'.ctx.formula.vars - s.ctx.formula.vars) :=
  (Solver.addClausesT_le Ls h.fitted e).2.2.2

/-- C104: reading a formula into a new solver is linear in literals, clauses and the largest
variable. -/
theorem C104_new (Ls : List (List Lit)) {t : Nat}
    (e : (Solver.default env).addClausesT Ls = .ok (t, s')) :
    t ≤ 2 * (Ls.map List.length).sum + 5 * Ls.length + 11 * formulaVars Ls := by
  have h := Solver.addClausesT_le Ls (Solver.Reachable.fitted (.input .new)) e
  have h1 := h.2.2.2
  have h2 := h.2.2.1
  have h3 : (Solver.default env).ctx.formula.vars = 0 := rfl
  rw [h3] at h1 h2
  rw [h2] at h1
  unfold formulaVars
  omega

/-- C104: the counted functions are those of the model. -/
theorem C104_counted (s : Solver) (Ls : List (List Lit)) :
    Except.map Prod.snd (s.addClausesT Ls) = s.addClauses Ls := Solver.addClausesT_erase Ls s

end

/-- Reading six clauses with variables in increasing order, as many new variables as possible each time:
101 steps, and at most 126 by the bound. -/
theorem C104_example : ((Solver.default Example.env).addClausesT
      (Example.cnf [[1], [-1, 2], [-2, 3], [-3, 4], [-4, 5], [-1, -2, -3, -4, -5, 6]])).map Prod.fst = .ok 101 ∧
    2 * ((Example.cnf [[1], [-1, 2], [-2, 3], [-3, 4], [-4, 5], [-1, -2, -3, -4, -5, 6]]).map List.length).sum +
      5 * 6 + 11 * formulaVars (Example.cnf [[1], [-1, 2], [-2, 3], [-3, 4], [-4, 5], [-1, -2, -3, -4, -5, 6]]) = 126 := by
  decide +kernel

end Starlit
