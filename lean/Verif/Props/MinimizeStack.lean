import Verif.Solver.MinimizeStack
import Verif.Props.Linear

/-!
# C108: the stack of clause minimisation
-/

namespace Starlit

namespace Minimize

section
variable {env : Env} {F : List (List Lit)} {n : Nat} {S : List LC} {p : PropState} {cb : Callbacks}

theorem drainStack_eq (st : List Frame) : ∀ m : Minimize,
    m.drainStack st = Except.map (fun m => (m, [])) (m.failStack st) := by
  induction st with
  | nil => intro m; rfl
  | cons f st ih =>
    intro m
    obtain ⟨i, ls⟩ := f
    unfold drainStack failStack
    cases m.setCache i false with
    | error => rfl
    | ok m1 => simp only [bind_ok]; exact ih m1

/-- Keeping the buffer does not change the search. -/
theorem iterLoopS_erase (p : PropState) (fuel : Nat) : ∀ (m : Minimize) (stack : List Frame) (i : Nat) (ls : List Lit),
    Except.map Prod.fst (iterLoopS p fuel m stack i ls) = iterLoop p fuel m stack i ls := by
  induction fuel with
  | zero => intros; rfl
  | succ fuel ih =>
    intro m stack i ls
    cases ls with
    | nil =>
      unfold iterLoopS iterLoop
      cases m.setCache i true with
      | error => rfl
      | ok m1 =>
        simp only [bind_ok]
        cases stack with
        | nil => rfl
        | cons f stack =>
          simp only
          rw [← ih]
          cases iterLoopS p fuel m1 stack f.1 f.2 <;> rfl
    | cons l ls =>
      unfold iterLoopS iterLoop
      cases p.trail.indexOf l.index with
      | error => rfl
      | ok j =>
        simp only [bind_ok]
        cases m.cached p.trail j with
        | error => rfl
        | ok c =>
          simp only [bind_ok]
          match c with
          | some true =>
            simp only
            rw [← ih]
            cases iterLoopS p fuel m stack i ls <;> rfl
          | some false =>
            simp only
            cases m.setCache i false with
            | error => rfl
            | ok m1 =>
              simp only [bind_ok]
              rw [drainStack_eq]
              cases m1.failStack stack.reverse <;> rfl
          | none =>
            simp only
            cases idx p.trail.steps j with
            | error => rfl
            | ok s =>
              simp only [bind_ok]
              cases p.reasonLits s.reason with
              | error => rfl
              | ok rs =>
                simp only [bind_ok]
                cases m.lookahead p.trail rs (some true) with
                | error => rfl
                | ok c =>
                  simp only [bind_ok]
                  match c with
                  | some false =>
                    simp only
                    cases m.setCache j false with
                    | error => rfl
                    | ok m1 =>
                      simp only [bind_ok]
                      cases m1.setCache i false with
                      | error => rfl
                      | ok m2 =>
                        simp only [bind_ok]
                        rw [drainStack_eq]
                        cases m2.failStack stack.reverse <;> rfl
                  | some true =>
                    simp only
                    cases m.setCache j true with
                    | error => rfl
                    | ok m1 =>
                      simp only [bind_ok]
                      rw [← ih]
                      cases iterLoopS p fuel m1 stack i ls <;> rfl
                  | none =>
                    simp only
                    rw [← ih]
                    cases iterLoopS p fuel m ((i, ls) :: stack) j rs <;> rfl

/-- The frames of a stack that was started at the position `bound`: positions of the trail in strictly descending order
from bottom to top, each with a part of its reason. -/
structure Frames (p : PropState) (bound : Nat) (st : List Frame) : Prop where
  order : (st.map Prod.fst).Pairwise (· < ·)
  bounded : ∀ f ∈ st, f.1 ≤ bound
  slices : ∀ f ∈ st, ∃ s rs, p.trail.steps[f.1]? = some s ∧ p.reasonLits s.reason = .ok rs ∧ f.2 <:+ rs

theorem Frames.pop {b : Nat} {f : Frame} {st : List Frame} (h : Frames p b (f :: st)) : Frames p b st :=
  ⟨(List.pairwise_cons.1 h.order).2, fun f hf => h.bounded f (by simp [hf]), fun f hf => h.slices f (by simp [hf])⟩

theorem Frames.next {b i : Nat} {l : Lit} {ls : List Lit} {st : List Frame} (h : Frames p b ((i, l :: ls) :: st)) :
    Frames p b ((i, ls) :: st) := by
  refine ⟨h.order, ?_, ?_⟩
  · intro f hf
    rcases List.mem_cons.1 hf with rfl | hf
    · exact h.bounded (i, l :: ls) (by simp)
    · exact h.bounded f (by simp [hf])
  · intro f hf
    rcases List.mem_cons.1 hf with rfl | hf
    · obtain ⟨s, rs, h1, h2, h3⟩ := h.slices (i, l :: ls) (by simp)
      exact ⟨s, rs, h1, h2, (List.suffix_cons l ls).trans h3⟩
    · exact h.slices f (by simp [hf])

theorem Frames.push {b i j : Nat} {ls rs : List Lit} {st : List Frame} {s : Step} (h : Frames p b ((i, ls) :: st))
    (hj : j < i) (hs : p.trail.steps[j]? = some s) (hr : p.reasonLits s.reason = .ok rs) :
    Frames p b ((j, rs) :: (i, ls) :: st) := by
  refine ⟨?_, ?_, ?_⟩
  · rw [List.map_cons, List.pairwise_cons]
    refine ⟨?_, h.order⟩
    intro k hk
    rcases List.mem_cons.1 hk with rfl | hk
    · exact hj
    · exact Nat.lt_trans hj ((List.pairwise_cons.1 h.order).1 k hk)
  · intro f hf
    rcases List.mem_cons.1 hf with rfl | hf
    · exact Nat.le_of_lt (Nat.lt_of_lt_of_le hj (h.bounded (i, ls) (by simp)))
    · exact h.bounded f hf
  · intro f hf
    rcases List.mem_cons.1 hf with rfl | hf
    · exact ⟨s, rs, hs, hr, List.suffix_refl _⟩
    · exact h.slices f hf

/-- What is drained is empty. -/
theorem drainStack_rest {st rest : List Frame} {m m' : Minimize} (e : m.drainStack st = .ok (m', rest)) : rest = [] := by
  rw [drainStack_eq] at e
  cases h : m.failStack st with
  | error => rw [h] at e; cases e
  | ok x => rw [h] at e; cases e; rfl

theorem iterLoopS_frames (h : PInv n S p) {bound : Nat} (fuel : Nat) : ∀ {m : Minimize} {stack rest : List Frame} {i : Nat}
    {ls : List Lit} {r : Minimize × Bool} {seen : List (List Frame)}, Frames p bound ((i, ls) :: stack) →
    iterLoopS p fuel m stack i ls = .ok (r, seen, rest) →
    rest = [] ∧ ∀ st ∈ seen, Frames p bound st := by
  induction fuel with
  | zero => intro m stack rest i ls r seen _ e; cases e
  | succ fuel ih =>
    intro m stack rest i ls r seen hf e
    cases ls with
    | nil =>
      unfold iterLoopS at e
      obtain ⟨m1, _, e⟩ := bind_eq_ok.1 e
      cases stack with
      | nil => cases e; exact ⟨rfl, by simpa using hf⟩
      | cons f stack =>
        simp only at e
        obtain ⟨⟨r1, seen1, rest1⟩, e1, e⟩ := bind_eq_ok.1 e
        cases e
        obtain ⟨h1, h2⟩ := ih hf.pop e1
        refine ⟨h1, fun st hst => ?_⟩
        rcases List.mem_cons.1 hst with rfl | hst
        · exact hf
        · exact h2 st hst
    | cons l ls =>
      have hcons : ∀ {seen1 : List (List Frame)}, (∀ st ∈ seen1, Frames p bound st) →
          ∀ st ∈ ((i, l :: ls) :: stack) :: seen1, Frames p bound st := by
        intro seen1 h1 st hst
        rcases List.mem_cons.1 hst with rfl | hst
        · exact hf
        · exact h1 st hst
      unfold iterLoopS at e
      simp only at e
      obtain ⟨j, ej, e⟩ := bind_eq_ok.1 e
      obtain ⟨c, ec, e⟩ := bind_eq_ok.1 e
      match c, ec, e with
      | some true, ec, e =>
        simp only at e
        obtain ⟨⟨r1, seen1, rest1⟩, e1, e⟩ := bind_eq_ok.1 e
        cases e
        obtain ⟨h1, h2⟩ := ih hf.next e1
        exact ⟨h1, hcons h2⟩
      | some false, ec, e =>
        simp only at e
        obtain ⟨m1, _, e⟩ := bind_eq_ok.1 e
        obtain ⟨⟨m2, rest2⟩, e2, e⟩ := bind_eq_ok.1 e
        cases e
        exact ⟨drainStack_rest e2, hcons (by simp)⟩
      | none, ec, e =>
        simp only at e
        obtain ⟨s, es, e⟩ := bind_eq_ok.1 e
        obtain ⟨rs, er, e⟩ := bind_eq_ok.1 e
        obtain ⟨c2, _, e⟩ := bind_eq_ok.1 e
        match c2, e with
        | some false, e =>
          simp only at e
          obtain ⟨m1, _, e⟩ := bind_eq_ok.1 e
          obtain ⟨m2, _, e⟩ := bind_eq_ok.1 e
          obtain ⟨⟨m3, rest3⟩, e3, e⟩ := bind_eq_ok.1 e
          cases e
          exact ⟨drainStack_rest e3, hcons (by simp)⟩
        | some true, e =>
          simp only at e
          obtain ⟨m1, _, e⟩ := bind_eq_ok.1 e
          obtain ⟨⟨r1, seen1, rest1⟩, e1, e⟩ := bind_eq_ok.1 e
          cases e
          obtain ⟨h1, h2⟩ := ih hf.next e1
          exact ⟨h1, hcons h2⟩
        | none, e =>
          simp only at e
          obtain ⟨⟨r1, seen1, rest1⟩, e1, e⟩ := bind_eq_ok.1 e
          cases e
          have hs := idx_eq_ok.1 es
          obtain ⟨s0, rs0, k1, k2, k3⟩ := hf.slices _ (List.mem_cons_self ..)
          obtain ⟨rs1, k4, k5, -⟩ := h.reason k1
          cases k2.symm.trans k4
          obtain ⟨j', x, k6, k7, k9, k8⟩ := h.position (k5 l (k3.subset (by simp)))
          rw [Trail.indexOf_ok k6 k7 (by rw [k9, Lit.index_neg])] at ej
          cases ej
          cases hs.symm.trans k7
          obtain ⟨-, s1, k10, k11⟩ := cached_none ec
          cases hs.symm.trans k10
          obtain ⟨h1, h2⟩ := ih (hf.next.push (k8 k11) hs er) e1
          exact ⟨h1, hcons h2⟩

theorem iterS_eq (p : PropState) (fuel : Nat) (m : Minimize) (buffer : List Frame) (i : Nat) (rs : List Lit) :
    iterS p fuel m buffer i rs = iterLoopS p fuel m [] i rs := by
  simp only [iterS, List.drop_length]

/-- The number of frames. -/
theorem Frames.length {b : Nat} {st : List Frame} (h : Frames p b st) : st.length ≤ b + 1 := by
  have h1 : (st.map Prod.fst).Nodup := h.order.imp Nat.ne_of_lt
  have h2 : (st.map Prod.fst).length ≤ (List.range (b + 1)).length :=
    (List.subperm_of_subset h1 fun k hk => by
      obtain ⟨f, hf, rfl⟩ := List.mem_map.1 hk
      have := h.bounded f hf
      exact List.mem_range.2 (by omega)).length_le
  simpa using h2

end

end Minimize

open Minimize

section
variable {env : Env} {F : List (List Lit)} {p : PropState} {cb : Callbacks}

/-- C108: whatever the buffer holds when `literal_index_is_redundant_iter` is called, it is empty when it is put back, by
every way out of the function. -/
theorem C108_empty (h : Solver.Visited env F p cb) {m : Minimize} {buffer rest : List Frame} {i fuel : Nat} {s : Step}
    {rs : List Lit} {r : Minimize × Bool} {seen : List (List Frame)} (hs : p.trail.steps[i]? = some s)
    (hr : p.reasonLits s.reason = .ok rs) (e : iterS p fuel m buffer i rs = .ok (r, seen, rest)) : rest = [] := by
  obtain ⟨S, hi, -⟩ := h.inv
  rw [iterS_eq] at e
  exact (iterLoopS_frames hi (bound := i) fuel
    ⟨by simp, by simp, by
      intro f hf
      cases List.mem_singleton.1 hf
      exact ⟨s, rs, hs, hr, List.suffix_refl _⟩⟩ e).1

/-- C108: at all times, the stack holds positions of the trail in strictly descending order, below the
position that is asked for; with each of them a part of the reason of this position, which is borrowed from the clauses as they
are. -/
theorem C108_frames (h : Solver.Visited env F p cb) {m : Minimize} {buffer rest : List Frame} {i fuel : Nat} {s : Step}
    {rs : List Lit} {r : Minimize × Bool} {seen : List (List Frame)} (hs : p.trail.steps[i]? = some s)
    (hr : p.reasonLits s.reason = .ok rs) (e : iterS p fuel m buffer i rs = .ok (r, seen, rest)) {st : List Frame}
    (hst : st ∈ seen) : (st.map Prod.fst).Pairwise (· < ·) ∧ (∀ f ∈ st, f.1 ≤ i) ∧ st.length ≤ i + 1 ∧
    st.length ≤ p.trail.steps.length ∧
    ∀ f ∈ st, ∃ s rs, p.trail.steps[f.1]? = some s ∧ p.reasonLits s.reason = .ok rs ∧ f.2 <:+ rs := by
  obtain ⟨S, hi, -⟩ := h.inv
  rw [iterS_eq] at e
  have := (iterLoopS_frames hi (bound := i) fuel
    ⟨by simp, by simp, by
      intro f hf
      cases List.mem_singleton.1 hf
      exact ⟨s, rs, hs, hr, List.suffix_refl _⟩⟩ e).2 st hst
  have hl := (List.getElem?_eq_some_iff.1 hs).1
  exact ⟨this.order, this.bounded, this.length, Nat.le_trans this.length hl, this.slices⟩

/-- C108: the buffer does not change the search. -/
theorem C108_same (p : PropState) (fuel : Nat) (m : Minimize) (buffer : List Frame) (i : Nat) (rs : List Lit) :
    Except.map Prod.fst (iterS p fuel m buffer i rs) = iterLoop p fuel m [] i rs := by
  rw [iterS_eq]
  exact iterLoopS_erase p fuel m [] i rs

end

set_option synthInstance.maxSize 1024 in
/-- The hypotheses of C108 are met by the conflict of `C66_example`.  The search for the negation of `6`, which follows from
that of `4` and so on, puts one frame on the stack; whether the negation of `1` is known to be
redundant or known not to be, the buffer, which held a frame before, is empty in the end. -/
theorem C108_example : ∃ p cb s rs m m', Solver.Visited Example.env
    (Example.cnf [[1, -2], [2, -4], [4, -6], [5, 1, 6, 3], [5, 1, 6, -3]]) p cb ∧
    p.trail.steps[3]? = some s ∧ p.reasonLits s.reason = .ok rs ∧ rs = [4].map Example.lit ∧
    (∃ r seen, iterS p 20 m [(7, [])] 3 rs = .ok (r, seen, []) ∧ r.2 = true ∧
      seen = [[(3, [4].map Example.lit)], [(2, [2].map Example.lit), (3, [])], [(2, []), (3, [])], [(3, [])]]) ∧
    ∃ r seen, iterS p 20 m' [(7, [])] 3 rs = .ok (r, seen, []) ∧ r.2 = false ∧
      seen = [[(3, [4].map Example.lit)], [(2, [2].map Example.lit), (3, [])]] := by
  have h : (do
      let x ← Example.mid [[1, -2], [2, -4], [4, -6], [5, 1, 6, 3], [5, 1, 6, -3]] 2
      let s ← idx x.2.2.2.1.trail.steps 3
      let rs ← x.2.2.2.1.reasonLits s.reason
      let z ← iterS x.2.2.2.1 20
        { x.1.search.analysis.minimize with
          cache := [some true, none, none, none, none, none], firstOnLevel := [0, 0, 0] } [(7, [])] 3 rs
      let w ← iterS x.2.2.2.1 20
        { x.1.search.analysis.minimize with
          cache := [some false, none, none, none, none, none], firstOnLevel := [0, 0, 0] } [(7, [])] 3 rs
      pure ([z.1.2, w.1.2], [[[(0, rs)]], z.2.1, w.2.1, [z.2.2, w.2.2]]) :
        M (List Bool × List (List (List (Nat × List Lit))))) =
      .ok ([true, false], [[[(0, [4].map Example.lit)]],
        [[(3, [4].map Example.lit)], [(2, [2].map Example.lit), (3, [])], [(2, []), (3, [])], [(3, [])]],
          [[(3, [4].map Example.lit)], [(2, [2].map Example.lit), (3, [])]], [[], []]]) := by
    decide +kernel
  obtain ⟨⟨s, p1, ctx, p, r⟩, h1, h2⟩ := bind_eq_ok.1 h
  simp only at h2
  obtain ⟨st, h3, h2⟩ := bind_eq_ok.1 h2
  obtain ⟨rs, h4, h2⟩ := bind_eq_ok.1 h2
  obtain ⟨⟨r1, seen1, rest1⟩, h5, h2⟩ := bind_eq_ok.1 h2
  obtain ⟨⟨r2, seen2, rest2⟩, h6, h2⟩ := bind_eq_ok.1 h2
  simp only [pure_eq, Except.ok.injEq, Prod.mk.injEq, List.cons.injEq, and_true] at h2
  obtain ⟨⟨e2, e4⟩, ⟨-, e1⟩, e3, e5, rfl, rfl⟩ := h2
  exact ⟨p, s.search.cb, st, rs, _, _, .propagated (Example.mid_propagating (by decide +kernel) h1), idx_eq_ok.1 h3, h4, e1,
    ⟨r1, seen1, h5, e2, e3⟩, r2, seen2, h6, e4, e5⟩

end Starlit
