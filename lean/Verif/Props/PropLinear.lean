import Mathlib.Data.List.Rotate
import Verif.Props.Linear
import Verif.Props.Stats

/-!
# C69: unit propagation takes linear time

The functions of `unit_prop.rs` again, with a counter of loop iterations.  The search for a new literal to watch goes on
at the position where the last search in the same clause ended; that is what makes the bound linear.
-/

namespace Starlit

/-! ## The counted functions -/

/-- `propagateBinary` (`/repo/starlit/src/prop/unit_prop.rs:50-71`) with the number of iterations. -/
def propagateBinaryT (clauseLit : Lit) : List Lit → PropState → M (Nat × PropState × Option ConflictClause)
  | [], p => pure (0, p, none)
  | other :: rest, p => do
    if ← p.values.isTrue other then do
      let (k, r) ← propagateBinaryT clauseLit rest p
      pure (k + 1, r)
    else if ← p.values.isFalse other then pure (1, p, some (.binary clauseLit other))
    else do
      let p ← p.assign ⟨other, p.trail.decisionLevel, .binary clauseLit⟩
      let (k, r) ← propagateBinaryT clauseLit rest p
      pure (k + 1, r)

/-- `searchLit` (`/repo/starlit/src/prop/unit_prop.rs:153-180`) with the number of inspected literals. -/
def searchLitT (values : PartialAssignment) (ls : List Lit) (searchLen : Nat) : Nat → Nat → M (Nat × SearchResult)
  | 0, pos => pure (0, .none pos)
  | k + 1, pos => do
    let l ← idx ls (2 + pos)
    if ← values.isFalse l then do
      let (c, r) ← searchLitT values ls searchLen k (if pos + 1 = searchLen then 0 else pos + 1)
      pure (c + 1, r)
    else if ← values.isTrue l then pure (1, .isTrue l pos)
    else pure (1, .unassigned l pos)

/-- `visitWatch` (`/repo/starlit/src/prop/unit_prop.rs:119-212`) with the number of inspected literals plus one. -/
def visitWatchT (watched : Lit) (w : Watch) (p : PropState) : M (Nat × PropState × VisitResult) := do
  if ← p.values.isTrue w.blocking then pure (1, p, .keep w)
  else do
    let (h, ls) ← Long.headerAndLits p.long w.clause
    if ls.length < 2 then pure (1, p, .remove)
    else do
      let l0 ← idx ls 0
      let l1 ← idx ls 1
      debugM (watched == l0 || watched == l1)
      let other := watched.selectOther l0 l1
      if ← p.values.isTrue other then pure (1, p, .keep { w with blocking := other })
      else do
        let searchLen := ls.length - 2
        let (c, r) ← searchLitT p.values ls searchLen searchLen h.searchPos
        match r with
        | .isTrue l pos => do
          let a ← Long.modHeader p.long w.clause (·.setSearchPos pos)
          pure (c + 1, { p with long := a }, .keep { w with blocking := l })
        | .unassigned l pos => do
          let ws ← p.watches.push l { w with blocking := other }
          let a ← Long.modHeader p.long w.clause (·.setSearchPos pos)
          let ls ← upd ls 0 l
          let ls ← upd ls 1 other
          let ls ← upd ls (2 + pos) watched
          let a ← Long.setLits a w.clause ls
          pure (c + 1, { p with long := a, watches := ws }, .remove)
        | .none pos => do
          let a ← Long.modHeader p.long w.clause (·.setSearchPos pos)
          let p := { p with long := a }
          if ← p.values.isFalse other then pure (c + 1, p, .conflict w)
          else do
            let ls ← upd ls 0 other
            let ls ← upd ls 1 watched
            let a ← Long.setLits p.long w.clause ls
            let p := { p with long := a }
            let p ← p.assign ⟨other, p.trail.decisionLevel, .long w.clause⟩
            pure (c + 1, p, .keep w)

/-- `propagateLongLoop` (`/repo/starlit/src/prop/unit_prop.rs:84-215`) with the number of visited watches and inspected
literals. -/
def propagateLongLoopT (watched : Lit) : List Watch → List Watch → PropState →
    M (Nat × PropState × List Watch × Option ConflictClause)
  | [], kept, p => pure (0, p, kept, none)
  | w :: ws, kept, p => do
    let (c, p, r) ← visitWatchT watched w p
    match r with
    | .keep w => do
      let (k, r) ← propagateLongLoopT watched ws (kept ++ [w]) p
      pure (c + k, r)
    | .remove => do
      let (k, r) ← propagateLongLoopT watched ws kept p
      pure (c + k, r)
    | .conflict w => pure (c, p, kept ++ w :: ws, some (.long w.clause))

/-- `propagateLong` (`/repo/starlit/src/prop/unit_prop.rs:78-220`) with the same counter. -/
def propagateLongT (p : PropState) (l : Lit) : M (Nat × PropState × Option ConflictClause) := do
  let watched := l.neg
  debugM p.watches.enabled
  let ws ← idx p.watches.byLit watched.code
  let byLit ← upd p.watches.byLit watched.code []
  let (k, p, kept, r) ← propagateLongLoopT watched ws []
    { p with watches := { p.watches with byLit := byLit } }
  debugM p.watches.enabled
  let now ← idx p.watches.byLit l.neg.code
  debugM now.isEmpty
  let byLit ← upd p.watches.byLit l.neg.code kept
  pure (k, { p with watches := { p.watches with byLit := byLit } }, r)

/-- `propagateLiteral` (`/repo/starlit/src/prop/unit_prop.rs:39-42`) with the number of iterations of all its loops. -/
def propagateLiteralT (p : PropState) (l : Lit) : M (Nat × PropState × Option ConflictClause) := do
  let others ← idx p.binary l.neg.code
  let (k, p, r) ← propagateBinaryT l.neg others p
  match r with
  | some c => pure (k, p, some c)
  | none => do
    let (k', r) ← propagateLongT p l
    pure (k + k', r)

/-- `propagateLoop` (`/repo/starlit/src/prop/unit_prop.rs:21-24`) with the number of iterations of all its loops. -/
def propagateLoopT : Nat → PropState → M (Nat × PropState × Option ConflictClause)
  | 0, _ => throw .fuel
  | fuel + 1, p =>
    match p.trail.steps[p.trail.propagated]? with
    | none => pure (0, p, none)
    | some s => do
      let (k, p, r) ← propagateLiteralT p s.lit
      match r with
      | some c => pure (k + 1, p, some c)
      | none => do
        debugM (decide (p.trail.propagated < p.trail.steps.length))
        let (k', r) ← propagateLoopT fuel
          { p with trail := { p.trail with propagated := p.trail.propagated + 1 } }
        pure (k + 1 + k', r)

/-- `propagate` (`/repo/starlit/src/prop/unit_prop.rs:16-35`) with the number of iterations of the propagation loops.
The watch lists are enabled during a search, so `enableWatchLists` does nothing there. -/
def propagateT (ctx : Ctx) (p : PropState) : M (Nat × Ctx × PropState × Option ConflictClause) := do
  let p ← enableWatchLists p true
  let previous := p.trail.propagated
  let (k, p, r) ← propagateLoopT (p.trail.steps.length + p.trail.trailIndex.length + 1) p
  match r with
  | some c => pure (k, ctx, p, some c)
  | none => do
    debugM (decide (previous ≤ p.trail.propagated))
    let ctx := { ctx with prop := { ctx.prop with
      propagations := ctx.prop.propagations + (p.trail.propagated - previous) } }
    let ctx := if p.trail.decisionLevel = 0 then
        { ctx with prop := { ctx.prop with fixedVars := p.trail.fixedVarCount } }
      else ctx
    pure (k, ctx, p, none)

theorem propagateBinaryT_erase (c : Lit) (ls : List Lit) : ∀ p : PropState,
    Except.map Prod.snd (propagateBinaryT c ls p) = propagateBinary c ls p := by
  induction ls with
  | nil => intro p; rfl
  | cons l ls ih =>
    intro p
    simp only [propagateBinaryT, propagateBinary, map_snd_bind]
    congr 1; funext b
    cases b with
    | true =>
      simp only [if_true, map_snd_bind, map_snd_pure, ← ih]
      cases propagateBinaryT c ls p <;> rfl
    | false =>
      simp only [Bool.false_eq_true, if_false, map_snd_bind]
      congr 1; funext b
      cases b with
      | true => rfl
      | false =>
        simp only [Bool.false_eq_true, if_false, map_snd_bind, map_snd_pure]
        congr 1; funext q
        rw [← ih]
        cases propagateBinaryT c ls q <;> rfl

theorem searchLitT_erase (values : PartialAssignment) (ls : List Lit) (L k : Nat) : ∀ pos : Nat,
    Except.map Prod.snd (searchLitT values ls L k pos) = searchLit values ls L k pos := by
  induction k with
  | zero => intro p; rfl
  | succ k ih =>
    intro pos
    simp only [searchLitT, searchLit, map_snd_bind]
    congr 1; funext l; congr 1; funext b
    cases b with
    | true =>
      simp only [if_true, map_snd_bind, map_snd_pure, ← ih]
      cases searchLitT values ls L k (if pos + 1 = L then 0 else pos + 1) <;> rfl
    | false =>
      simp only [Bool.false_eq_true, if_false, map_snd_bind]
      congr 1; funext b
      cases b <;> rfl

theorem visitWatchT_erase (watched : Lit) (w : Watch) (p : PropState) :
    Except.map Prod.snd (visitWatchT watched w p) = visitWatch watched w p := by
  simp only [visitWatchT, visitWatch, map_snd_bind]
  congr 1; funext b
  cases b with
  | true => rfl
  | false =>
    simp only [Bool.false_eq_true, if_false, map_snd_bind]
    congr 1; funext x
    obtain ⟨h, ls⟩ := x
    by_cases hl : ls.length < 2
    · simp only [if_pos hl, map_snd_pure]
    simp only [if_neg hl, map_snd_bind]
    congr 1; funext l0; congr 1; funext l1; congr 1; funext _; congr 1; funext b
    cases b with
    | true => rfl
    | false =>
      simp only [Bool.false_eq_true, if_false, map_snd_bind]
      rw [← searchLitT_erase, bind_map_snd]
      congr 1; funext x
      obtain ⟨c, r⟩ := x
      cases r with
      | isTrue l pos => simp only [map_snd_bind, map_snd_pure]
      | unassigned l pos => simp only [map_snd_bind, map_snd_pure]
      | none pos =>
        simp only [map_snd_bind]
        congr 1; funext a; congr 1; funext b
        cases b with
        | true => rfl
        | false => simp only [Bool.false_eq_true, if_false, map_snd_bind, map_snd_pure]

theorem propagateLongLoopT_erase (watched : Lit) (ws : List Watch) : ∀ (kept : List Watch) (p : PropState),
    Except.map Prod.snd (propagateLongLoopT watched ws kept p) = propagateLongLoop watched ws kept p := by
  induction ws with
  | nil => intro kept p; rfl
  | cons w ws ih =>
    intro kept p
    simp only [propagateLongLoopT, propagateLongLoop, map_snd_bind]
    rw [← visitWatchT_erase, bind_map_snd]
    congr 1; funext x
    obtain ⟨c, q, r⟩ := x
    cases r with
    | keep w' =>
      simp only [map_snd_bind, map_snd_pure, ← ih]
      cases propagateLongLoopT watched ws (kept ++ [w']) q <;> rfl
    | remove =>
      simp only [map_snd_bind, map_snd_pure, ← ih]
      cases propagateLongLoopT watched ws kept q <;> rfl
    | conflict w' => rfl

theorem propagateLongT_erase (p : PropState) (l : Lit) :
    Except.map Prod.snd (propagateLongT p l) = propagateLong p l := by
  simp only [propagateLongT, propagateLong, map_snd_bind]
  congr 1; funext _; congr 1; funext ws; congr 1; funext byLit
  rw [← propagateLongLoopT_erase, bind_map_snd]
  rfl

theorem propagateLiteralT_erase (p : PropState) (l : Lit) :
    Except.map Prod.snd (propagateLiteralT p l) = propagateLiteral p l := by
  simp only [propagateLiteralT, propagateLiteral, map_snd_bind]
  congr 1; funext others
  rw [← propagateBinaryT_erase, bind_map_snd]
  congr 1; funext x
  obtain ⟨k, q, r⟩ := x
  cases r with
  | some c => rfl
  | none =>
    simp only [map_snd_bind, map_snd_pure, ← propagateLongT_erase]
    cases propagateLongT q l <;> rfl

theorem propagateLoopT_erase (fuel : Nat) : ∀ p : PropState,
    Except.map Prod.snd (propagateLoopT fuel p) = propagateLoop fuel p := by
  induction fuel with
  | zero => intro p; rfl
  | succ fuel ih =>
    intro p
    unfold propagateLoopT propagateLoop
    cases p.trail.steps[p.trail.propagated]? with
    | none => rfl
    | some s =>
      simp only [map_snd_bind]
      rw [← propagateLiteralT_erase, bind_map_snd]
      congr 1; funext x
      obtain ⟨k, q, r⟩ := x
      cases r with
      | some c => rfl
      | none =>
        simp only [map_snd_bind, map_snd_pure, ← ih]
        congr 1

theorem propagateT_erase (ctx : Ctx) (p : PropState) :
    Except.map Prod.snd (propagateT ctx p) = propagate ctx p := by
  simp only [propagateT, propagate, map_snd_bind]
  congr 1; funext q
  rw [← propagateLoopT_erase, bind_map_snd]
  congr 1; funext x
  obtain ⟨k, q, r⟩ := x
  cases r with
  | some c => rfl
  | none => simp only [map_snd_bind, map_snd_pure]

/-! ## The potential of a clause -/

/-- The literal is false. -/
def falseIn (v : PartialAssignment) (l : Lit) : Bool := v.val l == some false

/-- The number of false literals at the end of a list. -/
def falseRun (v : PartialAssignment) (ls : List Lit) : Nat := (ls.reverse.takeWhile (falseIn v)).length

theorem falseRun_le (v : PartialAssignment) (ls : List Lit) : falseRun v ls ≤ ls.length := by
  have := (List.takeWhile_prefix (falseIn v) (l := ls.reverse)).length_le
  simpa [falseRun] using this

theorem length_takeWhile_mono {α : Type} {f g : α → Bool} (h : ∀ x, f x = true → g x = true) (ls : List α) :
    (ls.takeWhile f).length ≤ (ls.takeWhile g).length := by
  induction ls with
  | nil => simp
  | cons x ls ih =>
    by_cases hx : f x = true
    · simp only [List.takeWhile_cons, hx, h x hx, if_true, List.length_cons]; omega
    · simp [List.takeWhile_cons, hx]

theorem takeWhile_all {α : Type} {f : α → Bool} {ls : List α} (h : ∀ x ∈ ls, f x = true) : ls.takeWhile f = ls := by
  induction ls with
  | nil => rfl
  | cons x ls ih =>
    rw [List.takeWhile_cons, if_pos (h x (by simp)), ih (fun y hy => h y (by simp [hy]))]

theorem takeWhile_append_all {α : Type} {f : α → Bool} {a b : List α} (h : ∀ x ∈ a, f x = true) :
    (a ++ b).takeWhile f = a ++ b.takeWhile f := by
  induction a with
  | nil => rfl
  | cons x a ih =>
    rw [List.cons_append, List.takeWhile_cons, if_pos (h x (by simp)), ih (fun y hy => h y (by simp [hy]))]
    rfl

theorem takeWhile_append_some {α : Type} {f : α → Bool} {a b : List α} (h : ∃ x ∈ a, f x = false) :
    (a ++ b).takeWhile f = a.takeWhile f := by
  induction a with
  | nil => simp at h
  | cons x a ih =>
    rw [List.cons_append, List.takeWhile_cons, List.takeWhile_cons]
    by_cases hx : f x = true
    · rw [if_pos hx, if_pos hx]
      rw [ih]
      obtain ⟨y, hy, hf⟩ := h
      rcases List.mem_cons.1 hy with rfl | hy
      · rw [hx] at hf; cases hf
      · exact ⟨y, hy, hf⟩
    · rw [if_neg hx, if_neg hx]

theorem falseRun_all {v : PartialAssignment} {ls : List Lit} (h : ∀ x ∈ ls, falseIn v x = true) :
    falseRun v ls = ls.length := by
  unfold falseRun
  rw [takeWhile_all (by simpa using h), List.length_reverse]

/-- Skipping false literals moves them to the end. -/
theorem falseRun_rotate {v : PartialAssignment} {ls : List Lit} {d : Nat} (hd : d < ls.length)
    (h : ∀ x ∈ ls.take d, falseIn v x = true) {x : Lit} (hx : ls[d]? = some x) (hf : falseIn v x = false) :
    falseRun v (ls.rotate d) = falseRun v ls + d := by
  have e1 : ls.rotate d = ls.drop d ++ ls.take d := List.rotate_eq_drop_append_take (by omega)
  have hm : x ∈ ls.drop d := by
    rw [List.mem_iff_getElem?]
    exact ⟨0, by rw [List.getElem?_drop]; simpa using hx⟩
  have e2 : falseRun v ls = ((ls.drop d).reverse.takeWhile (falseIn v)).length := by
    unfold falseRun
    conv_lhs => rw [← List.take_append_drop d ls]
    rw [List.reverse_append, takeWhile_append_some ⟨x, by simpa using hm, hf⟩]
  rw [e2, e1]
  unfold falseRun
  rw [List.reverse_append, takeWhile_append_all (by simpa using h), List.length_append, List.length_reverse,
    List.length_take]
  omega

/-- Putting a false literal first does not shorten the run. -/
theorem falseRun_set {v : PartialAssignment} {ls : List Lit} {w : Lit} (hw : falseIn v w = true) :
    falseRun v ls ≤ falseRun v (ls.set 0 w) := by
  cases ls with
  | nil => exact Nat.le_refl _
  | cons x ls =>
    rw [List.set_cons_zero]
    unfold falseRun
    rw [List.reverse_cons, List.reverse_cons]
    by_cases h : ∀ y ∈ ls.reverse, falseIn v y = true
    · rw [takeWhile_append_all h, takeWhile_append_all h, List.length_append, List.length_append]
      rw [takeWhile_all (ls := [w]) (by simpa using hw)]
      have := (List.takeWhile_prefix (falseIn v) (l := [x])).length_le
      simpa using this
    · simp only [not_forall] at h
      obtain ⟨y, hy, hf⟩ := h
      have : ∃ y ∈ ls.reverse, falseIn v y = false := ⟨y, hy, by simpa using hf⟩
      rw [takeWhile_append_some this, takeWhile_append_some this]

theorem set_rotate {ls : List Lit} {q : Nat} (w : Lit) (hq : q < ls.length) :
    (ls.set q w).rotate q = (ls.rotate q).set 0 w := by
  rw [List.rotate_eq_drop_append_take (by rw [List.length_set]; omega), List.rotate_eq_drop_append_take (by omega)]
  have h1 : ls.drop q = ls[q] :: ls.drop (q + 1) := List.drop_eq_getElem_cons hq
  have h2 : (ls.set q w).drop q = w :: ls.drop (q + 1) := by
    rw [List.drop_eq_getElem_cons (by rw [List.length_set]; exact hq), List.getElem_set_self, List.drop_set_of_lt (by omega)]
  rw [h1, h2, List.take_set_of_le (Nat.le_refl _)]
  rfl

/-- The values only get more. -/
def ValuesLe (v v' : PartialAssignment) : Prop := ∀ l b, v.val l = some b → v'.val l = some b

/-- The number of steps that may still be spent on a clause: literals that are not false at the end of the search order,
two for every other literal that may become watched, and a last search. -/
def LC.pot (v : PartialAssignment) (e : LC) : Nat :=
  ((e.lits.drop 2).length - falseRun v ((e.lits.drop 2).rotate e.hdr.searchPos)) +
    2 * (e.lits.drop 2).countP (fun l => !falseIn v l) +
    if (e.lits.take 2).any (fun l => v.val l == some true) then 0 else (e.lits.drop 2).length

theorem LC.pot_le (v : PartialAssignment) (e : LC) : e.pot v ≤ 4 * e.lits.length := by
  have h1 := List.countP_le_length (p := fun l => !falseIn v l) (l := e.lits.drop 2)
  have h2 : (e.lits.drop 2).length ≤ e.lits.length := by rw [List.length_drop]; omega
  unfold LC.pot
  split <;> omega

theorem LC.pot_mono {v v' : PartialAssignment} (h : ValuesLe v v') (e : LC) : e.pot v' ≤ e.pot v := by
  have hf : ∀ l, falseIn v l = true → falseIn v' l = true := by
    intro l hl
    have : v.val l = some false := by simpa [falseIn] using hl
    simp [falseIn, h l false this]
  have h1 : falseRun v ((e.lits.drop 2).rotate e.hdr.searchPos) ≤
      falseRun v' ((e.lits.drop 2).rotate e.hdr.searchPos) := length_takeWhile_mono hf _
  have h2 : (e.lits.drop 2).countP (fun l => !falseIn v' l) ≤ (e.lits.drop 2).countP (fun l => !falseIn v l) := by
    refine List.countP_mono_left ?_
    intro l _ hl
    by_contra hc
    have := hf l (by simpa using hc)
    rw [this] at hl
    simp at hl
  have h3 : (e.lits.take 2).any (fun l => v.val l == some true) = true →
      (e.lits.take 2).any (fun l => v'.val l == some true) = true := by
    intro hx
    obtain ⟨l, hl, hv⟩ := List.any_eq_true.1 hx
    exact List.any_eq_true.2 ⟨l, hl, by simp [h l true (by simpa using hv)]⟩
  unfold LC.pot
  split
  · omega
  · rename_i h4
    rw [if_neg (fun c => h4 (h3 c))]
    omega

/-- The potential of all clauses. -/
def potS (v : PartialAssignment) (S : List LC) : Nat := (S.map (LC.pot v)).sum

/-- The number of literals of all clauses. -/
def litsS (S : List LC) : Nat := (S.map (fun e => e.lits.length)).sum

theorem potS_le (v : PartialAssignment) (S : List LC) : potS v S ≤ 4 * litsS S := by
  induction S with
  | nil => simp [potS]
  | cons e S ih =>
    have := e.pot_le v
    simp only [potS, litsS, List.map_cons, List.sum_cons] at ih ⊢
    omega

theorem potS_mono {v v' : PartialAssignment} (h : ValuesLe v v') (S : List LC) : potS v' S ≤ potS v S := by
  induction S with
  | nil => simp [potS]
  | cons e S ih =>
    have := e.pot_mono h
    simp only [potS, List.map_cons, List.sum_cons] at ih ⊢
    omega

theorem potS_mod {v : PartialAssignment} {S : List LC} {e : LC} (hn : (S.map LC.ref).Nodup) (he : e ∈ S)
    (f : LC → LC) : potS v (modS S e.ref f) + e.pot v = potS v S + (f e).pot v := by
  induction S with
  | nil => simp at he
  | cons x S ih =>
    simp only [List.map_cons, List.nodup_cons, List.mem_map, not_exists, not_and] at hn
    have ht : ∀ r, (∀ y ∈ S, y.ref ≠ r) → modS S r f = S := by
      intro r hr
      unfold modS
      conv_rhs => rw [← List.map_id S]
      refine List.map_congr_left ?_
      intro y hy
      rw [if_neg (hr y hy)]; rfl
    rcases List.mem_cons.1 he with rfl | he'
    · have := ht e.ref (fun y hy => hn.1 y hy)
      unfold modS at this ⊢
      simp only [potS, List.map_cons, if_true, List.sum_cons, this]
      omega
    · have hne : x.ref ≠ e.ref := fun c => hn.1 e he' c.symm
      have := ih hn.2 he'
      unfold modS at this ⊢
      simp only [potS, List.map_cons, if_neg hne, List.sum_cons] at this ⊢
      omega

theorem litsS_sim {S S' : List LC} (h : SSim S S') : litsS S' = litsS S := by
  induction h with
  | nil => rfl
  | cons h _ ih =>
    have := h.lits.length_eq
    simp only [litsS, List.map_cons, List.sum_cons] at ih ⊢
    omega

theorem litsS_mem {S : List LC} {e : LC} (he : e ∈ S) : e.lits.length ≤ litsS S := by
  induction S with
  | nil => simp at he
  | cons x S ih =>
    simp only [litsS, List.map_cons, List.sum_cons] at ih ⊢
    rcases List.mem_cons.1 he with rfl | he
    · omega
    · have := ih he; omega

theorem potS_live (v : PartialAssignment) (S : List LC) : potS v S = potS v (S.filter LC.live) := by
  induction S with
  | nil => rfl
  | cons e S ih =>
    cases h : e.live with
    | true =>
      rw [List.filter_cons_of_pos h]
      simp only [potS, List.map_cons, List.sum_cons] at ih ⊢
      omega
    | false =>
      rw [List.filter_cons_of_neg (by simp [h])]
      have h0 : e.lits = [] := by
        by_contra hc
        rw [LC.live_iff.2 hc] at h; cases h
      have : e.pot v = 0 := by simp [LC.pot, h0]
      simp only [potS, List.map_cons, List.sum_cons] at ih ⊢
      omega

theorem litsS_live (S : List LC) : litsS S = litsS (S.filter LC.live) := by
  induction S with
  | nil => rfl
  | cons e S ih =>
    cases h : e.live with
    | true =>
      rw [List.filter_cons_of_pos h]
      simp only [litsS, List.map_cons, List.sum_cons] at ih ⊢
      omega
    | false =>
      rw [List.filter_cons_of_neg (by simp [h])]
      have h0 : e.lits = [] := by
        by_contra hc
        rw [LC.live_iff.2 hc] at h; cases h
      simp only [litsS, List.map_cons, List.sum_cons, h0, List.length_nil] at ih ⊢
      omega

/-- The literals fit into the arena. -/
theorem LRep.litsS_le {a : Arena} {S : List LC} (h : LRep a S) : a.garbage + litsS S ≤ a.buffer.length := by
  have := h.garbage
  rw [litsS_live]
  have key : ∀ S : List LC, litsS S ≤ (S.map (fun e => e.lits.length + 3)).sum := by
    intro S
    induction S with
    | nil => simp [litsS]
    | cons e S ih =>
      simp only [litsS, List.map_cons, List.sum_cons] at ih ⊢
      omega
  have := key (S.filter LC.live)
  omega

/-- The live clauses are determined by the arena. -/
theorem LRep.live_eq {a : Arena} {S S' : List LC} (h : LRep a S) (h' : LRep a S') :
    S.filter LC.live = S'.filter LC.live := by
  let g : Nat → Option LC := fun r => match Long.header a r, Long.lits a r with
    | .ok x, .ok y => some ⟨r, x, y⟩
    | _, _ => none
  have key : ∀ {T : List LC}, LRep a T → (T.filter LC.live).map some = ((T.filter LC.live).map LC.ref).map g := by
    intro T hT
    rw [List.map_map]
    refine List.map_congr_left ?_
    intro e he
    have he := (List.mem_filter.1 he).1
    simp only [Function.comp, g, hT.header_ok he, hT.lits_ok he]
  have h1 := h.refs.symm.trans h'.refs
  injection h1 with h1
  have : (S.filter LC.live).map some = (S'.filter LC.live).map some := by rw [key h, key h', h1]
  exact List.map_injective_iff.2 (Option.some_injective _) this

theorem LRep.potS_eq {a : Arena} {S S' : List LC} (h : LRep a S) (h' : LRep a S') (v : PartialAssignment) :
    potS v S = potS v S' := by
  rw [potS_live, h.live_eq h', ← potS_live]

/-- The total length of the lists that still count. -/
def wt {α : Type} (d : Nat → Bool) : List (List α) → Nat → Nat
  | [], _ => 0
  | ws :: r, i => (if d i then 0 else ws.length) + wt d r (i + 1)

theorem wt_set {α : Type} {d : Nat → Bool} {B : List (List α)} {j : Nat} {old : List α} (h : B[j]? = some old)
    (new : List α) : ∀ i, wt d (B.set j new) i + (if d (i + j) then 0 else old.length) =
      wt d B i + (if d (i + j) then 0 else new.length) := by
  induction B generalizing j with
  | nil => simp at h
  | cons ws B ih =>
    intro i
    cases j with
    | zero =>
      simp only [List.getElem?_cons_zero, Option.some.injEq] at h
      subst h
      simp only [List.set_cons_zero, wt, Nat.add_zero]
      omega
    | succ j =>
      simp only [List.getElem?_cons_succ] at h
      have := ih h (i + 1)
      rw [show i + 1 + j = i + (j + 1) by omega] at this
      simp only [List.set_cons_succ, wt]
      omega

theorem wt_mono {α : Type} {d d' : Nat → Bool} (h : ∀ i, d i = true → d' i = true) (B : List (List α)) :
    ∀ i, wt d' B i ≤ wt d B i := by
  induction B with
  | nil => intro i; exact Nat.le_refl _
  | cons ws B ih =>
    intro i
    have := ih (i + 1)
    simp only [wt]
    cases hd : d i with
    | true => simp only [h i hd, if_true]; omega
    | false => simp only [Bool.false_eq_true, if_false]; split <;> omega

theorem wt_le {α : Type} (d : Nat → Bool) (B : List (List α)) : ∀ i, wt d B i ≤ (B.map List.length).sum := by
  induction B with
  | nil => intro i; exact Nat.le_refl _
  | cons ws B ih =>
    intro i
    have := ih (i + 1)
    simp only [wt, List.map_cons, List.sum_cons]
    split <;> omega

/-! ## The search for a new watched literal -/

theorem searchLitT_spec {n : Nat} {v : PartialAssignment} {a0 a1 : Lit} {T : List Lit}
    (hv : v.assigned.length = n) (hT : ∀ l ∈ T, l.index < n) (k : Nat) : ∀ (pos : Nat), pos < T.length → k ≤ T.length →
    Wp (searchLitT v (a0 :: a1 :: T) T.length k pos) (fun (c, r) => match r with
      | .isTrue l q => ∃ d, c = d + 1 ∧ d < k ∧ q < T.length ∧ T.rotate q = (T.rotate pos).rotate d ∧
          (∀ x ∈ (T.rotate pos).take d, falseIn v x = true) ∧ T[q]? = some l ∧ v.val l = some true
      | .unassigned l q => ∃ d, c = d + 1 ∧ d < k ∧ q < T.length ∧ T.rotate q = (T.rotate pos).rotate d ∧
          (∀ x ∈ (T.rotate pos).take d, falseIn v x = true) ∧ T[q]? = some l ∧ v.val l = none
      | .none q => c = k ∧ q < T.length ∧ ∀ x ∈ (T.rotate pos).take k, falseIn v x = true) := by
  induction k with
  | zero =>
    intro pos hp _
    simp only [searchLitT, wp_pure]
    exact ⟨trivial, hp, by simp⟩
  | succ k ih =>
    intro pos hp hk
    have hg : T[pos]? = some T[pos] := List.getElem?_eq_getElem hp
    have hrot : T.rotate pos = T[pos] :: (T.drop (pos + 1) ++ T.take pos) := by
      rw [List.rotate_eq_drop_append_take (by omega), List.drop_eq_getElem_cons hp]; rfl
    generalize T[pos] = l at hg hrot
    have hl : l.index < n := hT l (List.mem_iff_getElem?.2 ⟨_, hg⟩)
    have hg' : (a0 :: a1 :: T)[2 + pos]? = some l := by
      rw [show 2 + pos = pos + 1 + 1 by omega]; simpa using hg
    simp only [searchLitT, idx_ok hg', bind_ok,
      PartialAssignment.isFalse_eq (pa := v) (l := l) (by omega),
      PartialAssignment.isTrue_eq (pa := v) (l := l) (by omega)]
    by_cases h1 : v.val l = some false
    · simp only [h1, beq_self_eq_true, if_true, wp_bind]
      have hp' : (if pos + 1 = T.length then 0 else pos + 1) < T.length := by split <;> omega
      have hrot' : T.rotate (if pos + 1 = T.length then 0 else pos + 1) = (T.rotate pos).rotate 1 := by
        rw [List.rotate_rotate]
        split
        · rename_i h; rw [h, List.rotate_length, List.rotate_zero]
        · rfl
      have hrot2 : (T.rotate pos).rotate 1 = (T.drop (pos + 1) ++ T.take pos) ++ [l] := by
        rw [hrot]; simp
      have hlen : (T.drop (pos + 1) ++ T.take pos).length = T.length - 1 := by
        simp only [List.length_append, List.length_drop, List.length_take]; omega
      have htake : ∀ d, d ≤ k → (∀ x ∈ ((T.rotate pos).rotate 1).take d, falseIn v x = true) →
          ∀ x ∈ (T.rotate pos).take (d + 1), falseIn v x = true := by
        intro d hd hx x hm
        rw [hrot, List.take_succ_cons] at hm
        rcases List.mem_cons.1 hm with rfl | hm
        · simp [falseIn, h1]
        · refine hx x ?_
          rw [hrot2, List.take_append_of_le_length (by omega)]; exact hm
      refine (ih _ hp' (by omega)).mono ?_
      rintro ⟨c, r⟩ hr
      rw [hrot'] at hr
      simp only [wp_pure]
      cases r with
      | isTrue l' q =>
        obtain ⟨d, rfl, h2, h3, h4, h5, h6, h7⟩ := hr
        exact ⟨d + 1, rfl, by omega, h3, by rw [h4, List.rotate_rotate, Nat.add_comm 1 d], htake d (by omega) h5, h6, h7⟩
      | unassigned l' q =>
        obtain ⟨d, rfl, h2, h3, h4, h5, h6, h7⟩ := hr
        exact ⟨d + 1, rfl, by omega, h3, by rw [h4, List.rotate_rotate, Nat.add_comm 1 d], htake d (by omega) h5, h6, h7⟩
      | none q =>
        obtain ⟨rfl, h2, h3⟩ := hr
        exact ⟨rfl, h2, htake _ (Nat.le_refl _) h3⟩
    · have e1 : (v.val l == some false) = false := by simpa using h1
      simp only [e1, Bool.false_eq_true, if_false]
      by_cases h2 : v.val l = some true
      · simp only [h2, beq_self_eq_true, if_true, wp_pure]
        exact ⟨0, rfl, by omega, hp, by simp, by simp, hg, trivial⟩
      · have e2 : (v.val l == some true) = false := by simpa using h2
        simp only [e2, Bool.false_eq_true, if_false, wp_pure]
        refine ⟨0, rfl, by omega, hp, by simp, by simp, hg, ?_⟩
        cases hv : v.val l with
        | none => rfl
        | some b => cases b <;> simp_all

/-! ## One watch -/

/-- The cost of a visited watch and the change of the potentials. -/
def VisitCost (S : List LC) (d : Nat → Bool) (p : PropState) : Nat × PropState × VisitResult → Prop := fun (c, p', r) =>
  (∃ S', LRep p'.long S' ∧ ((∀ w, r ≠ .conflict w) → c + potS p'.values S' + 2 * wt d p'.watches.byLit 0 ≤
    2 + potS p.values S + 2 * wt d p.watches.byLit 0)) ∧ c ≤ 1 + litsS S

theorem visitWatchT_cost {n : Nat} {S : List LC} {watched : Lit} {w : Watch}
    {kept rest : List Watch} {p : PropState}
    (h : PInv n S (p.virt watched (kept ++ w :: rest)))
    (hempty : p.watches.byLit[watched.code]? = some [])
    (hm : ∃ m, p.trail.steps[p.trail.propagated]? = some m ∧ m.lit = watched.neg) (d : Nat → Bool) :
    Wp (visitWatchT watched w p) (VisitCost S d p) := by
  obtain ⟨m, hm, hmw⟩ := hm
  have hmm : m ∈ p.trail.steps := List.mem_iff_getElem?.2 ⟨_, hm⟩
  have hcw : watched.code < p.watches.byLit.length := (List.getElem?_eq_some_iff.1 hempty).1
  have hB : (p.virt watched (kept ++ w :: rest)).watches.byLit[watched.code]? =
      some (kept ++ w :: rest) := by
    simp only [PropState.virt]; rw [List.getElem?_set_self hcw]
  obtain ⟨e, he, her, hew⟩ := h.ws.mem watched _ hB w (by simp)
  obtain ⟨wc, wb⟩ := w
  simp only at her
  subst her
  have hvlen : p.values.assigned.length = n := h.sized.values
  have hwfalse : p.values.val watched = some false :=
    (h.trail.val_false_iff watched).2 ⟨m, hmm, hmw⟩
  have hrep : LRep p.long S := h.rep
  have hbi : wb.index < n := h.blk.get hB _ (List.mem_append_right _ List.mem_cons_self)
  have hT : ∀ {l : Lit}, l.index < n → p.values.isTrue l = .ok (p.values.val l == some true) :=
    fun hl => PartialAssignment.isTrue_eq (by omega)
  have hF : ∀ {l : Lit}, l.index < n → p.values.isFalse l = .ok (p.values.val l == some false) :=
    fun hl => PartialAssignment.isFalse_eq (by omega)
  have beqf : ∀ {a b : Option Bool}, a ≠ b → (a == b) = false := by
    intro a b hab; simpa using hab
  have same : ∀ r, VisitCost S d p (1, p, r) := fun r => ⟨⟨S, hrep, fun _ => by omega⟩, by omega⟩
  simp only [visitWatchT, hT hbi, bind_ok]
  by_cases hb1 : p.values.val wb = some true
  · simp only [hb1, beq_self_eq_true, if_true, wp_pure]
    exact same _
  simp only [beqf hb1, Bool.false_eq_true, if_false]
  rw [hrep.headerAndLits_ok he, bind_ok]
  by_cases hlen : e.lits.length < 2
  · simp only [hlen, if_true, wp_pure]
    exact same _
  simp only [hlen, if_false]
  have hlive : e.live := by
    rw [LC.live_iff]; intro hc; rw [hc] at hlen; simp at hlen
  obtain ⟨hlen3, hsp⟩ := h.long.len e he hlive
  obtain ⟨hwt, hwb⟩ := hew hlive
  obtain ⟨a0, a1, tail, hls⟩ : ∃ a0 a1 tail, e.lits = a0 :: a1 :: tail := by
    match hx : e.lits, hlen3 with
    | a :: b :: c, _ => exact ⟨a, b, c, rfl⟩
  have hother : ∃ other, watched.selectOther a0 a1 = other ∧
      debugM (watched == a0 || watched == a1) = .ok () ∧ (e.lits.take 2).Perm [watched, other] := by
    rw [hls] at hwt ⊢
    simp only [List.take_succ_cons, List.take_zero, List.mem_cons, List.not_mem_nil, or_false] at hwt ⊢
    rcases hwt with rfl | rfl
    · exact ⟨a1, Lit.selectOther_left _ _, debugM_ok (by simp), .refl _⟩
    · exact ⟨a0, Lit.selectOther_right _ _, debugM_ok (by simp), .swap _ _ _⟩
  obtain ⟨other, hoeq, hdebug, htwo⟩ := hother
  have hom : other ∈ e.lits := List.mem_of_mem_take (htwo.mem_iff.2 (by simp))
  have hoi : other.index < n := h.long.idx e he other hom
  have g0 : idx e.lits 0 = .ok a0 := idx_ok (by rw [hls]; rfl)
  have g1 : idx e.lits 1 = .ok a1 := idx_ok (by rw [hls]; rfl)
  simp only [g0, g1, bind_ok, hdebug, hoeq, hT hoi]
  by_cases ho1 : p.values.val other = some true
  · simp only [ho1, beq_self_eq_true, if_true, wp_pure]
    exact same _
  simp only [beqf ho1, Bool.false_eq_true, if_false]
  have htl : tail.length = e.lits.length - 2 := by rw [hls]; simp
  have hdrop : e.lits.drop 2 = tail := by rw [hls]; rfl
  have hany : (e.lits.take 2).any (fun l => p.values.val l == some true) = false := by
    rw [List.any_eq_false]
    intro l hl
    have := htwo.mem_iff.1 hl
    simp only [List.mem_cons, List.not_mem_nil, or_false] at this
    rcases this with rfl | rfl
    · simp [hwfalse]
    · simpa using ho1
  have hpot : e.pot p.values = (tail.length - falseRun p.values (tail.rotate e.hdr.searchPos)) +
      2 * tail.countP (fun l => !falseIn p.values l) + tail.length := by
    unfold LC.pot
    rw [hany, hdrop]
    simp
  have hll := litsS_mem he
  rw [wp_bind]
  have hsl := searchLitT_spec (a0 := a0) (a1 := a1) hvlen (T := tail)
    (fun l hl => h.long.idx e he l (by rw [hls]; simp [hl])) tail.length e.hdr.searchPos (by omega) (Nat.le_refl _)
  rw [← hls, htl] at hsl
  refine hsl.mono ?_
  rw [← htl]
  have hlen31 : e.lits.length < 2 ^ 31 := hrep.len_lt he
  have hWF : e.hdr.WF := hrep.hdrWF he
  have hdr : ∀ q, ∃ a', Long.modHeader p.long e.ref (fun x => x.setSearchPos q) = .ok a' ∧
      LRep a' (modS S e.ref (fun e => { e with hdr := e.hdr.setSearchPos q })) := by
    intro q
    obtain ⟨a', h1, h2, _⟩ := hrep.modHeader_ok (f := fun x => x.setSearchPos q) he (hWF.setSearchPos q)
    exact ⟨a', h1, h2⟩
  have hes : ∀ q, { e with hdr := e.hdr.setSearchPos q } ∈
      modS S e.ref (fun e => { e with hdr := e.hdr.setSearchPos q }) :=
    fun q => mem_modS.2 ⟨e, he, by simp⟩
  have hpos : ∀ q, q < tail.length → (e.hdr.setSearchPos q).searchPos = q :=
    fun q hq => LongHeader.searchPos_setSearchPos _ (by omega)
  have hrun : ∀ (dd q : Nat) (l : Lit), dd < tail.length → q < tail.length →
      tail.rotate q = (tail.rotate e.hdr.searchPos).rotate dd →
      (∀ x ∈ (tail.rotate e.hdr.searchPos).take dd, falseIn p.values x = true) → tail[q]? = some l →
      falseIn p.values l = false →
      falseRun p.values (tail.rotate q) = falseRun p.values (tail.rotate e.hdr.searchPos) + dd := by
    intro dd q l h1 h2 h3 h4 h5 h6
    rw [h3]
    refine falseRun_rotate (by rw [List.length_rotate]; exact h1) h4 (x := l) ?_ h6
    have : (tail.rotate q)[0]? = some l := by
      rw [List.rotate_eq_drop_append_take (by omega), List.getElem?_append_left (by rw [List.length_drop]; omega),
        List.getElem?_drop]
      simpa using h5
    rw [h3, List.rotate_eq_drop_append_take (by rw [List.length_rotate]; omega),
      List.getElem?_append_left (by rw [List.length_drop, List.length_rotate]; omega), List.getElem?_drop] at this
    simpa using this
  rintro ⟨c, r⟩ hr
  cases r with
  | isTrue l q =>
    obtain ⟨dd, rfl, h1, h2, h3, h4, h5, h6⟩ := hr
    obtain ⟨a', e1, e2⟩ := hdr q
    simp only [e1, bind_ok, wp_pure]
    have h7 := hrun dd q l h1 h2 h3 h4 h5 (by simp [falseIn, h6])
    have h8 := falseRun_le p.values (tail.rotate q)
    rw [List.length_rotate] at h8
    refine ⟨⟨_, e2, fun _ => ?_⟩, by omega⟩
    have h9 := potS_mod (v := p.values) hrep.nodup he (fun e => { e with hdr := e.hdr.setSearchPos q })
    have h10 : LC.pot p.values { e with hdr := e.hdr.setSearchPos q } =
        (tail.length - falseRun p.values (tail.rotate q)) +
        2 * tail.countP (fun l => !falseIn p.values l) + tail.length := by
      unfold LC.pot
      simp only [hany, hdrop, hpos q h2, Bool.false_eq_true, if_false]
    simp only at h9 ⊢
    rw [h10, hpot] at h9
    omega
  | unassigned l q =>
    obtain ⟨dd, rfl, h1, h2, h3, h4, h5, h6⟩ := hr
    obtain ⟨a', e1, e2⟩ := hdr q
    have hlm : l ∈ e.lits := by rw [hls]; simp [List.mem_iff_getElem?.2 ⟨_, h5⟩]
    have hln : l.index < n := h.long.idx e he l hlm
    have hlc : l.code < p.watches.byLit.length := by
      have : p.watches.byLit.length = n * 2 := by simpa [PropState.virt] using h.sized.wat
      rw [this]; exact Lit.code_lt_of_index_lt hln
    obtain ⟨Wl, hWl⟩ : ∃ Wl, p.watches.byLit[l.code]? = some Wl := ⟨_, List.getElem?_eq_getElem hlc⟩
    simp only [Watches.push, debugM_ok (show p.watches.enabled = true from h.enabled), idx_ok hWl, bind_ok, upd_ok hlc,
      e1, bind_pure_ok]
    have hu : ∀ {i : Nat} {xs : List Lit} (y : Lit), i < xs.length →
        upd xs i y = .ok (xs.set i y) := fun _ hi => upd_ok hi
    rw [hu l (by omega), bind_ok, hu other (by simp; omega), bind_ok,
      hu watched (by simp; omega), bind_ok]
    have hls' : ((e.lits.set 0 l).set 1 other).set (2 + q) watched =
        l :: other :: tail.set q watched := by
      rw [hls, show 2 + q = q + 1 + 1 by omega]; rfl
    rw [hls']
    have hval : ∀ x ∈ l :: other :: tail.set q watched, x.Valid := by
      intro x hx
      refine hrep.valid he x ?_
      rcases List.mem_cons.1 hx with rfl | hx
      · exact hlm
      rcases List.mem_cons.1 hx with rfl | hx
      · exact hom
      rcases List.mem_or_eq_of_mem_set hx with hx | rfl
      · rw [hls]; simp [hx]
      · exact List.mem_of_mem_take hwt
    obtain ⟨a2, f1, f2, _, _⟩ := e2.setLits_ok (ls := l :: other :: tail.set q watched) (hes q)
      (by simp only [hls, List.length_cons, List.length_set]) hval
    have f1' : Long.setLits a' e.ref (l :: other :: tail.set q watched) = .ok a2 := f1
    simp only [f1', bind_ok, wp_pure]
    refine ⟨⟨_, f2, fun _ => ?_⟩, by omega⟩
    have h7 := hrun dd q l h1 h2 h3 h4 h5 (by simp [falseIn, h6])
    have hwf : falseIn p.values watched = true := by simp [falseIn, hwfalse]
    have h8 := falseRun_set (ls := tail.rotate q) hwf
    rw [← set_rotate watched h2] at h8
    have h8' := falseRun_le p.values ((tail.set q watched).rotate q)
    rw [List.length_rotate, List.length_set] at h8'
    have h9 := potS_mod (v := p.values) hrep.nodup he (fun e => { e with hdr := e.hdr.setSearchPos q })
    have h10 := potS_mod (v := p.values) e2.nodup (hes q)
      (fun e => { e with lits := l :: other :: tail.set q watched })
    have h11 : LC.pot p.values ⟨e.ref, e.hdr.setSearchPos q, l :: other :: tail.set q watched⟩ ≤
        (tail.length - falseRun p.values ((tail.set q watched).rotate q)) +
        2 * (tail.set q watched).countP (fun l => !falseIn p.values l) + tail.length := by
      unfold LC.pot
      have : (l :: other :: tail.set q watched).drop 2 = tail.set q watched := rfl
      simp only [this, hpos q h2, List.length_set]
      split <;> omega
    have h12 : (tail.set q watched).countP (fun l => !falseIn p.values l) + 1 =
        tail.countP (fun l => !falseIn p.values l) := by
      have hq : tail[q] = l := by
        rw [List.getElem?_eq_getElem h2] at h5
        injection h5
      have hpos : 0 < tail.countP (fun l => !falseIn p.values l) :=
        List.countP_pos_iff.2 ⟨l, List.mem_iff_getElem?.2 ⟨q, h5⟩, by simp [falseIn, h6]⟩
      have hlf : falseIn p.values l = false := by simp [falseIn, h6]
      rw [List.countP_set h2, hq]
      simp only [hwf, hlf, Bool.not_true, Bool.not_false, if_true, Bool.false_eq_true, if_false]
      omega
    have h13 := wt_set (d := d) hWl (Wl ++ [⟨e.ref, other⟩]) 0
    simp only [List.length_append, List.length_cons, List.length_nil] at h13
    have h14 : wt d (p.watches.byLit.set l.code (Wl ++ [⟨e.ref, other⟩])) 0 ≤ wt d p.watches.byLit 0 + 1 := by
      split at h13 <;> omega
    simp only at h9 h10 ⊢
    rw [hpot] at h9
    omega
  | none q =>
    obtain ⟨rfl, hq, hall⟩ := hr
    rw [List.take_of_length_le (by rw [List.length_rotate])] at hall
    have htf : ∀ y ∈ tail, falseIn p.values y = true := fun y hy => hall y (List.mem_rotate.2 hy)
    obtain ⟨a', e1, e2⟩ := hdr q
    simp only [e1, bind_ok, hF hoi]
    by_cases ho2 : p.values.val other = some false
    · simp only [ho2, beq_self_eq_true, if_true, wp_pure]
      exact ⟨⟨_, e2, fun hc => absurd rfl (hc _)⟩, by omega⟩
    · simp only [beqf ho2, Bool.false_eq_true, if_false]
      have ho3 : p.values.val other = none := by
        cases hv : p.values.val other with
        | none => rfl
        | some v =>
          rw [hv] at ho1 ho2
          cases v
          · exact absurd rfl ho2
          · exact absurd rfl ho1
      have hu : ∀ {i : Nat} {xs : List Lit} (y : Lit), i < xs.length →
          upd xs i y = .ok (xs.set i y) := fun _ hi => upd_ok hi
      rw [hu other (by omega), bind_ok, hu watched (by simp; omega), bind_ok]
      have hls' : (e.lits.set 0 other).set 1 watched = other :: watched :: tail := by
        rw [hls]; rfl
      rw [hls']
      have hval : ∀ x ∈ other :: watched :: tail, x.Valid := by
        intro x hx
        refine hrep.valid he x ?_
        rcases List.mem_cons.1 hx with rfl | hx
        · exact hom
        rcases List.mem_cons.1 hx with rfl | hx
        · exact List.mem_of_mem_take hwt
        · rw [hls]; simp [hx]
      obtain ⟨a2, f1, f2, _, _⟩ := e2.setLits_ok (ls := other :: watched :: tail) (hes q)
        (by simp only [hls, List.length_cons]) hval
      have f1' : Long.setLits a' e.ref (other :: watched :: tail) = .ok a2 := f1
      simp only [f1', bind_ok]
      have hsz : Sized n ({ p with long := a2 } : PropState) :=
        ⟨h.sized.values, h.sized.tix, h.sized.bin, by
          have := h.sized.wat; simpa [PropState.virt] using this, h.sized.n_le⟩
      rw [wp_bind, assign_eq (s := ⟨other, p.trail.decisionLevel, .long e.ref⟩) hsz hoi h.trail.vwf ho3]
      by_cases hl32 : p.trail.steps.length < UNASSIGNED
      · rw [if_pos (by exact hl32), wp_ok, wp_pure]
        refine ⟨⟨_, f2, fun _ => ?_⟩, by omega⟩
        have hval' : ∀ x, (p.values.push other).val x =
            if x = other then some true else if x = other.neg then some false else p.values.val x := by
          intro x
          unfold PartialAssignment.push
          exact PartialAssignment.val_assign (by rw [hvlen]; exact hoi) x
        have hle : ValuesLe p.values (p.values.push other) := by
          intro x b hx
          rw [hval']
          by_cases h1 : x = other
          · rw [h1, ho3] at hx; cases hx
          · rw [if_neg h1]
            by_cases h2 : x = other.neg
            · have h3 : p.values.val other.neg = none := by
                cases hv : p.values.val other.neg with
                | none => rfl
                | some v =>
                  exfalso
                  cases v with
                  | true =>
                    obtain ⟨t, t1, t2⟩ := (h.trail.val_iff _).1 hv
                    exact ho2 ((h.trail.val_false_iff _).2 ⟨t, t1, t2⟩)
                  | false =>
                    obtain ⟨t, t1, t2⟩ := (h.trail.val_false_iff _).1 hv
                    exact ho1 ((h.trail.val_iff _).2 ⟨t, t1, by simpa using t2⟩)
              rw [h2, h3] at hx; cases hx
            · rw [if_neg h2]; exact hx
        have k1 := potS_mod (v := p.values.push other) hrep.nodup he (fun e => { e with hdr := e.hdr.setSearchPos q })
        have k2 := potS_mod (v := p.values.push other) e2.nodup (hes q)
          (fun e => { e with lits := other :: watched :: tail })
        have k3 : LC.pot (p.values.push other) ⟨e.ref, e.hdr.setSearchPos q, other :: watched :: tail⟩ = 0 := by
          have hft : ∀ y ∈ tail, falseIn (p.values.push other) y = true := by
            intro y hy
            have : p.values.val y = some false := by simpa [falseIn] using htf y hy
            simp [falseIn, hle y false this]
          unfold LC.pot
          have : (other :: watched :: tail).drop 2 = tail := rfl
          have h2 : ((other :: watched :: tail).take 2).any
              (fun l => (p.values.push other).val l == some true) = true := by
            simp [hval' other]
          simp only [this, h2, if_true, hpos q hq]
          rw [falseRun_all (fun y hy => hft y (List.mem_rotate.1 hy)), List.length_rotate]
          have : tail.countP (fun l => !falseIn (p.values.push other) l) = 0 := by
            rw [List.countP_eq_zero]
            intro y hy
            simp [hft y hy]
          omega
        have k4 := potS_mod (v := p.values.push other) hrep.nodup he (fun e => { e with lits := [] })
        have k5 := potS_mod (v := p.values) hrep.nodup he (fun e => { e with lits := [] })
        have k6 := potS_mono hle (modS S e.ref (fun e => { e with lits := [] }))
        have k7 : ∀ v, LC.pot v { e with lits := [] } = 0 := by intro v; simp [LC.pot]
        rw [k7] at k4 k5
        simp only at k1 k2 k4 k5 k6 ⊢
        rw [k3] at k2
        omega
      · rw [if_neg hl32]; simp

/-! ## The loops -/

theorem TrailInv.valuesLe {n : Nat} {v v' : PartialAssignment} {t t' : Trail} (h : TrailInv n v t)
    (h' : TrailInv n v' t') (hs : ∀ s ∈ t.steps, s ∈ t'.steps) : ValuesLe v v' := by
  intro l b hb
  cases b with
  | true =>
    obtain ⟨s, h1, h2⟩ := (h.val_iff l).1 hb
    exact (h'.val_iff l).2 ⟨s, hs s h1, h2⟩
  | false =>
    obtain ⟨s, h1, h2⟩ := (h.val_false_iff l).1 hb
    exact (h'.val_false_iff l).2 ⟨s, hs s h1, h2⟩

theorem propagateBinaryT_cost (c : Lit) (ls : List Lit) : ∀ {p p' : PropState} {k : Nat} {r : Option ConflictClause},
    propagateBinaryT c ls p = .ok (k, p', r) → k ≤ ls.length := by
  induction ls with
  | nil => intro p p' k r e; cases e; exact Nat.le_refl _
  | cons l ls ih =>
    intro p p' k r e
    simp only [propagateBinaryT] at e
    obtain ⟨b, _, e⟩ := bind_eq_ok.1 e
    cases b with
    | true =>
      simp only [if_true] at e
      obtain ⟨⟨k', p1, r1⟩, e1, e⟩ := bind_eq_ok.1 e
      cases e
      have := ih e1
      simp only [List.length_cons]; omega
    | false =>
      simp only [Bool.false_eq_true, if_false] at e
      obtain ⟨b, _, e⟩ := bind_eq_ok.1 e
      cases b with
      | true => cases e; simp
      | false =>
        simp only [Bool.false_eq_true, if_false] at e
        obtain ⟨p1, _, e⟩ := bind_eq_ok.1 e
        obtain ⟨⟨k', p2, r1⟩, e1, e⟩ := bind_eq_ok.1 e
        cases e
        have := ih e1
        simp only [List.length_cons]; omega

theorem propagateLongLoopT_cost {n : Nat} {watched : Lit} (d : Nat → Bool) (ws : List Watch) :
    ∀ {S : List LC} {kept kept' : List Watch} {p p' : PropState} {c : Nat} {r : Option ConflictClause},
    PInv n S (p.virt watched (kept ++ ws)) →
    p.watches.byLit[watched.code]? = some [] →
    (∃ m, p.trail.steps[p.trail.propagated]? = some m ∧ m.lit = watched.neg) →
    propagateLongLoopT watched ws kept p = .ok (c, p', kept', r) →
    (∃ S', LRep p'.long S' ∧ (r = none → c + potS p'.values S' + 2 * wt d p'.watches.byLit 0 ≤
      2 * ws.length + potS p.values S + 2 * wt d p.watches.byLit 0)) ∧
    c ≤ 2 * ws.length + potS p.values S + 2 * wt d p.watches.byLit 0 + litsS S := by
  induction ws with
  | nil =>
    intro S kept kept' p p' c r h hempty hm e
    cases e
    refine ⟨⟨S, h.rep, fun _ => ?_⟩, ?_⟩ <;> simp only [List.length_nil] <;> omega
  | cons w ws ih =>
    intro S kept kept' p p' c r h hempty hm e
    simp only [propagateLongLoopT] at e
    obtain ⟨⟨c1, p1, r1⟩, e1, e⟩ := bind_eq_ok.1 e
    obtain ⟨⟨S1, hS1, hcost⟩, hmax⟩ := (visitWatchT_cost h hempty hm d).ok_elim e1
    have e1' : visitWatch watched w p = .ok (p1, r1) := by rw [← visitWatchT_erase, e1]; rfl
    obtain ⟨hext, hempty', S2, hsim, hr⟩ := (visitWatch_spec h hempty hm).ok_elim e1'
    have hm' : ∃ m, p1.trail.steps[p1.trail.propagated]? = some m ∧ m.lit = watched.neg := by
      obtain ⟨m, h1, h2⟩ := hm
      exact ⟨m, by rw [hext.prop]; exact hext.get h1, h2⟩
    have hlits := litsS_sim hsim
    have fin : ∀ {c2 : Nat}, ((∃ S', LRep p'.long S' ∧ (r = none → c2 + potS p'.values S' + 2 * wt d p'.watches.byLit 0 ≤
        2 * ws.length + potS p1.values S2 + 2 * wt d p1.watches.byLit 0)) ∧
        c2 ≤ 2 * ws.length + potS p1.values S2 + 2 * wt d p1.watches.byLit 0 + litsS S2) →
        LRep p1.long S2 → (∀ w, r1 ≠ .conflict w) →
        (∃ S', LRep p'.long S' ∧ (r = none → c1 + c2 + potS p'.values S' + 2 * wt d p'.watches.byLit 0 ≤
          2 * (w :: ws).length + potS p.values S + 2 * wt d p.watches.byLit 0)) ∧
        c1 + c2 ≤ 2 * (w :: ws).length + potS p.values S + 2 * wt d p.watches.byLit 0 + litsS S := by
      rintro c2 ⟨⟨S', h1, h2⟩, h3⟩ hrep hc
      have h4 := hcost hc
      rw [hS1.potS_eq hrep] at h4
      refine ⟨⟨S', h1, fun h0 => ?_⟩, ?_⟩
      · have := h2 h0
        simp only [List.length_cons]; omega
      · simp only [List.length_cons]; omega
    cases r1 with
    | keep w' =>
      obtain ⟨_, hp, _⟩ := hr
      simp only at e
      obtain ⟨⟨c2, p2, k2, r2⟩, e2, e⟩ := bind_eq_ok.1 e
      cases e
      exact fin (ih (S := S2) (kept := kept ++ [w']) (by simpa using hp) hempty' hm' e2) hp.rep (by simp)
    | remove =>
      simp only at e
      obtain ⟨⟨c2, p2, k2, r2⟩, e2, e⟩ := bind_eq_ok.1 e
      cases e
      exact fin (ih (S := S2) (kept := kept) hr hempty' hm' e2) hr.rep (by simp)
    | conflict w' =>
      cases e
      exact ⟨⟨S1, hS1, by simp⟩, by simp only [List.length_cons]; omega⟩

/-- The steps that may still be spent. -/
def potP (d : Nat → Bool) (S : List LC) (p : PropState) : Nat :=
  potS p.values S + 2 * wt d p.watches.byLit 0 + wt d p.binary 0

/-- The literals that are processed, by code of their negations. -/
def addDone (d : Nat → Bool) (i : Nat) : Nat → Bool := fun j => d j || j == i

theorem wt_addDone {α : Type} {d : Nat → Bool} {B : List (List α)} {i : Nat} {ws : List α} (h : B[i]? = some ws)
    (hd : d i = false) : wt (addDone d i) B 0 + ws.length ≤ wt d B 0 := by
  have h1 := wt_set (d := d) h [] 0
  have h2 := wt_set (d := addDone d i) h [] 0
  have h3 : addDone d i i = true := by simp [addDone]
  simp only [Nat.zero_add, hd, h3, Bool.false_eq_true, if_false, if_true, List.length_nil] at h1 h2
  have h4 := wt_mono (d := d) (d' := addDone d i) (by intro j hj; simp [addDone, hj]) (B.set i []) 0
  omega

theorem propagateLongT_cost {n : Nat} {S : List LC} {p p' : PropState} {m : Step} {c : Nat}
    {r : Option ConflictClause} (h : PInv n S p) (hm : p.trail.steps[p.trail.propagated]? = some m)
    {d : Nat → Bool} (hd : d m.lit.neg.code = false) (e : propagateLongT p m.lit = .ok (c, p', r)) :
    (∃ S', LRep p'.long S' ∧ (r = none → c + potS p'.values S' + 2 * wt (addDone d m.lit.neg.code) p'.watches.byLit 0 ≤
      potS p.values S + 2 * wt d p.watches.byLit 0)) ∧
    c ≤ potS p.values S + 2 * wt d p.watches.byLit 0 + litsS S := by
  simp only [propagateLongT] at e
  obtain ⟨_, _, e⟩ := bind_eq_ok.1 e
  obtain ⟨ws, hg, e⟩ := bind_eq_ok.1 e
  have hg := idx_eq_ok.1 hg
  have hmn : m.lit.neg.code < p.watches.byLit.length := (List.getElem?_eq_some_iff.1 hg).1
  obtain ⟨B, hB, e⟩ := bind_eq_ok.1 e
  rw [upd_ok hmn] at hB
  injection hB with hB
  subst hB
  obtain ⟨⟨c1, p1, kept, r1⟩, e1, e⟩ := bind_eq_ok.1 e
  have hvirt : ({ p with watches := { p.watches with
      byLit := p.watches.byLit.set m.lit.neg.code [] } } : PropState).virt m.lit.neg ([] ++ ws) = p := by
    have : (p.watches.byLit.set m.lit.neg.code []).set m.lit.neg.code ws = p.watches.byLit := by
      rw [List.set_set]
      apply List.ext_getElem?
      intro i
      by_cases hi : m.lit.neg.code = i
      · subst hi; rw [List.getElem?_set_self hmn, hg]
      · rw [List.getElem?_set_ne hi]
    simp only [PropState.virt, List.nil_append, this]
  obtain ⟨⟨S1, h1, h2⟩, h3⟩ := propagateLongLoopT_cost d ws (n := n) (S := S) (watched := m.lit.neg) (kept := [])
    (p := { p with watches := { p.watches with
      byLit := p.watches.byLit.set m.lit.neg.code [] } })
    (by rw [hvirt]; exact h) (by simp only; rw [List.getElem?_set_self hmn]) ⟨m, hm, by simp⟩ e1
  obtain ⟨_, _, e⟩ := bind_eq_ok.1 e
  obtain ⟨now, hn, e⟩ := bind_eq_ok.1 e
  have hn := idx_eq_ok.1 hn
  have hmn' : m.lit.neg.code < p1.watches.byLit.length := (List.getElem?_eq_some_iff.1 hn).1
  obtain ⟨_, _, e⟩ := bind_eq_ok.1 e
  obtain ⟨B', hB', e⟩ := bind_eq_ok.1 e
  rw [upd_ok hmn'] at hB'
  injection hB' with hB'
  subst hB'
  cases e
  have k1 := wt_set (d := d) hg [] 0
  simp only [Nat.zero_add, hd, Bool.false_eq_true, if_false, List.length_nil] at k1
  have k2 := wt_set (d := addDone d m.lit.neg.code) hn kept 0
  have k3 : addDone d m.lit.neg.code m.lit.neg.code = true := by simp [addDone]
  simp only [Nat.zero_add, k3, if_true] at k2
  have k4 := wt_mono (d := d) (d' := addDone d m.lit.neg.code) (by intro j hj; simp [addDone, hj]) p1.watches.byLit 0
  simp only at h2 h3
  refine ⟨⟨S1, h1, fun h0 => ?_⟩, ?_⟩
  · have := h2 h0
    simp only
    omega
  · omega

theorem propagateLiteralT_cost {n : Nat} {S : List LC} {p p' : PropState} {m : Step} {c : Nat}
    {r : Option ConflictClause} (h : PInv n S p) (hm : p.trail.steps[p.trail.propagated]? = some m)
    {d : Nat → Bool} (hd : d m.lit.neg.code = false) (e : propagateLiteralT p m.lit = .ok (c, p', r)) :
    (∃ S', LRep p'.long S' ∧ (r = none → c + potP (addDone d m.lit.neg.code) S' p' ≤ potP d S p)) ∧
    c ≤ potP d S p + litsS S := by
  simp only [propagateLiteralT] at e
  obtain ⟨others, hg, e⟩ := bind_eq_ok.1 e
  obtain ⟨⟨k, p1, r1⟩, e1, e⟩ := bind_eq_ok.1 e
  have hk := propagateBinaryT_cost _ _ e1
  have e1' : propagateBinary m.lit.neg others p = .ok (p1, r1) := by rw [← propagateBinaryT_erase, e1]; rfl
  have hg := idx_eq_ok.1 hg
  obtain ⟨h1, hext, hw, hl, _, _⟩ := (propagateBinary_spec m.lit.neg others p h ⟨others, hg, fun b hb => hb⟩
    ⟨m, hm, by simp⟩).ok_elim e1'
  have hv : ValuesLe p.values p1.values := h.trail.valuesLe h1.trail (fun s hs => hext.mem hs)
  have hpot := potS_mono hv S
  have hbin := wt_addDone hg hd
  have hwat := wt_mono (d := d) (d' := addDone d m.lit.neg.code) (by intro j hj; simp [addDone, hj]) p.watches.byLit 0
  unfold potP
  cases r1 with
  | some x =>
    cases e
    refine ⟨⟨S, h1.rep, by simp⟩, by omega⟩
  | none =>
    simp only at e
    obtain ⟨⟨k2, p2, r2⟩, e2, e⟩ := bind_eq_ok.1 e
    cases e
    have hm1 : p1.trail.steps[p1.trail.propagated]? = some m := by
      rw [hext.prop]; exact hext.get hm
    obtain ⟨⟨S', i1, i2⟩, i3⟩ := propagateLongT_cost h1 hm1 hd e2
    have e2' : propagateLong p1 m.lit = .ok (p', r) := by rw [← propagateLongT_erase, e2]; rfl
    obtain ⟨hext2, _⟩ := (propagateLong_spec h1 hm1).ok_elim e2'
    rw [hw] at i2 i3
    refine ⟨⟨S', i1, fun h0 => ?_⟩, ?_⟩
    · have := i2 h0
      rw [hext2.binary, hext.binary]
      omega
    · omega

/-- The processed literals. -/
def doneP (p : PropState) : Nat → Bool := fun i =>
  (p.trail.steps.take p.trail.propagated).any (fun s => s.lit.neg.code == i)

theorem propagateLoopT_cost {n : Nat} (fuel : Nat) : ∀ {S : List LC} {p p' : PropState} {c : Nat}
    {r : Option ConflictClause}, PInv n S p →
    p.trail.steps.length + freeCount n p.trail.steps < fuel + p.trail.propagated →
    propagateLoopT fuel p = .ok (c, p', r) →
    (∀ (i j : Nat) (s t : Step), i < j → p.trail.propagated ≤ j → p'.trail.steps[i]? = some s →
      p'.trail.steps[j]? = some t → s.lit ≠ t.lit) →
    c ≤ p'.trail.propagated - p.trail.propagated + 1 + potP (doneP p) S p + litsS S := by
  induction fuel with
  | zero =>
    intro S p p' c r h hf
    have := h.trail.prop_le
    omega
  | succ fuel ih =>
    intro S p p' c r h hf e hn
    have e' : propagateLoop (fuel + 1) p = .ok (p', r) := by rw [← propagateLoopT_erase, e]; rfl
    obtain ⟨hpe, _⟩ := (propagateLoop_spec (fuel + 1) h hf).ok_elim e'
    unfold propagateLoopT at e
    cases hg : p.trail.steps[p.trail.propagated]? with
    | none => rw [hg] at e; cases e; omega
    | some m =>
      rw [hg] at e
      simp only at e
      obtain ⟨⟨k, p1, r1⟩, e1, e⟩ := bind_eq_ok.1 e
      have e1' : propagateLiteral p m.lit = .ok (p1, r1) := by rw [← propagateLiteralT_erase, e1]; rfl
      have hlen : p.trail.propagated < p.trail.steps.length := (List.getElem?_eq_some_iff.1 hg).1
      have hfin : ∀ {i : Nat} {s : Step}, p.trail.steps[i]? = some s → p'.trail.steps[i]? = some s := by
        intro i s hi
        obtain ⟨new, hnew, _⟩ := hpe.steps
        rw [hnew, List.getElem?_append_left (List.getElem?_eq_some_iff.1 hi).1]; exact hi
      have hd : doneP p m.lit.neg.code = false := by
        unfold doneP
        rw [List.any_eq_false]
        intro s hs hc
        obtain ⟨i, hi, his⟩ := mem_take_iff.1 hs
        have hne := hn i _ s m hi (Nat.le_refl _) (hfin his) (hfin hg)
        have := Lit.ext_code (by simpa using hc : s.lit.neg.code = m.lit.neg.code)
        exact hne (by rw [← Lit.neg_neg s.lit, this, Lit.neg_neg])
      obtain ⟨⟨S1, i1, i2⟩, i3⟩ := propagateLiteralT_cost h hg hd e1
      obtain ⟨hext, S', hsim, h1, hsat, hconf⟩ := (propagateLiteral_spec h hg).ok_elim e1'
      cases r1 with
      | some x => cases e; omega
      | none =>
        simp only at e
        have hlen1 : p1.trail.propagated < p1.trail.steps.length := by
          rw [hext.prop]; exact (List.getElem?_eq_some_iff.1 (hext.get hg)).1
        obtain ⟨hw, hb⟩ := hsat rfl
        rw [← hext.prop] at hw hb
        have h1' : PInv n S' { p1 with trail := { p1.trail with
            propagated := p1.trail.propagated + 1 } } :=
          ⟨⟨h1.sized.values, h1.sized.tix, h1.sized.bin, h1.sized.wat, h1.sized.n_le⟩,
            ⟨h1.trail.vwf, h1.trail.idx_lt, h1.trail.val_iff, h1.trail.tix, h1.trail.dec0,
              h1.trail.level_le, h1.trail.level, h1.trail.decs, hlen1,
              fun i s hi hs => h1.trail.prop_level i s (by simp only at hi; omega) hs⟩,
            h1.reasons, h1.rep, h1.long, h1.ws, h1.blk, hw, h1.bs, hb, h1.enabled, h1.small⟩
        rw [debugM_ok (by simpa using hlen1), bind_ok] at e
        obtain ⟨⟨k2, p2, r2⟩, e2, e⟩ := bind_eq_ok.1 e
        cases e
        have hf' : p1.trail.steps.length + freeCount n p1.trail.steps < fuel + (p1.trail.propagated + 1) := by
          have := hext.free
          rw [hext.prop]; omega
        have hq := ih h1' hf' e2 (fun i j s t hij hj => hn i j s t hij (by simp only [hext.prop] at hj; omega))
        have e2' : propagateLoop fuel { p1 with trail := { p1.trail with
            propagated := p1.trail.propagated + 1 } } = .ok (p', r) := by rw [← propagateLoopT_erase, e2]; rfl
        have hp2 := ((propagateLoop_spec fuel h1' hf').ok_elim e2').1.prop
        have hdone : doneP { p1 with trail := { p1.trail with propagated := p1.trail.propagated + 1 } } =
            addDone (doneP p) m.lit.neg.code := by
          obtain ⟨new, hnew, _⟩ := hext.steps
          funext i
          unfold doneP addDone
          simp only [hext.prop, hnew]
          rw [List.take_append_of_le_length (by omega), List.take_add_one, hg, List.any_append]
          simp only [Option.toList_some, List.any_cons, List.any_nil, Bool.or_false]
          congr 1
          rw [Bool.eq_iff_iff]
          simp only [beq_iff_eq]
          exact eq_comm
        rw [hdone] at hq
        have hx := i2 rfl
        unfold potP at hx hq ⊢
        rw [i1.potS_eq h1.rep] at hx
        rw [litsS_sim hsim] at hq
        simp only at hq hp2
        rw [hext.prop] at hq hp2
        omega

theorem PropagateT.bound {n : Nat} {S : List LC} {p p' : PropState} {ctx ctx' : Ctx} {r : Option ConflictClause}
    (h : PInv n S p) (e : propagate ctx p = .ok (ctx', p', r))
    (hn : ∀ (i j : Nat) (s t : Step), i < j → p.trail.propagated ≤ j → p'.trail.steps[i]? = some s →
      p'.trail.steps[j]? = some t → s.lit ≠ t.lit) :
    ∃ t, propagateT ctx p = .ok (t, ctx', p', r) ∧
      t ≤ p'.trail.propagated - p.trail.propagated + 1 + (p.binary.map List.length).sum +
        2 * (p.watches.byLit.map List.length).sum + 5 * (p.long.buffer.length - p.long.garbage) := by
  rw [← propagateT_erase] at e
  obtain ⟨t, e⟩ := map_snd_eq_ok e
  refine ⟨t, e, ?_⟩
  have he : enableWatchLists p true = .ok p := by
    unfold enableWatchLists
    rw [if_pos h.enabled]; rfl
  simp only [propagateT, he, bind_ok] at e
  obtain ⟨⟨k, q, r1⟩, e1, e⟩ := bind_eq_ok.1 e
  have hx : k = t ∧ q = p' := by
    cases r1 with
    | some c => cases e; exact ⟨rfl, rfl⟩
    | none =>
      simp only at e
      obtain ⟨_, _, e⟩ := bind_eq_ok.1 e
      cases e; exact ⟨rfl, rfl⟩
  obtain ⟨rfl, rfl⟩ := hx
  have h1 := propagateLoopT_cost _ h (by
    have := freeCount_le n p.trail.steps
    have := h.sized.tix
    omega) e1 hn
  have h2 := potS_le p.values S
  have h3 := wt_le (doneP p) p.watches.byLit 0
  have h4 := wt_le (doneP p) p.binary 0
  have h5 := h.rep.litsS_le
  unfold potP at h1
  omega

section
variable {env : Env} {F : List (List Lit)} {s : Solver} {p1 p : PropState} {ctx : Ctx} {r : Option ConflictClause}

/-- C69: a call of `propagate()` in a run takes time linear in the size of the clause database, however many watched
literals are replaced: at most one step for each processed literal and each entry of a list of binary clauses, two for
each entry of a watch list and five for each used word of the clause arena.  Above the top level this holds for every
formula, at the top level for the formulas that do not repeat a unit clause. -/
theorem C69_linear (h : Solver.Propagating env F s p1 ctx p r)
    (h0 : p.trail.decisionLevel ≠ 0 ∨ (unitLits F).Nodup) :
    ∃ t, propagateT s.ctx p1 = .ok (t, ctx, p, r) ∧
      t ≤ p.trail.propagated - p1.trail.propagated + 1 + (p1.binary.map List.length).sum +
        2 * (p1.watches.byLit.map List.length).sum + 5 * (p1.long.buffer.length - p1.long.garbage) := by
  obtain ⟨_, S1, hi, _, hpost⟩ := h.inv
  refine PropagateT.bound hi h.prop ?_
  obtain ⟨hext, S', _, hp, _⟩ := hpost
  intro i j s' t hij hj hs ht hl
  rcases h0 with h0 | h0
  · -- above the top level
    have hlev : t.level = p.trail.decisionLevel := by
      obtain ⟨new, hnew, hall⟩ := hext.steps
      rw [hnew] at ht
      by_cases hjl : j < p1.trail.steps.length
      · rw [List.getElem?_append_left hjl] at ht
        rw [hi.trail.prop_level j t hj ht, hext.level]
      · rw [List.getElem?_append_right (by omega)] at ht
        rw [(hall t (List.mem_iff_getElem?.2 ⟨_, ht⟩)).1, hext.level]
    obtain ⟨a, s1, a1, a2, a3, a4, a5⟩ := hp.trail.tix i s' hs
    obtain ⟨b, t1, b1, b2, b3, b4, b5⟩ := hp.trail.tix j t ht
    rw [hl, b1] at a1
    injection a1 with a1
    subst a1
    rcases b5 with rfl | ⟨b5, _⟩
    · rcases a5 with rfl | ⟨_, a5⟩
      · omega
      · rw [a2] at ht
        injection ht with ht
        subst ht
        omega
    · omega
  · obtain ⟨_, _, _, _, k4⟩ := h.keys
    have hnd := k4 0 (by simpa using h.reach.fixed.nodup 0 (.inl h0))
    rw [List.drop_zero, List.nodup_iff_pairwise_ne, List.pairwise_map, List.pairwise_iff_getElem] at hnd
    have hil := (List.getElem?_eq_some_iff.1 hs)
    have hjl := (List.getElem?_eq_some_iff.1 ht)
    obtain ⟨hil, his⟩ := hil
    obtain ⟨hjl, hjt⟩ := hjl
    refine hnd i j hil hjl hij ?_
    rw [his, hjt, hl]

end

/-- C69: the counted function is the one of the model. -/
theorem C69_counted (ctx : Ctx) (p : PropState) :
    Except.map Prod.snd (propagateT ctx p) = propagate ctx p := propagateT_erase ctx p


/-- The hypotheses of C69 are met by a chain of implications that makes the watched literals of the last clause false one
after the other: 26 steps, and at most 64 by the bound. -/
theorem C69_example : ∃ s p1 ctx p, Solver.Propagating Example.env
    (Example.cnf [[1], [-1, 2], [-2, 3], [-3, 4], [-4, 5], [-1, -2, -3, -4, -5, 6]]) s p1 ctx p none ∧
    (unitLits (Example.cnf [[1], [-1, 2], [-2, 3], [-3, 4], [-4, 5], [-1, -2, -3, -4, -5, 6]])).Nodup ∧
    propagateT s.ctx p1 = .ok (26, ctx, p, none) ∧
    p.trail.propagated - p1.trail.propagated = 6 ∧ (p1.binary.map List.length).sum = 8 ∧
    (p1.watches.byLit.map List.length).sum = 2 ∧ p1.long.buffer.length - p1.long.garbage = 9 := by
  have h : (do
      let x ← Example.mid [[1], [-1, 2], [-2, 3], [-3, 4], [-4, 5], [-1, -2, -3, -4, -5, 6]] 0
      let t ← propagateT x.1.ctx x.2.1
      pure (x.2.2.2.2, [t.1, x.2.2.2.1.trail.propagated - x.2.1.trail.propagated, (x.2.1.binary.map List.length).sum,
        (x.2.1.watches.byLit.map List.length).sum, x.2.1.long.buffer.length - x.2.1.long.garbage]) :
      M (Option ConflictClause × List Nat)) = .ok (none, [26, 6, 8, 2, 9]) := by decide +kernel
  obtain ⟨⟨s, p1, ctx, p, r⟩, h1, h2⟩ := bind_eq_ok.1 h
  obtain ⟨⟨t, ctx', p', r'⟩, h3, h2⟩ := bind_eq_ok.1 h2
  have h2 := Except.ok.inj h2
  simp only [Prod.mk.injEq, List.cons.injEq, and_true] at h2
  obtain ⟨rfl, rfl, a1, a2, a3, a4⟩ := h2
  have hp := Example.mid_propagating (by decide +kernel) h1
  have hn : (unitLits (Example.cnf [[1], [-1, 2], [-2, 3], [-3, 4], [-4, 5], [-1, -2, -3, -4, -5, 6]])).Nodup := by
    decide +kernel
  obtain ⟨t, ht, _⟩ := C69_linear hp (.inr hn)
  rw [h3] at ht
  injection ht with ht
  rw [ht] at h3
  simp only [Prod.mk.injEq] at ht
  obtain ⟨rfl, rfl, rfl, rfl⟩ := ht
  exact ⟨s, p1, _, _, hp, hn, h3, a1, a2, a3, a4⟩

/-- The condition of C69 on the unit clauses is needed: every copy of a unit clause is put on the trail and propagated
again, so the time is the number of copies times the number of clauses.  Here four copies and three binary clauses take
19 steps, the bound is 14. -/
theorem C69_repeated : ∃ s p1 ctx p t, Solver.Propagating Example.env
    (Example.cnf [[1], [1], [1], [1], [-1, 2], [-1, 3], [-1, 4]]) s p1 ctx p none ∧
    propagateT s.ctx p1 = .ok (t, ctx, p, none) ∧
    p.trail.propagated - p1.trail.propagated + 1 + (p1.binary.map List.length).sum +
      2 * (p1.watches.byLit.map List.length).sum + 5 * (p1.long.buffer.length - p1.long.garbage) < t := by
  have h : (do
      let x ← Example.mid [[1], [1], [1], [1], [-1, 2], [-1, 3], [-1, 4]] 0
      let t ← propagateT x.1.ctx x.2.1
      pure (x.2.2.2.2, decide (x.2.2.2.1.trail.propagated - x.2.1.trail.propagated + 1 +
        (x.2.1.binary.map List.length).sum + 2 * (x.2.1.watches.byLit.map List.length).sum +
        5 * (x.2.1.long.buffer.length - x.2.1.long.garbage) < t.1)) :
      M (Option ConflictClause × Bool)) = .ok (none, true) := by decide +kernel
  obtain ⟨⟨s, p1, ctx, p, r⟩, h1, h2⟩ := bind_eq_ok.1 h
  obtain ⟨⟨t, ctx', p', r'⟩, h3, h2⟩ := bind_eq_ok.1 h2
  have h2 := Except.ok.inj h2
  simp only [Prod.mk.injEq, decide_eq_true_eq] at h2
  obtain ⟨rfl, h5⟩ := h2
  have hp := Example.mid_propagating (by decide +kernel) h1
  have h4 := C69_counted s.ctx p1
  rw [hp.prop, h3] at h4
  have h4 := Except.ok.inj h4
  simp only [Prod.mk.injEq] at h4
  obtain ⟨rfl, rfl, rfl⟩ := h4
  exact ⟨s, p1, ctx', p', t, hp, h3, h5⟩

end Starlit
