import Verif.Props.ReduceCost

/-!
# All the work of a garbage collection

`collect_garbage` once more, now with one counter for everything: the words looked at to find the clauses, the words
copied, the entries of the trail and of the watch lists, and the iterations of the binary searches in the gaps.
-/

namespace Starlit

/-! ## Counting -/

namespace Arena

/-- The binary search of `update` (`/repo/starlit/src/clause_arena.rs:566-574`), as `[T]::binary_search_by` does it, with
the number of iterations. -/
def searchLoopT (gaps : List Gap) (id : Nat) : Nat → Nat → Nat → M (Nat × Nat)
  | 0, _, _ => throw .fuel
  | fuel + 1, left, right =>
    if left < right then do
      let mid := left + (right - left) / 2
      let g ← idx gaps mid
      if g.start > id then do
        let (t, r) ← searchLoopT gaps id fuel left mid
        pure (t + 1, r)
      else do
        let (t, r) ← searchLoopT gaps id fuel (mid + 1) right
        pure (t + 1, r)
    else pure (0, left)

/-- `ClauseRefGcMap::update` (`/repo/starlit/src/clause_arena.rs:564-596`), one more than the iterations of the search. -/
def gapsUpdateT (gaps : List Gap) (c : Nat) : M (Nat × Option Nat) := do
  let (t, index) ← searchLoopT gaps c (gaps.length + 1) 0 gaps.length
  match (if index = 0 then none else gaps[index - 1]?) with
  | some g => do
    debugM (decide (g.start ≤ c))
    if g.stop > c then pure (t + 1, none)
    else do
      debugM (decide (g.shift ≤ c))
      pure (t + 1, some ((c + 2 ^ 32 - g.shift) % 2 ^ 32))
  | none => pure (t + 1, some c)

/-- The loop of `collect_garbage` (`/repo/starlit/src/clause_arena.rs:490-505`): the words looked at by `next_clause`, and
the words copied. -/
def gcLoopS : Nat → List Word → Option Nat → Nat → Nat → List Gap → M ((Nat × Nat) × List Word × Nat × Nat × List Gap)
  | 0, _, _, _, _, _ => throw .fuel
  | fuel + 1, buf, read, write, expected, gaps =>
    match read with
    | none => pure ((0, 0), buf, write, expected, gaps)
    | some clause => do
      let (g, read') ← Long.nextT ⟨buf, 0⟩ (some clause)
      let len ← clauseLen Long.hl ⟨buf, 0⟩ clause
      let storage := len + Long.hl + 1
      debugM (clause == expected || decide (write ≤ clause))
      let gaps' := if clause ≠ expected then
        gaps ++ [⟨expected % 2 ^ 32, clause % 2 ^ 32, (clause - write) % 2 ^ 32⟩] else gaps
      let buf' ← copyWithin buf clause storage write
      let (t, r) ← gcLoopS fuel buf' read' (write + storage) (clause + storage) gaps'
      pure ((t.1 + g, t.2 + storage), r)

/-- `collect_garbage` (`/repo/starlit/src/clause_arena.rs:480-522`): words looked at and words copied. -/
def collectGarbageS (a : Arena) : M (Nat × Arena × List Gap) := do
  let (g, read) ← Long.nextT a none
  let (t, buf, write, expected, gaps) ← gcLoopS (a.buffer.length + 1) a.buffer read 0 0 []
  let readOffset := buf.length
  debugM (readOffset == expected || decide (write ≤ readOffset))
  let gaps' := if readOffset ≠ expected then
    gaps ++ [⟨expected % 2 ^ 32, readOffset % 2 ^ 32, (readOffset - write) % 2 ^ 32⟩] else gaps
  pure (g + t.1 + t.2, ⟨buf.take write, 0⟩, gaps')

end Arena

/-- `update_clause_references` (`/repo/starlit/src/prop/trail.rs:197-201`): one for each step, and the work of `update`. -/
def Trail.updateStepsS (gaps : List Arena.Gap) : List Step → M (Nat × List Step)
  | [] => pure (0, [])
  | s :: ss => do
    let (k, s') ← match s.reason with
      | .long c => do
        match ← Arena.gapsUpdateT gaps c with
        | (k, some c') => pure (k, { s with reason := .long c' })
        | (_, none) => throw .panic
      | _ => pure (0, s)
    let (t, ss') ← updateStepsS gaps ss
    pure (t + k + 1, s' :: ss')

/-- The loop over one watch list of `update_clause_references` (`/repo/starlit/src/prop/watch.rs:98-106`): one for each
watch, and the work of `update`. -/
def Watches.updateListS (gaps : List Arena.Gap) : List Watch → M (Nat × List Watch)
  | [] => pure (0, [])
  | w :: ws => do
    let (k, r) ← Arena.gapsUpdateT gaps w.clause
    let (t, ws') ← updateListS gaps ws
    match r with
    | some c => pure (t + k + 1, { w with clause := c } :: ws')
    | none => pure (t + k + 1, ws')

/-- `update_clause_references` (`/repo/starlit/src/prop/watch.rs:95-108`): one for each list as well. -/
def Watches.updateAllS (gaps : List Arena.Gap) : List (List Watch) → M (Nat × List (List Watch))
  | [] => pure (0, [])
  | l :: ls => do
    let (t1, l') ← updateListS gaps l
    let (t2, ls') ← updateAllS gaps ls
    pure (t1 + t2 + 1, l' :: ls')

/-- `collect_garbage_now` (`/repo/starlit/src/prop.rs:157-168`) with all its work. -/
def collectGarbageNowS (p : PropState) : M (Nat × PropState) :=
  if p.long.buffer.length < 2 ^ 32 then do
    let (w, a, gaps) ← Arena.collectGarbageS p.long
    let (t1, steps) ← Trail.updateStepsS gaps p.trail.steps
    debugM p.watches.enabled
    let (t2, byLit) ← Watches.updateAllS gaps p.watches.byLit
    pure (w + t1 + t2, { p with
      long := a
      trail := { p.trail with steps := steps }
      watches := { p.watches with byLit := byLit } })
  else throw .tooBig

/-- `collect_garbage` (`/repo/starlit/src/prop.rs:150-154`) with all its work. -/
def collectGarbageS (p : PropState) : M (Nat × PropState) :=
  if Arena.shouldCollectGarbage p.long then collectGarbageNowS p else pure (0, p)

/-! ## The counted functions are those of the model -/

theorem Arena.searchLoopT_erase (gaps : List Arena.Gap) (id : Nat) : ∀ (fuel left right : Nat),
    Except.map Prod.snd (searchLoopT gaps id fuel left right) = searchLoop gaps id fuel left right
  | 0, _, _ => rfl
  | fuel + 1, left, right => by
    unfold searchLoopT searchLoop
    split
    · simp only [map_snd_bind]
      congr 1; funext g
      split
      · rw [← searchLoopT_erase gaps id fuel]
        cases searchLoopT gaps id fuel left (left + (right - left) / 2) <;> rfl
      · rw [← searchLoopT_erase gaps id fuel]
        cases searchLoopT gaps id fuel (left + (right - left) / 2 + 1) right <;> rfl
    · rfl

theorem Arena.gapsUpdateT_erase (gaps : List Arena.Gap) (c : Nat) :
    Except.map Prod.snd (gapsUpdateT gaps c) = gapsUpdate gaps c := by
  unfold gapsUpdateT gapsUpdate
  rw [← searchLoopT_erase, bind_map_snd, map_snd_bind]
  congr 1; funext ⟨t, index⟩
  simp only
  cases (if index = 0 then none else gaps[index - 1]?) with
  | none => rfl
  | some g =>
    simp only [map_snd_bind]
    congr 1; funext _
    split
    · rfl
    · simp only [map_snd_bind]; rfl

theorem Arena.gcLoopS_erase : ∀ (fuel : Nat) (buf : List Word) (read : Option Nat) (write expected : Nat)
    (gaps : List Arena.Gap),
    Except.map Prod.snd (gcLoopS fuel buf read write expected gaps) = gcLoop Long.hl fuel buf read write expected gaps
  | 0, _, _, _, _, _ => rfl
  | fuel + 1, buf, read, write, expected, gaps => by
    unfold gcLoopS gcLoop
    cases read with
    | none => rfl
    | some c =>
      have hn : nextClause Long.hl ⟨buf, 0⟩ (some c) = Except.map Prod.snd (Long.nextT ⟨buf, 0⟩ (some c)) := by
        rw [Long.nextT_erase]; rfl
      simp only [hn, bind_map_snd, map_snd_bind]
      refine bind_congr fun _ => bind_congr fun _ => bind_congr fun _ => bind_congr fun _ => ?_
      rw [← gcLoopS_erase fuel]
      generalize gcLoopS fuel _ _ _ _ _ = x
      cases x <;> rfl

theorem Arena.collectGarbageS_erase (a : Arena) :
    Except.map Prod.snd (collectGarbageS a) = collectGarbage Long.hl a := by
  unfold collectGarbageS collectGarbage
  have hn : nextClause Long.hl a none = Except.map Prod.snd (Long.nextT a none) := by rw [Long.nextT_erase]; rfl
  simp only [hn, bind_map_snd, map_snd_bind]
  refine bind_congr fun _ => ?_
  rw [← gcLoopS_erase, bind_map_snd]
  rfl

section
variable {gaps : List Arena.Gap}

theorem Trail.updateStepsS_erase : ∀ (ss : List Step),
    Except.map Prod.snd (updateStepsS gaps ss) = updateSteps gaps ss
  | [] => rfl
  | s :: ss => by
    have key : ∀ (k : Nat) (x : Step), Except.map Prod.snd (do
        let (t, ss') ← updateStepsS gaps ss
        pure (t + k + 1, x :: ss')) = (do
        let ss' ← updateSteps gaps ss
        pure (x :: ss')) := by
      intro k x
      rw [← updateStepsS_erase ss, bind_map_snd, map_snd_bind]
      rfl
    unfold updateStepsS updateSteps
    cases s.reason with
    | long c =>
      simp only
      rw [← Arena.gapsUpdateT_erase, bind_map_snd]
      simp only [map_snd_bind]
      refine bind_congr fun x => ?_
      obtain ⟨k, x⟩ := x
      cases x with
      | some c => exact key _ _
      | none => rfl
    | _ => exact key 0 s

theorem Watches.updateListS_erase : ∀ (ws : List Watch),
    Except.map Prod.snd (updateListS gaps ws) = updateList gaps ws
  | [] => rfl
  | w :: ws => by
    unfold updateListS updateList
    simp only [map_snd_bind]
    rw [← Arena.gapsUpdateT_erase, bind_map_snd]
    refine bind_congr fun r => ?_
    rw [← updateListS_erase ws, bind_map_snd]
    refine bind_congr fun x => ?_
    obtain ⟨k, r⟩ := r
    cases r <;> rfl

theorem Watches.updateAllS_erase : ∀ (ws : List (List Watch)),
    Except.map Prod.snd (updateAllS gaps ws) = updateAll gaps ws
  | [] => rfl
  | w :: ws => by
    unfold updateAllS updateAll
    simp only [map_snd_bind]
    rw [← updateListS_erase w, bind_map_snd]
    refine bind_congr fun r => ?_
    rw [← updateAllS_erase ws, bind_map_snd]
    rfl

end

theorem collectGarbageNowS_erase (p : PropState) : Except.map Prod.snd (collectGarbageNowS p) = collectGarbageNow p := by
  unfold collectGarbageNowS collectGarbageNow
  split
  · simp only [map_snd_bind]
    rw [← Arena.collectGarbageS_erase, bind_map_snd]
    refine bind_congr fun x => ?_
    rw [← Trail.updateStepsS_erase, bind_map_snd]
    refine bind_congr fun _ => bind_congr fun _ => ?_
    rw [← Watches.updateAllS_erase, bind_map_snd]
    rfl
  · rfl

theorem collectGarbageS_erase (p : PropState) : Except.map Prod.snd (collectGarbageS p) = collectGarbage p := by
  unfold collectGarbageS collectGarbage
  split
  · exact collectGarbageNowS_erase p
  · rfl

/-! ## Bounds -/

theorem Arena.searchLoopT_le {gaps : List Arena.Gap} {id : Nat} : ∀ (fuel : Nat) {left right t r m : Nat},
    searchLoopT gaps id fuel left right = .ok (t, r) → right - left < 2 ^ m → t ≤ m
  | 0, _, _, _, _, _, e, _ => by cases e
  | fuel + 1, left, right, t, r, m, e, hm => by
    unfold searchLoopT at e
    split at e
    · rename_i hlt
      cases m with
      | zero => simp only [Nat.pow_zero] at hm; omega
      | succ m =>
        rw [Nat.pow_succ] at hm
        simp only at e
        obtain ⟨g, _, e⟩ := bind_eq_ok.1 e
        split at e
        · obtain ⟨⟨t1, r1⟩, e1, e⟩ := bind_eq_ok.1 e
          cases e
          have := searchLoopT_le fuel (m := m) e1 (by omega)
          omega
        · obtain ⟨⟨t1, r1⟩, e1, e⟩ := bind_eq_ok.1 e
          cases e
          have := searchLoopT_le fuel (m := m) e1 (by omega)
          omega
    · cases e; exact Nat.zero_le _

theorem Arena.gapsUpdateT_le {gaps : List Arena.Gap} {c t m : Nat} {r : Option Nat}
    (e : gapsUpdateT gaps c = .ok (t, r)) (hm : gaps.length < 2 ^ m) : t ≤ m + 1 := by
  unfold gapsUpdateT at e
  obtain ⟨⟨k, index⟩, e1, e⟩ := bind_eq_ok.1 e
  have := searchLoopT_le _ e1 (m := m) (by omega)
  simp only at e
  split at e
  · obtain ⟨_, _, e⟩ := bind_eq_ok.1 e
    split at e
    · cases e; omega
    · obtain ⟨_, _, e⟩ := bind_eq_ok.1 e
      cases e; omega
  · cases e; omega

theorem nextT_pos {a : Arena} {it r : Option Nat} {t : Nat} (e : Long.nextT a it = .ok (t, r)) : 1 ≤ t := by
  obtain ⟨start, e1, _⟩ := Long.nextT_scan e
  unfold Arena.findLoopT at e1
  split at e1
  · cases e1; exact Nat.le_refl _
  · split at e1
    · split at e1
      · obtain ⟨_, _, e1⟩ := bind_eq_ok.1 e1
        obtain ⟨_, _, e1⟩ := bind_eq_ok.1 e1
        cases e1; exact Nat.le_add_left _ _
      · obtain ⟨_, _, e1⟩ := bind_eq_ok.1 e1
        cases e1; exact Nat.le_refl _
    · obtain ⟨_, _, e1⟩ := bind_eq_ok.1 e1
      cases e1; exact Nat.le_add_left _ _

/-- `nextT_le` for a buffer that is not in order, as during a collection. -/
theorem nextT_le' {a : Arena} (h : a.buffer.length < 2 ^ 32) {it r : Option Nat} {t : Nat}
    (e : Long.nextT a it = .ok (t, r)) (hp : passed it ≤ a.buffer.length) :
    (r = none → t + passed it ≤ a.buffer.length + 1) ∧
    ∀ c, r = some c → t + passed it ≤ passed (some c) ∧ passed (some c) ≤ a.buffer.length := by
  obtain ⟨start, e, hs'⟩ := Long.nextT_scan e
  have hs : passed it ≤ start := by
    cases it with
    | none => exact Nat.zero_le _
    | some c => exact hs' c rfl
  obtain ⟨i1, i2⟩ := findLoopT_le _ e
  refine ⟨fun hr => ?_, fun c hc => ?_⟩
  · have := i1 hr; omega
  · obtain ⟨w, P, h1, h2, h3, h4, h5⟩ := i2 c hc
    have hP : P < a.buffer.length := (List.getElem?_eq_some_iff.1 h1).1
    have hl2 : Long.hl = 2 := rfl
    rw [hl2] at h3 h4
    rw [Nat.mod_eq_of_lt (by omega)] at h4
    show t + passed it ≤ c + 3 ∧ c + 3 ≤ _
    omega

theorem Arena.gcLoopS_le : ∀ (fuel : Nat) {buf buf' : List Word} {read : Option Nat}
    {write write' expected expected' g t : Nat} {gaps gaps' : List Arena.Gap}, buf.length < 2 ^ 32 →
    passed read ≤ buf.length → write ≤ buf.length →
    gcLoopS fuel buf read write expected gaps = .ok ((g, t), buf', write', expected', gaps') →
    g + passed read ≤ buf.length + 1 ∧ t + write ≤ buf.length ∧ gaps'.length ≤ gaps.length + g
  | 0, _, _, _, _, _, _, _, _, _, _, _, _, _, _, e => by cases e
  | fuel + 1, buf, buf', read, write, write', expected, expected', g, t, gaps, gaps', hb, hp, hw, e => by
    unfold gcLoopS at e
    cases read with
    | none => cases e; exact ⟨by simp [passed], by omega, by omega⟩
    | some c =>
      obtain ⟨⟨g1, read'⟩, e1, e⟩ := bind_eq_ok.1 e
      obtain ⟨len, _, e⟩ := bind_eq_ok.1 e
      obtain ⟨_, _, e⟩ := bind_eq_ok.1 e
      obtain ⟨b, e2, e⟩ := bind_eq_ok.1 e
      obtain ⟨⟨t1, r⟩, e3, e⟩ := bind_eq_ok.1 e
      cases e
      have hpos := nextT_pos e1
      obtain ⟨n1, n2⟩ := nextT_le' (a := ⟨buf, 0⟩) hb e1 hp
      simp only at n1 n2
      unfold copyWithin at e2
      obtain ⟨_, h1, e2⟩ := bind_eq_ok.1 e2
      obtain ⟨_, h2, e2⟩ := bind_eq_ok.1 e2
      cases e2
      simp only [assertM] at h1 h2
      split at h1
      · split at h2
        · rename_i h3 h4
          simp only [decide_eq_true_eq] at h3 h4
          have hbl : (buf.take write ++ (buf.drop c).take (len + Long.hl + 1) ++
              buf.drop (write + (len + Long.hl + 1))).length = buf.length := by
            simp only [List.length_append, List.length_take, List.length_drop]
            omega
          obtain ⟨i1, i2, i3⟩ := gcLoopS_le fuel (by rw [hbl]; exact hb) (by
            rw [hbl]
            cases read' with
            | none => exact Nat.zero_le _
            | some c' => exact (n2 c' rfl).2) (by rw [hbl]; exact h4) e3
          rw [hbl] at i1 i2
          have hg : (if c ≠ expected then
              gaps ++ [⟨expected % 2 ^ 32, c % 2 ^ 32, (c - write) % 2 ^ 32⟩] else gaps).length ≤ gaps.length + 1 := by
            split <;> simp
          refine ⟨?_, by omega, by omega⟩
          cases read' with
          | none =>
            have := n1 rfl
            -- no further clause
            have ht1 : t1.1 = 0 := by
              cases fuel with
              | zero => cases e3
              | succ fuel => unfold gcLoopS at e3; cases e3; rfl
            omega
          | some c' =>
            have := n2 c' rfl
            omega
        · cases h2
      · cases h1

theorem Arena.collectGarbageS_le {a a' : Arena} {t : Nat} {gaps : List Arena.Gap} (hb : a.buffer.length < 2 ^ 32)
    (e : collectGarbageS a = .ok (t, a', gaps)) :
    t ≤ 2 * a.buffer.length + 1 ∧ gaps.length ≤ a.buffer.length + 2 := by
  unfold collectGarbageS at e
  obtain ⟨⟨g, read⟩, e1, e⟩ := bind_eq_ok.1 e
  obtain ⟨⟨⟨u1, u2⟩, buf, write, ex, gs⟩, e2, e⟩ := bind_eq_ok.1 e
  obtain ⟨_, _, e⟩ := bind_eq_ok.1 e
  cases e
  obtain ⟨n1, n2⟩ := nextT_le' hb e1 (Nat.zero_le _)
  have hp0 : passed none = 0 := rfl
  rw [hp0] at n1 n2
  have hread : passed read ≤ a.buffer.length := by
    cases read with
    | none => exact Nat.zero_le _
    | some c => exact (n2 c rfl).2
  obtain ⟨i1, i2, i3⟩ := gcLoopS_le _ hb hread (Nat.zero_le _) e2
  have hgs : ∀ x : Arena.Gap, (if buf.length ≠ ex then gs ++ [x] else gs).length ≤ gs.length + 1 := by
    intro x; split <;> simp
  simp only [List.length_nil] at i3
  refine ⟨?_, (hgs _).trans (by omega)⟩
  simp only
  cases read with
  | none =>
    have hu : u1 = 0 := by unfold gcLoopS at e2; cases e2; rfl
    have := n1 rfl
    omega
  | some c =>
    have := n2 c rfl
    omega

section
variable {gaps : List Arena.Gap} {m : Nat}

theorem Trail.updateStepsS_le (hm : gaps.length < 2 ^ m) : ∀ (ss : List Step) {t : Nat} {ss' : List Step},
    updateStepsS gaps ss = .ok (t, ss') → t ≤ ss.length * (m + 2)
  | [], t, ss', e => by cases e; simp
  | s :: ss, t, ss', e => by
    have key : ∀ (k : Nat) (x : Step), k ≤ m + 1 → (do
        let (t, ss') ← updateStepsS gaps ss
        pure (t + k + 1, x :: ss')) = .ok (t, ss') → t ≤ (s :: ss).length * (m + 2) := by
      intro k x hk e
      obtain ⟨⟨t1, _⟩, e1, e⟩ := bind_eq_ok.1 e
      cases e
      have := updateStepsS_le hm ss e1
      rw [List.length_cons, Nat.succ_mul]
      omega
    unfold updateStepsS at e
    simp only at e
    split at e
    · obtain ⟨⟨k, x⟩, ek, e⟩ := bind_eq_ok.1 e
      have hk := Arena.gapsUpdateT_le ek hm
      cases x with
      | some c => exact key _ _ hk e
      | none => cases e
    · exact key _ _ (Nat.zero_le _) e

theorem Watches.updateListS_le (hm : gaps.length < 2 ^ m) : ∀ (ws : List Watch) {t : Nat} {ws' : List Watch},
    updateListS gaps ws = .ok (t, ws') → t ≤ ws.length * (m + 2) ∧ ws'.length ≤ ws.length
  | [], t, ws', e => by cases e; simp
  | w :: ws, t, ws', e => by
    unfold updateListS at e
    obtain ⟨⟨k, r⟩, ek, e⟩ := bind_eq_ok.1 e
    have hk := Arena.gapsUpdateT_le ek hm
    obtain ⟨⟨t1, ws1⟩, e1, e⟩ := bind_eq_ok.1 e
    obtain ⟨i1, i2⟩ := updateListS_le hm ws e1
    rw [List.length_cons, Nat.succ_mul]
    cases r <;> cases e
    · exact ⟨by omega, by omega⟩
    · exact ⟨by omega, by rw [List.length_cons]; omega⟩

theorem Watches.updateAllS_le (hm : gaps.length < 2 ^ m) : ∀ (ws : List (List Watch)) {t : Nat} {ws' : List (List Watch)},
    updateAllS gaps ws = .ok (t, ws') → t ≤ ws.length + (ws.map List.length).sum * (m + 2) ∧
      (ws'.map List.length).sum ≤ (ws.map List.length).sum
  | [], t, ws', e => by cases e; simp
  | w :: ws, t, ws', e => by
    unfold updateAllS at e
    obtain ⟨⟨t1, w1⟩, e1, e⟩ := bind_eq_ok.1 e
    obtain ⟨⟨t2, ws1⟩, e2, e⟩ := bind_eq_ok.1 e
    cases e
    obtain ⟨h1, h2⟩ := updateListS_le hm w e1
    obtain ⟨h3, h4⟩ := updateAllS_le hm ws e2
    simp only [List.length_cons, List.map_cons, List.sum_cons, Nat.add_mul]
    omega

end

/-- The work of a collection is linear in the size of the propagation state: the binary searches take at most 33
iterations, because the arena has less than `2^32` words. -/
theorem collectGarbageS_le {p p' : PropState} {t : Nat} (e : collectGarbageS p = .ok (t, p')) :
    t ≤ 2 * p.long.buffer.length + 1 + 35 * p.trail.steps.length + p.watches.byLit.length +
      35 * (p.watches.byLit.map List.length).sum ∧
    (p'.watches.byLit.map List.length).sum ≤ (p.watches.byLit.map List.length).sum := by
  unfold collectGarbageS at e
  split at e
  · unfold collectGarbageNowS at e
    split at e
    · rename_i hb
      obtain ⟨⟨w, a, gaps⟩, e1, e⟩ := bind_eq_ok.1 e
      obtain ⟨⟨t1, ss⟩, e2, e⟩ := bind_eq_ok.1 e
      obtain ⟨_, _, e⟩ := bind_eq_ok.1 e
      obtain ⟨⟨t2, ws⟩, e3, e⟩ := bind_eq_ok.1 e
      cases e
      obtain ⟨h1, h2⟩ := Arena.collectGarbageS_le hb e1
      have hm : gaps.length < 2 ^ 33 := by omega
      have h3 := Trail.updateStepsS_le hm _ e2
      obtain ⟨h4, h5⟩ := Watches.updateAllS_le hm _ e3
      exact ⟨by omega, h5⟩
    · cases e
  · cases e
    exact ⟨Nat.zero_le _, Nat.le_refl _⟩

end Starlit
