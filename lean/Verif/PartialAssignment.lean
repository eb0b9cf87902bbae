import Verif.Lit

/-!
# Partial assignments

Model of `/repo/starlit/src/partial_assignment.rs`: one byte per variable.
-/

namespace Starlit

/-- `struct PartialAssignment { assigned: VecMap<Var, u8> }`
(`/repo/starlit/src/partial_assignment.rs:12-24`). -/
structure PartialAssignment where
  assigned : List (BitVec 8)
deriving DecidableEq, Repr

/-- `Default::default()` (`/repo/starlit/src/partial_assignment.rs:11`). -/
def PartialAssignment.empty : PartialAssignment := ⟨[]⟩

/-- `lit.code() as u8`. -/
def Lit.code8 (l : Lit) : BitVec 8 := BitVec.ofNat 8 l.code

/-- `(var.index() * 2) as u8 ^ 2`. -/
def unassignedByte (index : Nat) : BitVec 8 := BitVec.ofNat 8 (index * 2) ^^^ 2#8

namespace PartialAssignment

/-- `assign` (`/repo/starlit/src/partial_assignment.rs:31-33`). -/
def assign (pa : PartialAssignment) (l : Lit) : M PartialAssignment := do
  let a ← upd pa.assigned l.index l.code8
  pure ⟨a⟩

/-- `unassign` (`/repo/starlit/src/partial_assignment.rs:37-39`); the variable is given by its
index. -/
def unassign (pa : PartialAssignment) (i : Nat) : M PartialAssignment := do
  let a ← upd pa.assigned i (unassignedByte i)
  pure ⟨a⟩

/-- `is_true` (`/repo/starlit/src/partial_assignment.rs:43-45`). -/
def isTrue (pa : PartialAssignment) (l : Lit) : M Bool := do
  let b ← idx pa.assigned l.index
  pure (b == l.code8)

/-- `is_false` (`/repo/starlit/src/partial_assignment.rs:49-51`). -/
def isFalse (pa : PartialAssignment) (l : Lit) : M Bool := do
  let b ← idx pa.assigned l.index
  pure (b == l.code8 ^^^ 1#8)

/-- `is_assigned` (`/repo/starlit/src/partial_assignment.rs:55-57`). -/
def isAssigned (pa : PartialAssignment) (i : Nat) : M Bool := do
  let b ← idx pa.assigned i
  pure (b != unassignedByte i)

/-- `value` (`/repo/starlit/src/partial_assignment.rs:65-71`). -/
def value (pa : PartialAssignment) (l : Lit) : M (Option Bool) := do
  let b ← idx pa.assigned l.index
  let x := b ^^^ l.code8
  pure (if x = 0#8 then some true else if x = 1#8 then some false else none)

/-- The `while` loop of `resize` (`/repo/starlit/src/partial_assignment.rs:76-79`): `k` more
entries are pushed. -/
def growLoop : Nat → List (BitVec 8) → List (BitVec 8)
  | 0, a => a
  | k + 1, a => growLoop k (a ++ [unassignedByte a.length])

/-- `resize` (`/repo/starlit/src/partial_assignment.rs:74-82`). -/
def resize (pa : PartialAssignment) (varCount : Nat) : PartialAssignment :=
  ⟨(growLoop (varCount - pa.assigned.length) pa.assigned).take varCount⟩

/-! ## Abstract view -/

/-- The value of a literal as read by `value`, with `none` when out of range. -/
def val (pa : PartialAssignment) (l : Lit) : Option Bool :=
  match pa.assigned[l.index]? with
  | none => none
  | some b =>
    let x := b ^^^ l.code8
    if x = 0#8 then some true else if x = 1#8 then some false else none

/-- Every byte is the code of a literal of its variable or the unassigned marker. -/
def WF (pa : PartialAssignment) : Prop :=
  ∀ i b, pa.assigned[i]? = some b →
    b = BitVec.ofNat 8 (i * 2) ∨ b = BitVec.ofNat 8 (i * 2) ^^^ 1#8 ∨ b = unassignedByte i

end PartialAssignment

/-! ## Byte arithmetic -/

theorem code8_eq (l : Lit) :
    l.code8 = BitVec.ofNat 8 (l.index * 2) ^^^ (if l.isPositive then 1#8 else 0#8) := by
  apply BitVec.eq_of_toNat_eq
  rw [Lit.isPositive_eq, Lit.index_eq, Lit.code8]
  simp only [BitVec.toNat_ofNat, BitVec.toNat_xor]
  rcases Nat.mod_two_eq_zero_or_one l.code with h | h
  · simp only [h]
    have : l.code / 2 * 2 = l.code := by omega
    simp [this]
  · simp only [h, decide_true, if_true, BitVec.toNat_ofNat, Nat.reducePow, Nat.reduceMod]
    have h2 : l.code % 2 ^ 8 = 2 * (l.code / 2 % 128) + 1 := by omega
    have h3 : l.code / 2 * 2 % 256 = 2 * (l.code / 2 % 128) := by omega
    have h1 := Nat.xor_one_div (l.code / 2 * 2 % 256)
    have h4 := Nat.xor_one_mod (l.code / 2 * 2 % 256)
    omega

theorem ofNat8_even (i : Nat) : BitVec.ofNat 8 (i * 2) &&& 1#8 = 0#8 := by
  apply BitVec.eq_of_toNat_eq
  simp [Nat.and_one_is_mod]

/-- All facts about the byte encoding, for one even base byte (a finite table of 256 bytes). -/
theorem byte_table : ∀ x : BitVec 8, x &&& 1#8 = 0#8 →
    x ^^^ 1#8 ≠ x ∧ x ^^^ 2#8 ≠ x ∧ x ^^^ 2#8 ≠ x ^^^ 1#8 ∧
    x ^^^ x = 0#8 ∧ (x ^^^ 1#8) ^^^ x = 1#8 ∧ x ^^^ (x ^^^ 1#8) = 1#8 ∧
    (x ^^^ 1#8) ^^^ (x ^^^ 1#8) = 0#8 ∧
    (x ^^^ 2#8) ^^^ x ≠ 0#8 ∧ (x ^^^ 2#8) ^^^ x ≠ 1#8 ∧
    (x ^^^ 2#8) ^^^ (x ^^^ 1#8) ≠ 0#8 ∧ (x ^^^ 2#8) ^^^ (x ^^^ 1#8) ≠ 1#8 ∧
    (x ^^^ 1#8) ^^^ 1#8 = x := by decide +kernel

namespace PartialAssignment

theorem WF_empty : WF empty := by intro i b h; simp [empty] at h

theorem isTrue_eq {pa : PartialAssignment} {l : Lit} (h : l.index < pa.assigned.length) :
    pa.isTrue l = .ok (pa.val l == some true) := by
  obtain ⟨b, hb⟩ : ∃ b, pa.assigned[l.index]? = some b := ⟨_, List.getElem?_eq_getElem h⟩
  simp only [isTrue, idx_ok hb, val, hb, bind_ok]
  refine congrArg Except.ok ?_
  by_cases hx : b ^^^ l.code8 = 0#8
  · have : (b == l.code8) = true := by simpa using hx
    rw [this]; simp [hx]
  · have : (b == l.code8) = false := by
      rw [beq_eq_false_iff_ne]; intro e; exact hx (by simp [e])
    rw [this]; simp only [hx, if_false]
    by_cases hy : b ^^^ l.code8 = 1#8 <;> simp [hy]

theorem xor_eq_one_iff (b c : BitVec 8) : b ^^^ c = 1#8 ↔ b = c ^^^ 1#8 := by
  constructor
  · intro h; rw [← h, BitVec.xor_comm b c, ← BitVec.xor_assoc]; simp
  · intro h; rw [h, BitVec.xor_comm c 1#8, BitVec.xor_assoc]; simp

theorem isFalse_eq {pa : PartialAssignment} {l : Lit} (h : l.index < pa.assigned.length) :
    pa.isFalse l = .ok (pa.val l == some false) := by
  obtain ⟨b, hb⟩ : ∃ b, pa.assigned[l.index]? = some b := ⟨_, List.getElem?_eq_getElem h⟩
  simp only [isFalse, idx_ok hb, val, hb, bind_ok]
  refine congrArg Except.ok ?_
  by_cases hy : b ^^^ l.code8 = 1#8
  · have : (b == l.code8 ^^^ 1#8) = true := by simpa using (xor_eq_one_iff _ _).1 hy
    rw [this]; simp only [hy]; decide
  · have : (b == l.code8 ^^^ 1#8) = false := by
      rw [beq_eq_false_iff_ne]; exact fun e => hy ((xor_eq_one_iff _ _).2 e)
    rw [this]
    by_cases hx : b ^^^ l.code8 = 0#8
    · simp only [hx]; decide
    · simp only [hx, hy]; decide

theorem value_eq {pa : PartialAssignment} {l : Lit} (h : l.index < pa.assigned.length) :
    pa.value l = .ok (pa.val l) := by
  obtain ⟨b, hb⟩ : ∃ b, pa.assigned[l.index]? = some b := ⟨_, List.getElem?_eq_getElem h⟩
  simp only [value, idx_ok hb, val, hb, bind_ok]; rfl

theorem val_neg {pa : PartialAssignment} (hw : pa.WF) (l : Lit) :
    pa.val l.neg = (pa.val l).map (!·) := by
  unfold val
  rw [Lit.index_neg]
  cases hb : pa.assigned[l.index]? with
  | none => rfl
  | some b =>
    have hw := hw _ _ hb
    have ht := byte_table _ (ofNat8_even l.index)
    simp only [code8_eq, Lit.index_neg, Lit.isPositive_neg, unassignedByte] at *
    generalize BitVec.ofNat 8 (l.index * 2) = x at *
    obtain ⟨t1, t2, t3, t4, t5, t6, t7, t8, t9, t10, t11, t12⟩ := ht
    rcases hw with rfl | rfl | rfl <;> cases l.isPositive <;> simp_all

theorem isAssigned_eq {pa : PartialAssignment} {l : Lit} (hw : pa.WF) (h : l.index < pa.assigned.length) :
    pa.isAssigned l.index = .ok (pa.val l).isSome := by
  obtain ⟨b, hb⟩ : ∃ b, pa.assigned[l.index]? = some b := ⟨_, List.getElem?_eq_getElem h⟩
  simp only [isAssigned, idx_ok hb, val, hb, bind_ok]
  have hw := hw _ _ hb
  have ht := byte_table _ (ofNat8_even l.index)
  simp only [code8_eq, unassignedByte] at *
  generalize BitVec.ofNat 8 (l.index * 2) = x at *
  obtain ⟨t1, t2, t3, t4, t5, t6, t7, t8, t9, t10, t11, t12⟩ := ht
  rcases hw with rfl | rfl | rfl <;> cases l.isPositive <;> simp_all [pure, Except.pure, bne] <;>
    first | (intro h; exact absurd h.symm ‹_›) | skip

theorem WF_assign {pa : PartialAssignment} {l : Lit} (hw : pa.WF) :
    WF ⟨pa.assigned.set l.index l.code8⟩ := by
  intro i b hb
  by_cases hi : l.index = i
  · subst hi
    rw [List.getElem?_set_self'] at hb
    cases hc : pa.assigned[l.index]? with
    | none => simp [hc] at hb
    | some c =>
      simp [hc] at hb
      subst hb
      rw [code8_eq]
      cases l.isPositive <;> simp
  · rw [List.getElem?_set_ne hi] at hb; exact hw _ _ hb

theorem WF_unassign {pa : PartialAssignment} {j : Nat} (hw : pa.WF) :
    WF ⟨pa.assigned.set j (unassignedByte j)⟩ := by
  intro i b hb
  by_cases hi : j = i
  · subst hi
    rw [List.getElem?_set_self'] at hb
    cases hc : pa.assigned[j]? with
    | none => simp [hc] at hb
    | some c => simp [hc] at hb; subst hb; simp
  · rw [List.getElem?_set_ne hi] at hb; exact hw _ _ hb

theorem val_assign {pa : PartialAssignment} {l : Lit} (h : l.index < pa.assigned.length) (m : Lit) :
    val ⟨pa.assigned.set l.index l.code8⟩ m =
      if m = l then some true else if m = l.neg then some false else pa.val m := by
  unfold val
  by_cases hi : l.index = m.index
  · have hm := Lit.eq_or_eq_neg hi.symm
    have ht := byte_table _ (ofNat8_even l.index)
    simp only [← hi, List.getElem?_set_self h]
    simp only [code8_eq] at *
    rcases hm with rfl | rfl
    · generalize BitVec.ofNat 8 (m.index * 2) = x at *
      cases m.isPositive <;> simp
    · simp only [Lit.neg_ne, if_false, if_true, Lit.index_neg, Lit.isPositive_neg]
      generalize BitVec.ofNat 8 (l.index * 2) = x at *
      obtain ⟨t1, t2, t3, t4, t5, t6, t7, t8, t9, t10, t11, t12⟩ := ht
      cases l.isPositive
      · simp [t6, show (1#8 : BitVec 8) ≠ 0#8 by decide]
      · simp [t5, show (1#8 : BitVec 8) ≠ 0#8 by decide]
  · have h1 : m ≠ l := fun e => hi (by rw [e])
    have h2 : m ≠ l.neg := fun e => hi (by rw [e]; simp)
    simp only [List.getElem?_set_ne hi, h1, h2, if_false]

theorem val_unassign {pa : PartialAssignment} {i : Nat} (m : Lit) :
    val ⟨pa.assigned.set i (unassignedByte i)⟩ m = if m.index = i then none else pa.val m := by
  unfold val
  by_cases hi : i = m.index
  · subst hi
    have ht := byte_table _ (ofNat8_even m.index)
    rw [List.getElem?_set_self']
    cases hc : pa.assigned[m.index]? with
    | none => simp
    | some c =>
      simp only [if_true, code8_eq, unassignedByte]
      generalize BitVec.ofNat 8 (m.index * 2) = x at *
      obtain ⟨t1, t2, t3, t4, t5, t6, t7, t8, t9, t10, t11, t12⟩ := ht
      cases m.isPositive <;> simp_all
  · have : ¬ m.index = i := fun e => hi e.symm
    simp only [List.getElem?_set_ne hi, this, if_false]

theorem growLoop_length (k : Nat) (a : List (BitVec 8)) : (growLoop k a).length = a.length + k := by
  induction k generalizing a with
  | zero => rfl
  | succ k ih => simp [growLoop, ih]; omega

theorem growLoop_get (k : Nat) (a : List (BitVec 8)) (i : Nat) :
    (growLoop k a)[i]? = if i < a.length then a[i]? else
      if i < a.length + k then some (unassignedByte i) else none := by
  induction k generalizing a with
  | zero =>
    by_cases h : i < a.length
    · simp [growLoop, h]
    · simp only [growLoop, h, Nat.add_zero, if_false]; simp; omega
  | succ k ih =>
    simp only [growLoop, ih, List.length_append, List.length_singleton]
    by_cases h1 : i < a.length
    · have : i < a.length + 1 := by omega
      simp [h1, this]
    · by_cases h2 : i = a.length
      · subst h2; simp
      · have h3 : ¬ i < a.length + 1 := by omega
        simp only [h1, h3, if_false]
        have : (i < a.length + 1 + k) = (i < a.length + (k + 1)) := by
          simp; omega
        simp [this]

theorem resize_get (pa : PartialAssignment) (n i : Nat) :
    (pa.resize n).assigned[i]? = if i < n then
      (if i < pa.assigned.length then pa.assigned[i]? else some (unassignedByte i)) else none := by
  simp only [resize, List.getElem?_take, growLoop_get]
  by_cases h1 : i < n <;> simp only [h1, if_true, if_false]
  by_cases h2 : i < pa.assigned.length <;> simp only [h2, if_true, if_false]
  have : i < pa.assigned.length + (n - pa.assigned.length) := by omega
  simp [this]

theorem resize_length (pa : PartialAssignment) (n : Nat) :
    (pa.resize n).assigned.length = n := by
  simp [resize, growLoop_length]; omega

theorem WF_resize {pa : PartialAssignment} (hw : pa.WF) (n : Nat) : (pa.resize n).WF := by
  intro i b hb
  rw [resize_get] at hb
  by_cases h1 : i < n <;> simp only [h1, if_true, if_false] at hb
  · by_cases h2 : i < pa.assigned.length <;> simp only [h2, if_true, if_false] at hb
    · exact hw _ _ hb
    · simp at hb; subst hb; simp
  · simp at hb

theorem val_resize {pa : PartialAssignment} (n : Nat) (m : Lit) :
    (pa.resize n).val m = if m.index < n then pa.val m else none := by
  unfold val
  rw [resize_get]
  by_cases h1 : m.index < n <;> simp only [h1, if_true, if_false]
  by_cases h2 : m.index < pa.assigned.length <;> simp only [h2, if_true, if_false]
  have ht := byte_table _ (ofNat8_even m.index)
  have : pa.assigned[m.index]? = none := by simp; omega
  rw [this]
  simp only [code8_eq, unassignedByte]
  generalize BitVec.ofNat 8 (m.index * 2) = x at *
  obtain ⟨t1, t2, t3, t4, t5, t6, t7, t8, t9, t10, t11, t12⟩ := ht
  cases m.isPositive <;> simp_all

end PartialAssignment

end Starlit
