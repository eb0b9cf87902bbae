import Verif.Bitfield

/-!
# C30: reduction scores order lexicographically
-/

namespace Starlit

/-- The intended order on clauses described by (used, glue, length): `a` is less expendable than
`b` iff it was used more, or as much and its glue is smaller, or both are equal and it is shorter
(lengths are compared up to `2^24 - 1`). -/
def LessExpendable (a b : Nat × Nat × Nat) : Prop :=
  b.1 < a.1 ∨ b.1 = a.1 ∧ (a.2.1 < b.2.1 ∨ a.2.1 = b.2.1 ∧
    min a.2.2 (2 ^ 24 - 1) < min b.2.2 (2 ^ 24 - 1))

/-- **C30** (order).  For all usage counts and glues a clause header can hold and all lengths, the
unsigned comparison of scores (the derived `Ord`) is the lexicographic order. -/
theorem C30_score_order (used glue len used' glue' len' : Nat) (hu : used < 4) (hg : glue < 64)
    (hu' : used' < 4) (hg' : glue' < 64) :
    (Score.ofClause used glue len < Score.ofClause used' glue' len' ↔
      LessExpendable (used, glue, len) (used', glue', len')) ∧
    (Score.ofClause used glue len = Score.ofClause used' glue' len' ↔
      used = used' ∧ glue = glue' ∧ min len (2 ^ 24 - 1) = min len' (2 ^ 24 - 1)) := by
  constructor
  · rw [BitVec.lt_def, Score.ofClause_toNat _ _ _ hu hg, Score.ofClause_toNat _ _ _ hu' hg']
    unfold LessExpendable
    simp only
    omega
  · rw [← BitVec.toNat_inj, Score.ofClause_toNat _ _ _ hu hg, Score.ofClause_toNat _ _ _ hu' hg']
    omega

/-- **C30** (accessors).  For every list of field widths accepted by the derive macro (at most 64
bits each, the size of the access type), every two fields `j` and `k`, every word and every value:
reading a field after setting it gives the value modulo `2^width` (clamped to the largest value with
`clamp`), and setting a field does not change any other field. -/
theorem C30_bitfield_accessors {W : Nat} (widths : List Nat) (hf : Bitfield.Fits W widths)
    (j k : Nat) (w w' : Nat) (hj : widths[j]? = some w) (hk : widths[k]? = some w')
    (hw : w ≤ 64) (hw' : w' ≤ 64) (x : BitVec W) (v : Nat) :
    Bitfield.get (Bitfield.offset widths j) w (Bitfield.set (Bitfield.offset widths j) w x v)
      = v % 2 ^ w ∧
    Bitfield.get (Bitfield.offset widths j) w (Bitfield.setClamp (Bitfield.offset widths j) w x v)
      = min v (2 ^ w - 1) ∧
    (j ≠ k →
      Bitfield.get (Bitfield.offset widths k) w' (Bitfield.set (Bitfield.offset widths j) w x v)
        = Bitfield.get (Bitfield.offset widths k) w' x ∧
      Bitfield.get (Bitfield.offset widths k) w'
          (Bitfield.setClamp (Bitfield.offset widths j) w x v)
        = Bitfield.get (Bitfield.offset widths k) w' x) := by
  have fit : ∀ (l : List Nat) (i u : Nat), l[i]? = some u → (l.take i).sum + u ≤ l.sum := by
    intro l
    induction l with
    | nil => intro i u h; simp at h
    | cons a l ih =>
      intro i u h
      cases i with
      | zero => simp at h; subst h; simp
      | succ i => have := ih i u (by simpa using h); simp; omega
  have ord : ∀ (l : List Nat) (i i' u : Nat), i < i' → l[i]? = some u →
      (l.take i).sum + u ≤ (l.take i').sum := by
    intro l
    induction l with
    | nil => intro i i' u _ h; simp at h
    | cons a l ih =>
      intro i i' u hlt h
      obtain ⟨i', rfl⟩ : ∃ m, i' = m + 1 := ⟨i' - 1, by omega⟩
      cases i with
      | zero => simp at h; subst h; simp
      | succ i => have := ih i i' u (by omega) (by simpa using h); simp; omega
  have m1 := hf.1 w (List.mem_of_getElem? hj)
  have m2 := hf.1 w' (List.mem_of_getElem? hk)
  have f1 := fit widths j w hj
  have f2 := fit widths k w' hk
  have s := hf.2
  have b1 : Bitfield.offset widths j + w ≤ W := by unfold Bitfield.offset; omega
  have b2 : Bitfield.offset widths k + w' ≤ W := by unfold Bitfield.offset; omega
  refine ⟨Bitfield.get_set_self m1.1 hw b1 x v, Bitfield.get_setClamp_self m1.1 hw b1 x v, ?_⟩
  intro hne
  have hd : Bitfield.offset widths j + w ≤ Bitfield.offset widths k ∨
      Bitfield.offset widths k + w' ≤ Bitfield.offset widths j := by
    rcases Nat.lt_or_gt_of_ne hne with h | h
    · exact .inl (ord widths j k w h hj)
    · exact .inr (ord widths k j w' h hk)
  exact ⟨Bitfield.get_set_other hw b1 m2.1 hw' b2 hd x v,
    Bitfield.get_setClamp_other hw b1 m2.1 hw' b2 hd x v⟩

/-- The layout of `Score` is an instance: its fields are at the offsets the macro computes. -/
example : Bitfield.Fits 32 [24, 6, 2] ∧ Bitfield.offset [24, 6, 2] 0 = 0 ∧
    Bitfield.offset [24, 6, 2] 1 = 24 ∧ Bitfield.offset [24, 6, 2] 2 = 30 := by
  refine ⟨⟨by decide, by decide⟩, by decide, by decide, by decide⟩

/-- Concrete scores: glue dominates length, usage dominates glue. -/
example : Score.ofClause 1 6 100 < Score.ofClause 1 7 3 ∧
    Score.ofClause 1 63 (2 ^ 24) < Score.ofClause 0 3 3 := by
  constructor
  · exact (C30_score_order _ _ _ _ _ _ (by decide) (by decide) (by decide) (by decide)).1.2
      (by unfold LessExpendable; simp)
  · exact (C30_score_order _ _ _ _ _ _ (by decide) (by decide) (by decide) (by decide)).1.2
      (by unfold LessExpendable; simp)

end Starlit
