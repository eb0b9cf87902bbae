import Verif.Props.Arena

/-!
# C19: the bound on the length of the buffer is needed
-/

namespace Starlit.Arena

/-- C19 is false for buffers of `2^32` or more words: the offsets in the map are truncated to 32 bits, so that
the map sends a deleted clause to a reference instead of `None`.  The history adds two clauses of
`2^31 - 1` literals and deletes both. -/
theorem C19_false_big : ∃ (os : List Op) (a a' : Arena) (S : Store) (gaps : List Gap) (e : Entry) (r : Nat),
    (∀ o ∈ os, o.WellTyped 2) ∧ run 2 longShrink (empty, []) os = .ok (a, S) ∧
    collectGarbage 2 a = .ok (a', gaps) ∧ a'.buffer = [] ∧
    e ∈ S ∧ e.lits = [] ∧ gapsUpdate gaps e.ref = .ok (some r) := by
  obtain ⟨L, hL⟩ : ∃ L : Nat, L = 2 ^ 31 - 1 := ⟨_, rfl⟩
  let ls : List Lit := List.replicate L ⟨2#32⟩
  have hls : ls.length = L := List.length_replicate
  have hval : ∀ l ∈ ls, l.Valid := by
    intro l hl
    rw [List.eq_of_mem_replicate hl]; decide
  have hne : ls ≠ [] := by
    intro h
    have := congrArg List.length h
    rw [hls] at this
    simp at this
    omega
  generalize ls = ls at hls hval hne
  have hh2 : ∀ w ∈ ([0#32, 0#32] : List Word), w.toNat < 2 ^ 31 := by simp
  let B := Block.new [0#32, 0#32] ls
  have hsz : B.size = L + 3 := by
    simp [B, Block.size, Block.words, Block.new, hls]
  have hm : HEADER_MASK.toNat = 2 ^ 31 - 1 := HeaderWord.HEADER_MASK_toNat
  have add : ∀ {a : Arena} {bs : List Block}, Rep 2 a bs → (wordsOf bs).length < 2 ^ 32 →
      ∃ a', addClause a [0#32, 0#32] ls = .ok (some (a', (wordsOf bs).length)) ∧ Rep 2 a' (bs ++ [B]) := by
    intro a bs h hlt
    rcases addClause_spec (hdr := [0#32, 0#32]) h hne rfl hh2 hval with h1 | ⟨a', h1, _, h2⟩
    · exfalso
      have he : (!ls.isEmpty) = true := by cases ls <;> simp_all
      simp only [addClause, assertM, he, if_true, bind_pure_ok] at h1
      rw [h.buffer, if_neg (by omega)] at h1
      cases h1
    · exact ⟨a', h1, h2⟩
  obtain ⟨a1, e1, r1⟩ := add rep_empty (by simp)
  have hw1 : (wordsOf ([] ++ [B])).length = L + 3 := by
    simp only [List.nil_append, wordsOf_cons, List.length_append]
    rw [show B.words.length = B.size from rfl, hsz]; simp
  obtain ⟨a2, e2, r2⟩ := add r1 (by omega)
  rw [hw1] at e2
  simp only [wordsOf_nil, List.length_nil] at e1
  simp only [List.nil_append, List.cons_append] at r2
  have hB := r2.wf B (by simp)
  have hds : B.deleted.size = L + 3 := by rw [deleted_size hB, hsz]
  obtain ⟨a3, e3, _, r3⟩ := deleteClause_at r2 (at_cons.2 (.inl ⟨rfl, rfl⟩) : At [B, B] 0 B)
  have s3 : setAt [B, B] 0 B.deleted = [B.deleted, B] := by simp [setAt]
  rw [s3] at r3
  have hat : At [B.deleted, B] (L + 3) B :=
    at_cons.2 (.inr ⟨by omega, by rw [hds, Nat.sub_self]; exact at_cons.2 (.inl ⟨rfl, rfl⟩)⟩)
  obtain ⟨a4, e4, _, r4⟩ := deleteClause_at r3 hat
  have s4 : setAt [B.deleted, B] (L + 3) B.deleted = [B.deleted, B.deleted] := by
    simp [setAt, hds]
  rw [s4] at r4
  have hd0 : B.deleted.len = 0 := by
    unfold Block.deleted; split <;> simp_all
  have hbuf : a4.buffer.length = 2 ^ 32 + 4 := by
    rw [r4.buffer]
    simp only [wordsOf_cons, wordsOf_nil, List.length_append, List.length_nil]
    rw [show B.deleted.words.length = B.deleted.size from rfl, hds]
    omega
  refine ⟨[.add [0#32, 0#32] ls, .add [0#32, 0#32] ls, .delete 0, .delete (L + 3)], a4, ⟨[], 0⟩,
    [⟨0, [0#32, 0#32], []⟩, ⟨L + 3, [0#32, 0#32], []⟩], [⟨0, 4, 4⟩], ⟨L + 3, [0#32, 0#32], []⟩, L - 1,
    ?_, ?_, ?_, rfl, by simp, rfl, ?_⟩
  · intro o ho
    simp only [List.mem_cons, List.not_mem_nil, or_false] at ho
    rcases ho with rfl | rfl | rfl | rfl
    · exact ⟨rfl, hh2, hval⟩
    · exact ⟨rfl, hh2, hval⟩
    · trivial
    · trivial
  · simp only [run, step, e1, e2, e3, e4, bind_ok, pure_eq]
    simp [Store.modify]
  · have h0 : firstLive 0 [B.deleted, B.deleted] = none := by simp [firstLive, hd0]
    have hx : nextClause 2 a4 none = .ok none := by rw [nextClause_none r4, h0]
    simp only [collectGarbage, hx, bind_ok, gcLoop, pure_eq]
    rw [debugM_ok (by simp), bind_ok, hbuf]
    rfl
  · rw [gapsUpdate_eq (by simp) (by simp)]
    have h1 : ¬ (4 > L + 3) := by omega
    simp only [mapRef, List.reverse_cons, List.reverse_nil, List.nil_append, List.find?, Nat.zero_le,
      decide_true, gapRes, h1, if_false]
    rw [show (L + 3 + 2 ^ 32 - 4) % 2 ^ 32 = L - 1 by omega]

end Starlit.Arena
