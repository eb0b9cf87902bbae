import Verif.ArenaLemmas

/-!
# Garbage collection of the arena
-/

namespace Starlit.Arena

open HeaderWord (and_LEN_MARKER)

variable {hl : Nat} {a : Arena} {bs : List Block}

/-! ## Reading in a buffer with arbitrary content before the block -/

theorem clauseLen_gen {P Q : List Word} {b : Block} {g : Nat} (hb : b.WF hl) :
    clauseLen hl ⟨P ++ (b.words ++ Q), g⟩ P.length = .ok b.len := by
  have e := getElem?_lenWord (P := P) (Q := Q) hb
  simp only [clauseLen, idx_ok e, bind_ok]
  rw [if_neg (lenWord_marked hb.len_lt)]
  simp only [lenWord_len hb.len_lt]; rfl

theorem nextClause_gen {P : List Word} {b : Block} {post : List Block} {g : Nat} (hb : b.WF hl)
    (hwf : ∀ c ∈ post, c.WF hl)
    (hst : ∀ r c, At post r c → P.length + b.size + r < 2 ^ 32) :
    nextClause hl ⟨P ++ (b.words ++ wordsOf post), g⟩ (some P.length) =
      .ok (firstLive (P.length + b.size) post) := by
  have hle := hb.len_le
  have e : P ++ (b.words ++ wordsOf post) =
      (P ++ b.hdr ++ [lenWord b.len] ++ b.body.take b.len) ++
        (b.body.drop b.len ++ wordsOf post) := by
    simp only [Block.words, List.append_assoc]
    rw [← List.append_assoc (List.take b.len b.body), List.take_append_drop]
    simp
  have hl1 : (P ++ b.hdr ++ [lenWord b.len] ++ b.body.take b.len).length =
      P.length + hl + 1 + b.len := by
    simp [hb.hdr_len, hle]; omega
  have hsz := Block.size_eq hb
  have hmain := findLoop_spec (P ++ b.hdr ++ [lenWord b.len] ++ b.body.take b.len)
    (b.body.drop b.len) post ((P ++ (b.words ++ wordsOf post)).length + 1)
    (fun x hx => hb.body_small _ (List.mem_of_mem_drop hx)) hwf
    (by
      intro r c hc
      have := hst r c hc
      rw [hl1, List.length_drop]; omega)
    (by rw [e]; simp only [List.length_append]; omega)
  simp only [nextClause, clauseLen_gen hb, bind_ok, pure_eq, findClause]
  rw [← e] at hmain
  rw [show P.length + b.len + hl + 1 + hl =
    (P ++ b.hdr ++ [lenWord b.len] ++ b.body.take b.len).length + hl by rw [hl1]; omega, hmain]
  congr 2
  rw [hl1, List.length_drop, hsz]; omega

theorem firstLive_some {off r : Nat} {post : List Block} (h : firstLive off post = some r) :
    ∃ dead b post', post = dead ++ b :: post' ∧ (∀ c ∈ dead, c.len = 0) ∧ b.len ≠ 0 ∧
      r = off + (wordsOf dead).length := by
  induction post generalizing off with
  | nil => simp [firstLive] at h
  | cons c post ih =>
    by_cases h0 : c.len = 0
    · simp only [firstLive, h0, ne_eq, not_true, if_false] at h
      obtain ⟨dead, b, post', rfl, h1, h2, h3⟩ := ih h
      refine ⟨c :: dead, b, post', rfl, ?_, h2, ?_⟩
      · intro d hd
        rcases List.mem_cons.1 hd with rfl | hd
        · exact h0
        · exact h1 _ hd
      · simp [Block.size] at *; omega
    · simp [firstLive, h0] at h
      exact ⟨[], c, post, rfl, by simp, h0, by simp [h]⟩

theorem firstLive_none {off : Nat} {post : List Block} (h : firstLive off post = none) :
    ∀ c ∈ post, c.len = 0 := by
  induction post generalizing off with
  | nil => simp
  | cons c post ih =>
    by_cases h0 : c.len = 0
    · simp only [firstLive, h0, ne_eq, not_true, if_false] at h
      intro d hd
      rcases List.mem_cons.1 hd with rfl | hd
      · exact h0
      · exact ih h _ hd
    · simp [firstLive, h0] at h

/-! ## The reference map -/

/-- Result for the gap at or before a reference. -/
def gapRes (g : Gap) (c : Nat) : Option Nat :=
  if g.stop > c then none else some ((c + 2 ^ 32 - g.shift) % 2 ^ 32)

/-- Result of the map as "last gap that starts at or before the reference". -/
def mapRef (gaps : List Gap) (c : Nat) : Option Nat :=
  match gaps.reverse.find? (fun g => decide (g.start ≤ c)) with
  | none => some c
  | some g => gapRes g c

theorem mapRef_snoc (gaps : List Gap) (g : Gap) (c : Nat) :
    mapRef (gaps ++ [g]) c = if g.start ≤ c then gapRes g c else mapRef gaps c := by
  simp only [mapRef, List.reverse_append, List.reverse_cons, List.reverse_nil, List.nil_append,
    List.singleton_append, List.find?_cons]
  by_cases h : g.start ≤ c <;> simp [h]

theorem mapRef_append (gaps ext : List Gap) (c : Nat) (h : ∀ g ∈ ext, c < g.start) :
    mapRef (gaps ++ ext) c = mapRef gaps c := by
  simp only [mapRef, List.reverse_append, List.find?_append]
  have : ext.reverse.find? (fun g => decide (g.start ≤ c)) = none := by
    rw [List.find?_eq_none]
    intro g hg
    have := h g (by simpa using hg)
    simp; omega
  simp [this]

theorem searchLoop_spec {gaps : List Gap} {c : Nat}
    (hs : gaps.Pairwise (fun g g' => g.start ≤ g'.start)) (fuel left right : Nat)
    (hf : right - left < fuel) (hr : right ≤ gaps.length) (hlr : left ≤ right)
    (h1 : ∀ i g, gaps[i]? = some g → i < left → g.start ≤ c)
    (h2 : ∀ i g, gaps[i]? = some g → right ≤ i → c < g.start) :
    ∃ k, searchLoop gaps c fuel left right = .ok k ∧ k ≤ gaps.length ∧
      (∀ i g, gaps[i]? = some g → i < k → g.start ≤ c) ∧
      (∀ i g, gaps[i]? = some g → k ≤ i → c < g.start) := by
  induction fuel generalizing left right with
  | zero => omega
  | succ fuel ih =>
    unfold searchLoop
    by_cases hlt : left < right
    · simp only [hlt, if_true]
      have hmid : left + (right - left) / 2 < gaps.length := by omega
      obtain ⟨g, hg⟩ : ∃ g, gaps[left + (right - left) / 2]? = some g :=
        ⟨_, List.getElem?_eq_getElem hmid⟩
      have hmono : ∀ (i j : Nat) (x y : Gap), gaps[i]? = some x → gaps[j]? = some y → i < j → x.start ≤ y.start := by
        intro i j x y hx hy hij
        rw [List.pairwise_iff_getElem] at hs
        obtain ⟨hi, rfl⟩ := List.getElem?_eq_some_iff.1 hx
        obtain ⟨hj, rfl⟩ := List.getElem?_eq_some_iff.1 hy
        exact hs i j hi hj hij
      simp only [idx_ok hg, bind_ok]
      by_cases hc : g.start > c
      · simp only [hc, if_true]
        refine ih left _ (by omega) (by omega) (by omega) h1 ?_
        intro i x hx hi
        rcases Nat.lt_or_ge (left + (right - left) / 2) i with h | h
        · have := hmono _ _ _ _ hg hx h; omega
        · have : i = left + (right - left) / 2 := by omega
          subst this; rw [hg] at hx; cases hx; exact hc
      · simp only [hc, if_false]
        refine ih _ right (by omega) hr (by omega) ?_ h2
        intro i x hx hi
        rcases Nat.lt_or_ge i (left + (right - left) / 2) with h | h
        · have := hmono _ _ _ _ hx hg h; omega
        · have : i = left + (right - left) / 2 := by omega
          subst this; rw [hg] at hx; cases hx; omega
    · simp only [hlt, if_false]
      have : left = right := by omega
      subst this
      exact ⟨left, rfl, hr, h1, h2⟩

/-- The binary search of `update` finds the last gap starting at or before the reference. -/
theorem gapsUpdate_eq {gaps : List Gap} (hs : gaps.Pairwise (fun g g' => g.start ≤ g'.start))
    (hsh : ∀ g ∈ gaps, g.shift ≤ g.stop) (c : Nat) : gapsUpdate gaps c = .ok (mapRef gaps c) := by
  obtain ⟨k, hk, hkl, h1, h2⟩ := searchLoop_spec (c := c) hs (gaps.length + 1) 0 gaps.length
    (by omega) (Nat.le_refl _) (by omega) (by intros; omega)
    (by
      intro i g hg hi
      have := List.getElem?_eq_none hi
      rw [this] at hg; cases hg)
  have e : gaps.reverse.find? (fun g => decide (g.start ≤ c)) =
      if k = 0 then none else gaps[k - 1]? := by
    have hsplit : gaps.reverse = (gaps.drop k).reverse ++ (gaps.take k).reverse := by
      rw [← List.reverse_append, List.take_append_drop]
    rw [hsplit, List.find?_append]
    have h3 : (gaps.drop k).reverse.find? (fun g => decide (g.start ≤ c)) = none := by
      rw [List.find?_eq_none]
      intro g hg
      rw [List.mem_reverse, List.mem_iff_getElem?] at hg
      obtain ⟨i, hi⟩ := hg
      rw [List.getElem?_drop] at hi
      have := h2 _ _ hi (by omega)
      simp; omega
    rw [h3, Option.none_or]
    by_cases hk0 : k = 0
    · simp [hk0]
    · simp only [hk0, if_false]
      obtain ⟨g, hg⟩ : ∃ g, gaps[k - 1]? = some g :=
        ⟨_, List.getElem?_eq_getElem (show k - 1 < gaps.length by omega)⟩
      have ht : gaps.take k = gaps.take (k - 1) ++ [g] := by
        obtain ⟨hlt, hge⟩ := List.getElem?_eq_some_iff.1 hg
        have := List.take_succ_eq_append_getElem hlt
        rw [show k - 1 + 1 = k by omega, hge] at this
        exact this
      have := h1 _ _ hg (by omega)
      rw [ht]; simp [this, hg]
  simp only [gapsUpdate, hk, bind_ok, mapRef, e]
  have hg : ∀ g, (if k = 0 then none else gaps[k - 1]?) = some g → g.start ≤ c := by
    intro g hg
    by_cases hk0 : k = 0
    · simp [hk0] at hg
    · exact h1 _ _ (by simpa [hk0] using hg) (by omega)
  cases hx : (if k = 0 then none else gaps[k - 1]?) with
  | none => rfl
  | some g =>
    simp only [gapRes]
    rw [debugM_ok (by simpa using hg g hx), bind_ok]
    have hm : g ∈ gaps := by
      by_cases hk0 : k = 0
      · simp [hk0] at hx
      · exact List.mem_of_getElem? (by simpa [hk0] using hx)
    by_cases hc : g.stop > c
    · simp [hc]; rfl
    · rw [if_neg hc, if_neg hc, debugM_ok (by have := hsh g hm; simp; omega), bind_ok]; rfl

/-! ## The compaction loop -/

/-- The block without padding. -/
def Block.trim (b : Block) : Block := { b with body := b.body.take b.len }

/-- What garbage collection keeps. -/
def compact (bs : List Block) : List Block := (bs.filter (fun b => b.live)).map Block.trim

theorem compact_append (bs cs : List Block) : compact (bs ++ cs) = compact bs ++ compact cs := by
  simp [compact]

theorem compact_dead {dead : List Block} (h : ∀ c ∈ dead, c.len = 0) : compact dead = [] := by
  simp only [compact, List.map_eq_nil_iff, List.filter_eq_nil_iff]
  intro b hb
  simp [Block.live, h b hb]

theorem compact_live {b : Block} {post : List Block} (h : b.len ≠ 0) :
    compact (b :: post) = b.trim :: compact post := by
  simp [compact, Block.live, h]

theorem trim_words_length {b : Block} (hb : b.WF hl) : b.trim.words.length = b.len + hl + 1 := by
  have := hb.len_le
  simp [Block.trim, Block.words, hb.hdr_len]; omega

theorem words_eq_trim (b : Block) : b.words = b.trim.words ++ b.body.drop b.len := by
  simp [Block.words, Block.trim]

/-- The gaps after the loop, with the final gap added. -/
def finishGaps (x : List Word × Nat × Nat × List Gap) : List Gap :=
  if x.1.length ≠ x.2.2.1 then
    x.2.2.2 ++ [⟨x.2.2.1 % 2 ^ 32, x.1.length % 2 ^ 32, (x.1.length - x.2.1) % 2 ^ 32⟩]
  else x.2.2.2

theorem gcLoop_spec (fuel : Nat) (C J pad : List Word) (post : List Block) (gaps : List Gap)
    (hfuel : post.length < fuel)
    (hpad : ∀ w ∈ pad, w.toNat < 2 ^ 31) (hwf : ∀ b ∈ post, b.WF hl)
    (hbound : (C ++ J ++ (pad ++ wordsOf post)).length < 2 ^ 32)
    (hsorted : gaps.Pairwise (fun g g' => g.start ≤ g'.start))
    (hstart : ∀ g ∈ gaps, g.start ≤ (C ++ J).length)
    (hshift : ∀ g ∈ gaps, g.shift ≤ g.stop)
    (hmap : ∀ c, (C ++ J).length ≤ c → c < 2 ^ 32 →
      mapRef gaps c = some (c - J.length)) :
    ∃ x ext, gcLoop hl fuel (C ++ J ++ (pad ++ wordsOf post))
        (firstLive ((C ++ J).length + pad.length) post) C.length (C ++ J).length gaps = .ok x ∧
      x.1.take x.2.1 = C ++ wordsOf (compact post) ∧ x.2.1 ≤ x.1.length ∧
      (∀ g ∈ finishGaps x, g.shift ≤ g.stop) ∧
      finishGaps x = gaps ++ ext ∧
      (∀ g ∈ ext, (C ++ J).length ≤ g.start) ∧
      (finishGaps x).Pairwise (fun g g' => g.start ≤ g'.start) ∧
      (∀ p b q, post = p ++ b :: q →
        mapRef (finishGaps x) ((C ++ J).length + pad.length + (wordsOf p).length) =
          if b.len = 0 then none else some (C.length + (wordsOf (compact p)).length)) := by
  induction fuel generalizing C J pad post gaps with
  | zero => omega
  | succ fuel ih =>
    cases hfl : firstLive ((C ++ J).length + pad.length) post with
    | none =>
      have hdead := firstLive_none hfl
      refine ⟨_, if (C ++ J ++ (pad ++ wordsOf post)).length ≠ (C ++ J).length then
        [⟨(C ++ J).length, (C ++ J ++ (pad ++ wordsOf post)).length,
          (C ++ J ++ (pad ++ wordsOf post)).length - C.length⟩] else [], rfl, ?_, ?_, ?_, ?_, ?_, ?_, ?_⟩
      · rw [compact_dead hdead]; simp
      · simp only [List.length_append]; omega
      · simp only [finishGaps]
        by_cases hne : (C ++ J ++ (pad ++ wordsOf post)).length ≠ (C ++ J).length
        · rw [if_pos hne]
          intro g hg
          rw [List.mem_append, List.mem_singleton] at hg
          rcases hg with hg | rfl
          · exact hshift g hg
          · simp only
            rw [Nat.mod_eq_of_lt hbound, Nat.mod_eq_of_lt (by omega)]
            omega
        · rw [if_neg hne]; exact hshift
      · simp only [finishGaps]
        have h1 : (C ++ J).length % 2 ^ 32 = (C ++ J).length :=
          Nat.mod_eq_of_lt (by simp only [List.length_append] at *; omega)
        have h2 : (C ++ J ++ (pad ++ wordsOf post)).length % 2 ^ 32 =
          (C ++ J ++ (pad ++ wordsOf post)).length := Nat.mod_eq_of_lt hbound
        have h3 : ((C ++ J ++ (pad ++ wordsOf post)).length - C.length) % 2 ^ 32 =
          (C ++ J ++ (pad ++ wordsOf post)).length - C.length := Nat.mod_eq_of_lt (by omega)
        rw [h1, h2, h3]
        by_cases hne : (C ++ J ++ (pad ++ wordsOf post)).length ≠ (C ++ J).length
        · rw [if_pos hne, if_pos hne]
        · rw [if_neg hne, if_neg hne, List.append_nil]
      · intro g hg
        by_cases hne : (C ++ J ++ (pad ++ wordsOf post)).length ≠ (C ++ J).length
        · rw [if_pos hne] at hg; simp at hg; simp [hg]
        · rw [if_neg hne] at hg; simp at hg
      · simp only [finishGaps]
        by_cases hne : (C ++ J ++ (pad ++ wordsOf post)).length ≠ (C ++ J).length
        · rw [if_pos hne, List.pairwise_append]
          refine ⟨hsorted, by simp, ?_⟩
          intro g hg g' hg'
          have := hstart g hg
          simp only [List.mem_singleton] at hg'
          subst hg'
          simp only
          rw [Nat.mod_eq_of_lt (show (C ++ J).length < 2 ^ 32 by
            simp only [List.length_append] at *; omega)]
          exact this
        · rw [if_neg hne]; exact hsorted
      · rintro p b q rfl
        have hb0 : b.len = 0 := hdead b (by simp)
        have hbs := b.size_pos
        have hbsz : b.words.length = b.size := rfl
        have hne : (C ++ J ++ (pad ++ wordsOf (p ++ b :: q))).length ≠ (C ++ J).length := by
          simp only [wordsOf_append, wordsOf_cons, List.length_append]; omega
        simp only [finishGaps]
        rw [if_pos hne, mapRef_snoc, if_pos, if_pos hb0, gapRes, if_pos]
        · rw [Nat.mod_eq_of_lt hbound]
          simp only [wordsOf_append, wordsOf_cons, List.length_append]; omega
        · show (C ++ J).length % 2 ^ 32 ≤ _
          rw [Nat.mod_eq_of_lt (by simp only [List.length_append] at *; omega)]; omega
    | some r =>
      obtain ⟨dead, b, post', rfl, hdead, hb0, hr⟩ := firstLive_some hfl
      have hb := hwf b (by simp)
      have hsz := Block.size_eq hb
      have hbsz : b.words.length = b.size := rfl
      have hle := hb.len_le
      have hE : (C ++ J).length = C.length + J.length := List.length_append
      have hw : (wordsOf (dead ++ b :: post')).length =
          (wordsOf dead).length + (b.size + (wordsOf post').length) := by
        simp only [wordsOf_append, wordsOf_cons, List.length_append, hbsz]
      have hB : C.length + J.length + (pad.length + ((wordsOf dead).length +
          (b.size + (wordsOf post').length))) < 2 ^ 32 := by
        simp only [List.length_append, hw] at hbound; omega
      -- the prefix before the clause
      have eP : C ++ J ++ (pad ++ wordsOf (dead ++ b :: post')) =
          (C ++ J ++ pad ++ wordsOf dead) ++ (b.words ++ wordsOf post') := by simp
      have hP : (C ++ J ++ pad ++ wordsOf dead).length = r := by
        rw [hr]; simp only [List.length_append]
      have hst : ∀ s c, At post' s c → (C ++ J ++ pad ++ wordsOf dead).length + b.size + s < 2 ^ 32 := by
        rintro s c ⟨p2, q2, rfl, rfl⟩
        have : c.words.length = c.size := rfl
        simp only [wordsOf_append, wordsOf_cons, List.length_append] at hB
        rw [hP, hr, hE]; omega
      have hnext := nextClause_gen (g := 0) (P := C ++ J ++ pad ++ wordsOf dead) hb
        (fun c hc => hwf c (by simp [hc])) hst
      have hlen := clauseLen_gen (g := 0) (P := C ++ J ++ pad ++ wordsOf dead)
        (Q := wordsOf post') hb
      rw [hP] at hnext hlen
      rw [← eP] at hnext hlen
      -- the copy
      have hcopy : copyWithin (C ++ J ++ (pad ++ wordsOf (dead ++ b :: post'))) r (b.len + hl + 1)
          C.length = .ok (C ++ (b.trim.words ++
            (C ++ J ++ (pad ++ wordsOf (dead ++ b :: post'))).drop (C.length + (b.len + hl + 1)))) := by
        unfold copyWithin
        have h1 : decide (r + (b.len + hl + 1) ≤
            (C ++ J ++ (pad ++ wordsOf (dead ++ b :: post'))).length) = true := by
          rw [decide_eq_true_eq]
          simp only [List.length_append, hw, hr]; omega
        have h2 : decide (C.length + (b.len + hl + 1) ≤
            (C ++ J ++ (pad ++ wordsOf (dead ++ b :: post'))).length) = true := by
          rw [decide_eq_true_eq]
          simp only [List.length_append, hw]; omega
        simp only [assertM, h1, h2, if_true, bind_pure_ok]
        rw [pure_eq]
        have h3 : (C ++ J ++ (pad ++ wordsOf (dead ++ b :: post'))).take C.length = C := by
          rw [List.append_assoc, List.take_left]
        have h4 : ((C ++ J ++ (pad ++ wordsOf (dead ++ b :: post'))).drop r).take (b.len + hl + 1) =
            b.trim.words := by
          rw [eP, ← hP, List.drop_left, words_eq_trim, List.append_assoc,
            ← trim_words_length hb, List.take_left]
        rw [h3, h4, List.append_assoc]
      -- shape of the new buffer
      have eNew : (C ++ (b.trim.words ++
            (C ++ J ++ (pad ++ wordsOf (dead ++ b :: post'))).drop (C.length + (b.len + hl + 1)))) =
          (C ++ b.trim.words) ++
            (((C ++ J ++ pad ++ wordsOf dead ++ b.trim.words).drop (C.length + (b.len + hl + 1)))) ++
            (b.body.drop b.len ++ wordsOf post') := by
        have : C ++ J ++ (pad ++ wordsOf (dead ++ b :: post')) =
            (C ++ J ++ pad ++ wordsOf dead ++ b.trim.words) ++ (b.body.drop b.len ++ wordsOf post') := by
          rw [eP, words_eq_trim b]; simp
        rw [this, List.drop_append_of_le_length]
        · simp
        · simp only [List.length_append, trim_words_length hb]; omega
      have hJ' : (((C ++ J ++ pad ++ wordsOf dead ++ b.trim.words).drop
          (C.length + (b.len + hl + 1)))).length = r - C.length := by
        rw [List.length_drop]
        simp only [List.length_append, trim_words_length hb]
        rw [hr, hE]; omega
      have hC' : (C ++ b.trim.words).length = C.length + (b.len + hl + 1) := by
        rw [List.length_append, trim_words_length hb]
      generalize hJdef : ((C ++ J ++ pad ++ wordsOf dead ++ b.trim.words).drop
          (C.length + (b.len + hl + 1))) = J' at eNew hJ'
      have hE' : ((C ++ b.trim.words) ++ J').length = r + (b.len + hl + 1) := by
        rw [List.length_append, hC', hJ', hr, hE]; omega
      -- the new gap
      have hm1 : (C ++ J).length % 2 ^ 32 = (C ++ J).length := Nat.mod_eq_of_lt (by rw [hE]; omega)
      have hm2 : r % 2 ^ 32 = r := Nat.mod_eq_of_lt (by rw [hr, hE]; omega)
      have hm3 : (r - C.length) % 2 ^ 32 = r - C.length := Nat.mod_eq_of_lt (by rw [hr, hE]; omega)
      obtain ⟨gaps1, hg1⟩ : ∃ gs, gs = (if r ≠ (C ++ J).length then
        gaps ++ [⟨(C ++ J).length % 2 ^ 32, r % 2 ^ 32, (r - C.length) % 2 ^ 32⟩] else gaps) :=
          ⟨_, rfl⟩
      have hg1' := hg1
      rw [hm1, hm2, hm3] at hg1
      have hCr : C.length ≤ r := by rw [hr, hE]; omega
      have hEr : (C ++ J).length ≤ r := by rw [hr]; omega
      have hmap1 : ∀ c, r ≤ c → c < 2 ^ 32 → mapRef gaps1 c = some (c - (r - C.length)) := by
        intro c hc hc2
        rw [hg1]
        by_cases hne : r ≠ (C ++ J).length
        · rw [if_pos hne, mapRef_snoc, if_pos (by show (C ++ J).length ≤ c; omega), gapRes,
            if_neg (by show ¬ r > c; omega)]
          congr 1
          simp only
          omega
        · rw [if_neg hne, hmap c (by omega) hc2]
          congr 1
          have : r = (C ++ J).length := by simpa using hne
          rw [hE] at this; omega
      have hstart1 : ∀ g ∈ gaps1, g.start ≤ (C ++ J).length := by
        intro g hg
        rw [hg1] at hg
        by_cases hne : r ≠ (C ++ J).length
        · rw [if_pos hne, List.mem_append, List.mem_singleton] at hg
          rcases hg with hg | rfl
          · exact hstart g hg
          · exact Nat.le_refl _
        · rw [if_neg hne] at hg; exact hstart g hg
      have hsorted1 : gaps1.Pairwise (fun g g' => g.start ≤ g'.start) := by
        rw [hg1]
        by_cases hne : r ≠ (C ++ J).length
        · rw [if_pos hne, List.pairwise_append]
          refine ⟨hsorted, by simp, ?_⟩
          intro g hg g' hg'
          simp only [List.mem_singleton] at hg'
          subst hg'
          exact hstart g hg
        · rw [if_neg hne]; exact hsorted
      have hshift1 : ∀ g ∈ gaps1, g.shift ≤ g.stop := by
        intro g hg
        rw [hg1] at hg
        by_cases hne : r ≠ (C ++ J).length
        · rw [if_pos hne, List.mem_append, List.mem_singleton] at hg
          rcases hg with hg | rfl
          · exact hshift g hg
          · exact Nat.sub_le _ _
        · rw [if_neg hne] at hg; exact hshift g hg
      obtain ⟨x, ext, hx1, hx2, hx7, hx8, hx3, hx4, hx5, hx6⟩ :=
        ih (C ++ b.trim.words) J' (b.body.drop b.len) post' gaps1
          (by simp at hfuel; omega)
          (fun x hx => hb.body_small _ (List.mem_of_mem_drop hx))
          (fun c hc => hwf c (by simp [hc]))
          (by
            simp only [List.length_append, hJ', trim_words_length hb, List.length_drop]
            rw [hr, hE]; omega)
          hsorted1
          (by intro g hg; have := hstart1 g hg; rw [hE']; omega)
          hshift1
          (by
            intro c hc hc2
            rw [hE'] at hc
            rw [hmap1 c (by omega) hc2, hJ'])
      refine ⟨x, (if r ≠ (C ++ J).length then
        [⟨(C ++ J).length, r, r - C.length⟩] else []) ++ ext, ?_, ?_, hx7, hx8, ?_, ?_, hx5, ?_⟩
      · unfold gcLoop
        dsimp only
        rw [hnext, bind_ok, hlen, bind_ok,
          debugM_ok (by simp only [Bool.or_eq_true, decide_eq_true_eq]; right; omega), bind_ok]
        simp only [bind_ok, hcopy]
        rw [← hg1', eNew, ← hC', ← hE']
        have : firstLive (r + b.size) post' =
            firstLive ((C ++ b.trim.words ++ J').length + (b.body.drop b.len).length) post' := by
          rw [hE', List.length_drop, hsz]; congr 1; omega
        rw [this]
        exact hx1
      · rw [hx2, compact_append, compact_dead hdead, compact_live hb0]; simp
      · rw [hx3, hg1]
        by_cases hne : r ≠ (C ++ J).length
        · rw [if_pos hne, if_pos hne]; simp
        · rw [if_neg hne, if_neg hne]; simp
      · intro g hg
        rw [List.mem_append] at hg
        rcases hg with hg | hg
        · by_cases hne : r ≠ (C ++ J).length
          · rw [if_pos hne, List.mem_singleton] at hg; subst hg; exact Nat.le_refl _
          · rw [if_neg hne] at hg; simp at hg
        · have := hx4 g hg; rw [hE'] at this; omega
      · intro p c q hpq
        -- where is `c`: in `dead`, equal to `b`, or in `post'`
        have hskip : ∀ pos, pos < r + (b.len + hl + 1) → mapRef (finishGaps x) pos = mapRef gaps1 pos := by
          intro pos hpos
          rw [hx3]
          apply mapRef_append
          intro g hg
          have := hx4 g hg; rw [hE'] at this; omega
        rcases List.append_eq_append_iff.1 hpq with ⟨t, ht1, ht2⟩ | ⟨t, ht1, ht2⟩
        · -- p = dead ++ t
          cases t with
          | nil =>
            simp at ht2 ht1
            obtain ⟨rfl, rfl⟩ := ht2
            subst ht1
            rw [if_neg hb0, hskip _ (by rw [hr]; omega), ← hr, hmap1 r (Nat.le_refl _) (by omega),
              compact_dead hdead]
            congr 1
            simp; omega
          | cons d t =>
            simp only [List.cons_append, List.cons.injEq] at ht2
            obtain ⟨rfl, rfl⟩ := ht2
            subst ht1
            have := hx6 t c q rfl
            rw [hE', List.length_drop, hC'] at this
            have e1 : (C ++ J).length + pad.length + (wordsOf (dead ++ b :: t)).length =
                r + (b.len + hl + 1) + (b.body.length - b.len) + (wordsOf t).length := by
              simp only [wordsOf_append, wordsOf_cons, List.length_append, hbsz]
              rw [hsz, hr, hE]; omega
            rw [e1, this, compact_append, compact_dead hdead, compact_live hb0]
            by_cases hc : c.len = 0
            · rw [if_pos hc, if_pos hc]
            · rw [if_neg hc, if_neg hc]
              simp only [List.nil_append, wordsOf_cons, List.length_append, trim_words_length hb]
              congr 1; omega
        · -- dead = p ++ t
          cases t with
          | nil =>
            simp at ht2 ht1
            obtain ⟨rfl, rfl⟩ := ht2
            subst ht1
            rw [if_neg hb0, hskip _ (by rw [hr]; omega), ← hr, hmap1 r (Nat.le_refl _) (by omega),
              compact_dead hdead]
            congr 1
            simp; omega
          | cons d t =>
            simp only [List.cons_append, List.cons.injEq] at ht2
            obtain ⟨rfl, rfl⟩ := ht2
            subst ht1
            have hc0 : c.len = 0 := hdead c (by simp)
            have hcs := c.size_pos
            have hcsz : c.words.length = c.size := rfl
            have hlt : (C ++ J).length + pad.length + (wordsOf p).length < r := by
              rw [hr]
              simp only [wordsOf_append, wordsOf_cons, List.length_append]; omega
            have hne : r ≠ (C ++ J).length := by omega
            rw [if_pos hc0, hskip _ (by omega), hg1, if_pos hne, mapRef_snoc,
              if_pos (by show (C ++ J).length ≤ _; omega), gapRes, if_pos (by show r > _; omega)]

theorem Block.WF.trim {b : Block} (h : b.WF hl) (h0 : b.len ≠ 0) : b.trim.WF hl := by
  have := h.len_le
  refine ⟨h.hdr_len, h.hdr_small, fun w hw => h.body_small w (List.mem_of_mem_take hw), ?_,
    h.len_lt, fun h' => absurd h' h0⟩
  simp only [Block.trim, List.length_take]; omega

theorem trim_lits (b : Block) : b.trim.lits = b.lits := by
  simp only [Block.lits, Block.litWords, Block.trim, List.take_take, Nat.min_self]

theorem length_le_words (bs : List Block) : bs.length ≤ (wordsOf bs).length := by
  induction bs with
  | nil => simp
  | cons b bs ih =>
    have := b.size_pos
    have hb : b.words.length = b.size := rfl
    simp only [wordsOf_cons, List.length_cons, List.length_append]; omega

theorem at_lt {r : Nat} {b : Block} (h : At bs r b) : r < (wordsOf bs).length := by
  obtain ⟨p, q, rfl, rfl⟩ := h
  have := b.size_pos
  have hb : b.words.length = b.size := rfl
  simp only [wordsOf_append, wordsOf_cons, List.length_append]; omega

theorem compact_words_le (bs : List Block) : (wordsOf (compact bs)).length ≤ (wordsOf bs).length := by
  induction bs with
  | nil => simp [compact]
  | cons b bs ih =>
    by_cases h0 : b.len = 0
    · have : compact (b :: bs) = compact bs := by simp [compact, Block.live, h0]
      rw [this]; simp only [wordsOf_cons, List.length_append]; omega
    · rw [compact_live h0]
      simp only [wordsOf_cons, List.length_append]
      have : b.trim.words.length ≤ b.words.length := by
        rw [words_eq_trim b]; simp
      omega

/-- Garbage collection keeps exactly the live blocks (without padding), and the map sends every
clause of the old arena to its new place or, if deleted, to `None`. -/
theorem collectGarbage_spec (h : Rep hl a bs) (hbound : a.buffer.length < 2 ^ 32) :
    ∃ a' gaps, collectGarbage hl a = .ok (a', gaps) ∧ a'.garbage = 0 ∧
      Rep hl a' (compact bs) ∧
      ∀ p b q, bs = p ++ b :: q → gapsUpdate gaps (wordsOf p).length =
        .ok (if b.len = 0 then none else some (wordsOf (compact p)).length) := by
  obtain ⟨x, ext, hx1, hx2, hx7, hx8, hx3, hx4, hx5, hx6⟩ :=
    gcLoop_spec (hl := hl) (a.buffer.length + 1) [] [] [] bs []
      (by rw [h.buffer]; have := length_le_words bs; omega) (by simp) h.wf
      (by simpa [h.buffer] using hbound) (by simp) (by simp) (by simp) (by intro c _ _; simp [mapRef])
  simp only [List.nil_append, List.length_nil, Nat.zero_add] at hx1 hx2 hx3 hx6
  rw [← h.buffer] at hx1
  refine ⟨⟨x.1.take x.2.1, 0⟩, finishGaps x, ?_, rfl, ?_, ?_⟩
  · simp only [collectGarbage, nextClause_none h, bind_ok, hx1]
    rw [debugM_ok (by simp [hx7]), bind_ok]
    rfl
  · refine ⟨hx2, ?_, ?_⟩
    · intro b hb
      simp only [compact, List.mem_map, List.mem_filter] at hb
      obtain ⟨c, ⟨hc, hlive⟩, rfl⟩ := hb
      exact (h.wf c hc).trim (by simpa [Block.live] using hlive)
    · intro r b hr
      have h1 := at_lt hr
      have h2 := compact_words_le bs
      rw [h.buffer] at hbound; omega
  · intro p b q hpq
    rw [gapsUpdate_eq hx5 hx8, hx6 p b q hpq]

end Starlit.Arena
