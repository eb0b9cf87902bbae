import Verif.Arena

/-!
# The arena buffer as a sequence of blocks

A block is a header, a length word and a body; the body holds the literals followed by padding.
-/

namespace Starlit.Arena

open HeaderWord (and_LEN_MARKER and_HEADER_MASK or_LEN_MARKER LEN_MARKER_toNat)

/-- A clause in the buffer with everything up to the next clause. -/
structure Block where
  hdr : List Word
  len : Nat
  body : List Word

namespace Block

/-- The words of a block. -/
def words (b : Block) : List Word := b.hdr ++ lenWord b.len :: b.body

/-- Number of words. -/
def size (b : Block) : Nat := b.words.length

/-- The literal words; empty for a deleted clause. -/
def litWords (b : Block) : List Word := b.body.take b.len

/-- The literals; empty for a deleted clause. -/
def lits (b : Block) : List Lit := b.litWords.map Lit.mk

/-- Not deleted. -/
def live (b : Block) : Bool := b.len != 0

structure WF (hl : Nat) (b : Block) : Prop where
  hdr_len : b.hdr.length = hl
  hdr_small : ∀ w ∈ b.hdr, w.toNat < 2 ^ 31
  body_small : ∀ w ∈ b.body, w.toNat < 2 ^ 31
  len_le : b.len ≤ b.body.length
  len_lt : b.len < 2 ^ 31
  dead : b.len = 0 → ∃ w rest, b.body = w :: rest ∧ w.toNat ≤ rest.length + 1

theorem size_eq {hl : Nat} {b : Block} (h : b.WF hl) : b.size = hl + 1 + b.body.length := by
  simp [size, words, h.hdr_len]; omega

theorem size_pos (b : Block) : 0 < b.size := by simp [size, words]; omega

end Block

theorem lenWord_toNat {n : Nat} (h : n < 2 ^ 31) : (lenWord n).toNat = 2 ^ 31 + n := or_LEN_MARKER h

theorem lenWord_zero : lenWord 0 = LEN_MARKER := by decide

theorem lenWord_marked {n : Nat} (h : n < 2 ^ 31) : ¬ lenWord n &&& LEN_MARKER = 0#32 := by
  rw [and_LEN_MARKER, lenWord_toNat h]; omega

theorem lenWord_len {n : Nat} (h : n < 2 ^ 31) : (lenWord n &&& HEADER_MASK).toNat = n := by
  rw [and_HEADER_MASK, lenWord_toNat h]; omega

theorem lenWord_eq_marker {n : Nat} (h : n < 2 ^ 31) : lenWord n = LEN_MARKER ↔ n = 0 := by
  constructor
  · intro e
    have := congrArg BitVec.toNat e
    rw [lenWord_toNat h, LEN_MARKER_toNat] at this; omega
  · rintro rfl; exact lenWord_zero

/-- The words of a list of blocks. -/
def wordsOf (bs : List Block) : List Word := bs.flatMap Block.words

@[simp] theorem wordsOf_nil : wordsOf [] = [] := rfl
@[simp] theorem wordsOf_cons (b : Block) (bs : List Block) :
    wordsOf (b :: bs) = b.words ++ wordsOf bs := by simp [wordsOf]
@[simp] theorem wordsOf_append (bs cs : List Block) :
    wordsOf (bs ++ cs) = wordsOf bs ++ wordsOf cs := by simp [wordsOf]

/-- Block `b` starts at word `r`. -/
def At (bs : List Block) (r : Nat) (b : Block) : Prop :=
  ∃ pre post, bs = pre ++ b :: post ∧ r = (wordsOf pre).length

/-- The arena is exactly the given sequence of well-formed blocks. -/
structure Rep (hl : Nat) (a : Arena) (bs : List Block) : Prop where
  buffer : a.buffer = wordsOf bs
  wf : ∀ b ∈ bs, b.WF hl
  starts : ∀ r b, At bs r b → r < 2 ^ 32

variable {hl : Nat} {a : Arena} {bs : List Block}

theorem At.mem {r : Nat} {b : Block} (h : At bs r b) : b ∈ bs := by
  obtain ⟨pre, post, rfl, _⟩ := h; simp

theorem at_nil {r : Nat} {b : Block} : ¬ At [] r b := by
  rintro ⟨pre, post, h, _⟩; simp at h

theorem at_cons {r : Nat} {b c : Block} :
    At (c :: bs) r b ↔ (r = 0 ∧ b = c) ∨ (c.size ≤ r ∧ At bs (r - c.size) b) := by
  constructor
  · rintro ⟨pre, post, h, hr⟩
    cases pre with
    | nil => simp at h hr; exact .inl ⟨hr, h.1.symm⟩
    | cons p pre =>
      simp at h hr
      obtain ⟨rfl, rfl⟩ := h
      right
      refine ⟨by simp [Block.size]; omega, pre, post, rfl, by simp [Block.size]; omega⟩
  · rintro (⟨rfl, rfl⟩ | ⟨h1, pre, post, rfl, h2⟩)
    · exact ⟨[], bs, rfl, rfl⟩
    · exact ⟨c :: pre, post, rfl, by simp [Block.size] at *; omega⟩

theorem At.unique {r : Nat} {b c : Block} (h : At bs r b) (h' : At bs r c) : b = c := by
  induction bs generalizing r with
  | nil => exact absurd h at_nil
  | cons d bs ih =>
    rw [at_cons] at h h'
    have := d.size_pos
    rcases h with ⟨h1, h2⟩ | ⟨h1, h2⟩ <;> rcases h' with ⟨h3, h4⟩ | ⟨h3, h4⟩
    · rw [h2, h4]
    · omega
    · omega
    · exact ih h2 h4

/-! ## Reading words of a block -/

theorem getElem?_lenWord {P Q : List Word} {b : Block} (hb : b.WF hl) :
    (P ++ (b.words ++ Q))[P.length + hl]? = some (lenWord b.len) := by
  rw [List.getElem?_append_right (by omega)]
  simp only [Block.words, List.append_assoc, Nat.add_sub_cancel_left]
  rw [List.getElem?_append_right (by rw [hb.hdr_len]; exact Nat.le_refl _)]
  simp [hb.hdr_len]

theorem clauseLen_at {r : Nat} {b : Block} (h : Rep hl a bs) (hr : At bs r b) :
    clauseLen hl a r = .ok b.len := by
  have hb := h.wf _ hr.mem
  obtain ⟨pre, post, rfl, rfl⟩ := hr
  have e : a.buffer[(wordsOf pre).length + hl]? = some (lenWord b.len) := by
    rw [h.buffer]; simp only [wordsOf_append, wordsOf_cons]; exact getElem?_lenWord hb
  simp only [clauseLen, idx_ok e, bind_ok]
  rw [if_neg (lenWord_marked hb.len_lt)]
  simp [lenWord_len hb.len_lt]; rfl

/-- A marked word is the length word of a block. -/
theorem marked_at {p : Nat} {w : Word} (hwf : ∀ b ∈ bs, b.WF hl)
    (h : (wordsOf bs)[p]? = some w) (hm : ¬ w &&& LEN_MARKER = 0#32) :
    ∃ r b, At bs r b ∧ p = r + hl ∧ w = lenWord b.len := by
  induction bs generalizing p with
  | nil => simp at h
  | cons c bs ih =>
    have hc := hwf c (by simp)
    rw [wordsOf_cons] at h
    by_cases hp : p < c.words.length
    · rw [List.getElem?_append_left hp] at h
      have : p = hl ∧ w = lenWord c.len := by
        unfold Block.words at h
        by_cases h1 : p < c.hdr.length
        · rw [List.getElem?_append_left h1] at h
          exact absurd ((and_LEN_MARKER _).2 (hc.hdr_small _ (List.mem_of_getElem? h))) hm
        · rw [List.getElem?_append_right (by omega)] at h
          cases hq : p - c.hdr.length with
          | zero =>
            rw [hq] at h; simp at h
            exact ⟨by have := hc.hdr_len; omega, h.symm⟩
          | succ q =>
            rw [hq] at h; simp at h
            exact absurd ((and_LEN_MARKER _).2 (hc.body_small _ (List.mem_of_getElem? h))) hm
      exact ⟨0, c, at_cons.2 (.inl ⟨rfl, rfl⟩), by omega, this.2⟩
    · rw [List.getElem?_append_right (by omega)] at h
      obtain ⟨r, b, h1, h2, h3⟩ := ih (fun b hb => hwf b (by simp [hb])) h
      refine ⟨r + c.size, b, at_cons.2 (.inr ⟨by omega, ?_⟩), ?_, h3⟩
      · simpa using h1
      · simp only [Block.size]; omega

/-- A reference for which `clause_len` does not panic is the start of a clause. -/
theorem clauseLen_ok {r n : Nat} (h : Rep hl a bs) (hr : clauseLen hl a r = .ok n) :
    ∃ b, At bs r b ∧ n = b.len := by
  unfold clauseLen at hr
  rw [bind_eq_ok] at hr
  obtain ⟨w, h1, h2⟩ := hr
  rw [idx_eq_ok] at h1
  by_cases hm : w &&& LEN_MARKER = 0#32
  · simp [hm, throw_eq] at h2
  · rw [h.buffer] at h1
    obtain ⟨r', b, h3, h4, h5⟩ := marked_at h.wf h1 hm
    have : r = r' := by omega
    subst this
    refine ⟨b, h3, ?_⟩
    have := clauseLen_at h h3
    simp only [hm, if_false, pure_eq, Except.ok.injEq] at h2
    rw [← h2, h5, lenWord_len (h.wf _ h3.mem).len_lt]

/-- `clause_len` of anything else panics. -/
theorem clauseLen_not_at {r : Nat} (h : Rep hl a bs) (hr : ∀ b, ¬ At bs r b) :
    clauseLen hl a r = .error .panic := by
  cases e : clauseLen hl a r with
  | ok n =>
    obtain ⟨b, hb, _⟩ := clauseLen_ok h e
    exact absurd hb (hr b)
  | error er =>
    unfold clauseLen at e
    cases hi : a.buffer[r + hl]? with
    | none => simp [idx, hi, throw_eq] at e; rw [e]
    | some w =>
      simp only [idx_ok hi, bind_ok] at e
      by_cases hm : w &&& LEN_MARKER = 0#32
      · simp [hm, throw_eq] at e; rw [e]
      · simp [hm, pure_eq] at e

theorem sliceU_split {P S Q : List Word} {start len : Nat} (hs : start = P.length)
    (hl' : len = S.length) : sliceU (P ++ (S ++ Q)) start len = .ok S := by
  subst hs hl'
  unfold sliceU
  rw [if_pos (by simp)]
  simp; rfl

theorem writeU_split {P S Q T : List Word} {start : Nat} (hs : start = P.length)
    (hl' : T.length = S.length) : writeU (P ++ (S ++ Q)) start T = .ok (P ++ (T ++ Q)) := by
  subst hs
  unfold writeU
  rw [if_pos (by simp [hl'])]
  have : (P ++ (S ++ Q)).drop (P.length + T.length) = Q := by
    rw [hl', ← List.append_assoc, ← List.length_append, List.drop_left]
  simp [pure_eq, this]

theorem headerUnchecked_at {r : Nat} {b : Block} (h : Rep hl a bs) (hr : At bs r b) :
    headerUnchecked hl a r = .ok b.hdr := by
  have hb := h.wf _ hr.mem
  obtain ⟨pre, post, rfl, rfl⟩ := hr
  unfold headerUnchecked
  rw [h.buffer]
  simp only [wordsOf_append, wordsOf_cons, Block.words, List.append_assoc]
  exact sliceU_split rfl hb.hdr_len.symm

theorem header_at {r : Nat} {b : Block} (h : Rep hl a bs) (hr : At bs r b) :
    header hl a r = .ok b.hdr := by
  simp [header, clauseLen_at h hr, headerUnchecked_at h hr]

theorem litsUnchecked_at {r : Nat} {b : Block} (h : Rep hl a bs) (hr : At bs r b) :
    litsUncheckedWithLen hl a r b.len = .ok b.lits := by
  have hb := h.wf _ hr.mem
  obtain ⟨pre, post, rfl, rfl⟩ := hr
  unfold litsUncheckedWithLen
  rw [h.buffer]
  have e : wordsOf (pre ++ b :: post) =
      (wordsOf pre ++ b.hdr ++ [lenWord b.len]) ++
        (b.litWords ++ (b.body.drop b.len ++ wordsOf post)) := by
    simp only [wordsOf_append, wordsOf_cons, Block.words, Block.litWords, List.append_assoc]
    rw [← List.append_assoc (List.take b.len b.body), List.take_append_drop]
    simp
  rw [e, sliceU_split (by simp [hb.hdr_len]; omega)
    (by simp [Block.litWords]; exact (Nat.min_eq_left hb.len_le).symm)]
  rfl

theorem lits_at {r : Nat} {b : Block} (h : Rep hl a bs) (hr : At bs r b) :
    lits hl a r = .ok b.lits := by
  simp [lits, clauseLen_at h hr, litsUnchecked_at h hr]

theorem headerAndLits_at {r : Nat} {b : Block} (h : Rep hl a bs) (hr : At bs r b) :
    headerAndLits hl a r = .ok (b.hdr, b.lits) := by
  simp [headerAndLits, clauseLen_at h hr, headerUnchecked_at h hr, litsUnchecked_at h hr]

/-! ## Replacing a block by one of the same size -/

/-- Block list with the block at `r` replaced. -/
def setAt : List Block → Nat → Block → List Block
  | [], _, _ => []
  | c :: bs, r, b => if r = 0 then b :: bs else c :: setAt bs (r - c.size) b

theorem setAt_split {pre post : List Block} {b b' : Block} :
    setAt (pre ++ b :: post) (wordsOf pre).length b' = pre ++ b' :: post := by
  induction pre with
  | nil => simp [setAt]
  | cons c pre ih =>
    have : ¬ (wordsOf (c :: pre)).length = 0 := by
      have := c.size_pos; simp [Block.size] at *; intro h; simp [h] at this
    simp only [List.cons_append, setAt, this, if_false]
    have e : (wordsOf (c :: pre)).length - c.size = (wordsOf pre).length := by simp [Block.size]
    rw [e, ih]

theorem at_setAt {r s : Nat} {b b' c : Block} (hr : At bs r b) (hsz : b'.size = b.size) :
    At (setAt bs r b') s c ↔ (s = r ∧ c = b') ∨ (s ≠ r ∧ At bs s c) := by
  induction bs generalizing r s with
  | nil => exact absurd hr at_nil
  | cons d bs ih =>
    have hd := d.size_pos
    have hb' := b'.size_pos
    rw [at_cons] at hr
    rcases hr with ⟨rfl, rfl⟩ | ⟨h1, h2⟩
    · simp only [setAt, if_true]
      rw [at_cons, at_cons, hsz]
      constructor
      · rintro (⟨h, rfl⟩ | ⟨h3, h4⟩)
        · exact .inl ⟨h, rfl⟩
        · exact .inr ⟨by omega, .inr ⟨h3, h4⟩⟩
      · rintro (⟨h, rfl⟩ | ⟨h3, ⟨h4, rfl⟩ | ⟨h4, h5⟩⟩)
        · exact .inl ⟨h, rfl⟩
        · exact absurd h4 h3
        · exact .inr ⟨h4, h5⟩
    · have : ¬ r = 0 := by omega
      simp only [setAt, this, if_false]
      rw [at_cons, at_cons, ih h2]
      constructor
      · rintro (⟨rfl, rfl⟩ | ⟨h3, ⟨h4, rfl⟩ | ⟨h4, h5⟩⟩)
        · exact .inr ⟨by omega, .inl ⟨rfl, rfl⟩⟩
        · exact .inl ⟨by omega, rfl⟩
        · exact .inr ⟨by omega, .inr ⟨h3, h5⟩⟩
      · rintro (⟨rfl, rfl⟩ | ⟨h3, ⟨h4, rfl⟩ | ⟨h4, h5⟩⟩)
        · exact .inr ⟨h1, .inl ⟨rfl, rfl⟩⟩
        · exact .inl ⟨h4, rfl⟩
        · exact .inr ⟨h4, .inr ⟨by omega, h5⟩⟩

theorem mem_setAt {r : Nat} {b' c : Block} (h : c ∈ setAt bs r b') : c = b' ∨ c ∈ bs := by
  induction bs generalizing r with
  | nil => simp [setAt] at h
  | cons d bs ih =>
    simp only [setAt] at h
    by_cases hr : r = 0
    · simp [hr] at h; rcases h with h | h <;> simp [h]
    · simp [hr] at h
      rcases h with h | h
      · simp [h]
      · rcases ih h with h | h <;> simp [h]

theorem rep_setAt {r g : Nat} {b b' : Block} {buf' : List Word} (h : Rep hl a bs) (hr : At bs r b)
    (hsz : b'.size = b.size) (hwf : b'.WF hl) (hbuf : buf' = wordsOf (setAt bs r b')) :
    Rep hl ⟨buf', g⟩ (setAt bs r b') := by
  refine ⟨hbuf, ?_, ?_⟩
  · intro c hc
    rcases mem_setAt hc with rfl | hc
    · exact hwf
    · exact h.wf _ hc
  · intro s c hs
    rw [at_setAt hr hsz] at hs
    rcases hs with ⟨rfl, _⟩ | ⟨_, hs⟩
    · exact h.starts _ _ hr
    · exact h.starts _ _ hs

/-- The block with its header replaced. -/
def Block.withHdr (b : Block) (hdr : List Word) : Block := { b with hdr := hdr }

theorem Block.WF.withHdr {b : Block} (h : b.WF hl) {hdr : List Word} (h1 : hdr.length = hl)
    (h2 : ∀ w ∈ hdr, w.toNat < 2 ^ 31) : (b.withHdr hdr).WF hl :=
  ⟨h1, h2, h.body_small, h.len_le, h.len_lt, h.dead⟩

theorem writeHeader_at {r : Nat} {b : Block} {hdr : List Word} (h : Rep hl a bs) (hr : At bs r b)
    (h1 : hdr.length = hl) (h2 : ∀ w ∈ hdr, w.toNat < 2 ^ 31) :
    ∃ a', writeHeaderUnchecked a r hdr = .ok a' ∧ a'.garbage = a.garbage ∧
      Rep hl a' (setAt bs r (b.withHdr hdr)) := by
  have hb := h.wf _ hr.mem
  have hr' := hr
  obtain ⟨pre, post, rfl, rfl⟩ := hr
  have e : writeU a.buffer (wordsOf pre).length hdr =
      .ok (wordsOf (setAt (pre ++ b :: post) (wordsOf pre).length (b.withHdr hdr))) := by
    rw [h.buffer, setAt_split]
    simp only [wordsOf_append, wordsOf_cons, Block.words, List.append_assoc, Block.withHdr]
    exact writeU_split rfl (by rw [h1, hb.hdr_len])
  refine ⟨⟨wordsOf (setAt (pre ++ b :: post) (wordsOf pre).length (b.withHdr hdr)), a.garbage⟩,
    by simp only [writeHeaderUnchecked, e, bind_ok]; rfl, rfl, ?_⟩
  refine rep_setAt h hr' ?_ (hb.withHdr h1 h2) rfl
  simp [Block.size, Block.words, Block.withHdr, h1, hb.hdr_len]

theorem modifyHeader_at {r : Nat} {b : Block} {f : List Word → List Word} (h : Rep hl a bs)
    (hr : At bs r b) (h1 : (f b.hdr).length = hl) (h2 : ∀ w ∈ f b.hdr, w.toNat < 2 ^ 31) :
    ∃ a', modifyHeader hl a r f = .ok a' ∧ a'.garbage = a.garbage ∧
      Rep hl a' (setAt bs r (b.withHdr (f b.hdr))) := by
  simp only [modifyHeader, clauseLen_at h hr, headerUnchecked_at h hr, bind_ok]
  exact writeHeader_at h hr h1 h2

/-- The block with its literals replaced (same number). -/
def Block.withLits (b : Block) (ls : List Lit) : Block :=
  { b with body := ls.map Lit.code32 ++ b.body.drop b.len }

theorem lits_length {b : Block} (h : b.WF hl) : b.lits.length = b.len := by
  simp [Block.lits, Block.litWords, h.len_le]

theorem withLits_lits {b : Block} {ls : List Lit} (hlen : ls.length = b.len) :
    (b.withLits ls).lits = ls := by
  simp only [Block.lits, Block.litWords, Block.withLits]
  rw [List.take_append_of_le_length (by simp [hlen]), List.take_of_length_le (by simp [hlen])]
  simp [Function.comp_def]

theorem Block.WF.withLits {b : Block} (h : b.WF hl) {ls : List Lit} (h1 : ls.length = b.len)
    (h2 : ∀ l ∈ ls, l.Valid) : (b.withLits ls).WF hl := by
  refine ⟨h.hdr_len, h.hdr_small, ?_, ?_, h.len_lt, ?_⟩
  · intro w hw
    simp only [Block.withLits, List.mem_append, List.mem_map] at hw
    rcases hw with ⟨l, hl, rfl⟩ | hw
    · have := h2 l hl
      simp only [Lit.Valid, MAX_CODE_eq, Lit.code] at this; omega
    · exact h.body_small _ (List.mem_of_mem_drop hw)
  · have := h.len_le
    simp [Block.withLits, h1]
  · intro h0
    have h0' : b.len = 0 := h0
    have e : b.withLits ls = b := by
      have : ls = [] := by rw [h0'] at h1; exact List.length_eq_zero_iff.1 h1
      cases b
      simp only at h0'
      subst h0'
      simp [Block.withLits, this]
    rw [e]; exact h.dead h0'

theorem withLits_size {b : Block} (h : b.WF hl) {ls : List Lit} (h1 : ls.length = b.len) :
    (b.withLits ls).size = b.size := by
  have := h.len_le
  simp only [Block.size, Block.words, Block.withLits, List.length_append, List.length_cons,
    List.length_map, List.length_drop, h1]
  omega

theorem writeLits_at {r : Nat} {b : Block} {ls : List Lit} (h : Rep hl a bs) (hr : At bs r b)
    (h1 : ls.length = b.len) (h2 : ∀ l ∈ ls, l.Valid) :
    ∃ a', writeLits hl a r ls = .ok a' ∧ a'.garbage = a.garbage ∧
      Rep hl a' (setAt bs r (b.withLits ls)) := by
  have hb := h.wf _ hr.mem
  have hr' := hr
  obtain ⟨pre, post, rfl, rfl⟩ := hr
  have e : writeU a.buffer ((wordsOf pre).length + hl + 1) (ls.map Lit.code32) =
      .ok (wordsOf (setAt (pre ++ b :: post) (wordsOf pre).length (b.withLits ls))) := by
    rw [h.buffer, setAt_split]
    have e : wordsOf (pre ++ b :: post) =
        (wordsOf pre ++ b.hdr ++ [lenWord b.len]) ++
          (b.litWords ++ (b.body.drop b.len ++ wordsOf post)) := by
      simp only [wordsOf_append, wordsOf_cons, Block.words, Block.litWords, List.append_assoc]
      rw [← List.append_assoc (List.take b.len b.body), List.take_append_drop]
      simp
    rw [e, writeU_split (by simp [hb.hdr_len]; omega)
      (by simp [Block.litWords, h1]; exact (Nat.min_eq_left hb.len_le).symm)]
    simp [Block.words, Block.withLits]
  refine ⟨⟨wordsOf (setAt (pre ++ b :: post) (wordsOf pre).length (b.withLits ls)), a.garbage⟩,
    by simp only [writeLits, e, bind_ok]; rfl, rfl, ?_⟩
  exact rep_setAt h hr' (withLits_size hb h1) (hb.withLits h1 h2) rfl

theorem modifyLits_at {r : Nat} {b : Block} {f : List Lit → List Lit} (h : Rep hl a bs)
    (hr : At bs r b) (h1 : (f b.lits).length = b.len) (h2 : ∀ l ∈ f b.lits, l.Valid) :
    ∃ a', modifyLits hl a r f = .ok a' ∧ a'.garbage = a.garbage ∧
      Rep hl a' (setAt bs r (b.withLits (f b.lits))) := by
  simp only [modifyLits, clauseLen_at h hr, litsUnchecked_at h hr, bind_ok]
  exact writeLits_at h hr h1 h2

/-- The block of a deleted clause. -/
def Block.deleted (b : Block) : Block :=
  if b.len = 0 then b else { b with len := 0, body := BitVec.ofNat 32 b.len :: b.body.drop 1 }

theorem deleted_len (b : Block) : b.deleted.len = 0 := by
  unfold Block.deleted; by_cases h : b.len = 0 <;> simp [h]

theorem Block.WF.deleted {b : Block} (h : b.WF hl) : b.deleted.WF hl := by
  unfold Block.deleted
  by_cases h0 : b.len = 0
  · simp only [h0, if_true]; exact h
  · simp only [h0, if_false]
    have hlt := h.len_lt
    have hle := h.len_le
    have e : (BitVec.ofNat 32 b.len).toNat = b.len := by
      simp only [BitVec.toNat_ofNat]; omega
    refine ⟨h.hdr_len, h.hdr_small, ?_, by simp, by simp, ?_⟩
    · intro w hw
      rcases List.mem_cons.1 hw with rfl | hw
      · rw [e]; exact hlt
      · exact h.body_small _ (List.mem_of_mem_drop hw)
    · intro _
      exact ⟨_, _, rfl, by rw [e]; simp; omega⟩

theorem deleted_size {b : Block} (h : b.WF hl) : b.deleted.size = b.size := by
  unfold Block.deleted
  by_cases h0 : b.len = 0
  · simp [h0]
  · have hle := h.len_le
    simp only [h0, if_false, Block.size, Block.words, List.length_append, List.length_cons,
      List.length_drop]
    omega

theorem deleteClause_at {r : Nat} {b : Block} (h : Rep hl a bs) (hr : At bs r b) :
    ∃ a', deleteClause hl a r = .ok a' ∧ a'.garbage = a.garbage + (b.len + hl + 1) ∧
      Rep hl a' (setAt bs r b.deleted) := by
  have hb := h.wf _ hr.mem
  have hr' := hr
  obtain ⟨pre, post, rfl, rfl⟩ := hr
  by_cases h0 : b.len = 0
  · refine ⟨⟨a.buffer, a.garbage + (b.len + hl + 1)⟩, ?_, rfl, ?_⟩
    · simp [deleteClause, clauseLen_at h hr', h0]; rfl
    · refine rep_setAt h hr' (deleted_size hb) hb.deleted ?_
      rw [h.buffer, setAt_split]; simp [Block.deleted, h0]
  · have h0' : 0 < b.len := by omega
    obtain ⟨x, rest, hx⟩ : ∃ x rest, b.body = x :: rest := by
      cases hbd : b.body with
      | nil => have := hb.len_le; rw [hbd] at this; simp at this; omega
      | cons x rest => exact ⟨x, rest, rfl⟩
    have e1 : writeU a.buffer ((wordsOf pre).length + hl) [LEN_MARKER] =
        .ok ((wordsOf pre ++ b.hdr) ++ ([LEN_MARKER] ++ (x :: rest ++ wordsOf post))) := by
      rw [h.buffer]
      have : wordsOf (pre ++ b :: post) =
          (wordsOf pre ++ b.hdr) ++ ([lenWord b.len] ++ (x :: rest ++ wordsOf post)) := by
        simp [Block.words, hx]
      rw [this]
      exact writeU_split (by simp [hb.hdr_len]) rfl
    have e2 : writeU ((wordsOf pre ++ b.hdr) ++ ([LEN_MARKER] ++ (x :: rest ++ wordsOf post)))
        ((wordsOf pre).length + hl + 1) [BitVec.ofNat 32 b.len] =
        .ok (wordsOf (setAt (pre ++ b :: post) (wordsOf pre).length b.deleted)) := by
      have : (wordsOf pre ++ b.hdr) ++ ([LEN_MARKER] ++ (x :: rest ++ wordsOf post)) =
          (wordsOf pre ++ b.hdr ++ [LEN_MARKER]) ++ ([x] ++ (rest ++ wordsOf post)) := by simp
      rw [this, writeU_split (S := [x]) (T := [BitVec.ofNat 32 b.len]) (by simp [hb.hdr_len]; omega) rfl, setAt_split]
      simp [Block.deleted, h0, Block.words, hx, lenWord_zero]
    refine ⟨⟨_, a.garbage + (b.len + hl + 1)⟩, ?_, rfl,
      rep_setAt h hr' (deleted_size hb) hb.deleted rfl⟩
    simp only [deleteClause, clauseLen_at h hr', bind_ok, gt_iff_lt, h0', if_true, e1, e2]
    rfl

/-- The block with fewer literals; the dropped ones become padding. -/
def Block.shrunk (b : Block) (n : Nat) (hdr : List Word) : Block := { b with len := n, hdr := hdr }

theorem shrinkClause_at {r n : Nat} {b : Block} {shr : List Word → Nat → Nat → List Word}
    (h : Rep hl a bs) (hr : At bs r b) (hn : n ≠ 0) (hle : n ≤ b.len)
    (h1 : (shr b.hdr b.len n).length = hl) (h2 : ∀ w ∈ shr b.hdr b.len n, w.toNat < 2 ^ 31) :
    ∃ a', shrinkClause hl shr a r n = .ok a' ∧ a'.garbage = a.garbage + (b.len - n) ∧
      Rep hl a' (setAt bs r (b.shrunk n (shr b.hdr b.len n))) := by
  have hb := h.wf _ hr.mem
  have hr' := hr
  obtain ⟨pre, post, rfl, rfl⟩ := hr
  have hwf : (b.shrunk n b.hdr).WF hl :=
    ⟨hb.hdr_len, hb.hdr_small, hb.body_small, Nat.le_trans hle hb.len_le,
      Nat.lt_of_le_of_lt hle hb.len_lt, fun h0 => absurd h0 hn⟩
  have hsz : (b.shrunk n b.hdr).size = b.size := by simp [Block.size, Block.words, Block.shrunk]
  have e1 : writeU a.buffer ((wordsOf pre).length + hl) [LEN_MARKER ||| BitVec.ofNat 32 n] =
      .ok (wordsOf (setAt (pre ++ b :: post) (wordsOf pre).length (b.shrunk n b.hdr))) := by
    rw [h.buffer, setAt_split]
    have : wordsOf (pre ++ b :: post) =
        (wordsOf pre ++ b.hdr) ++ ([lenWord b.len] ++ (b.body ++ wordsOf post)) := by
      simp [Block.words]
    rw [this, writeU_split (S := [lenWord b.len])
      (T := [LEN_MARKER ||| BitVec.ofNat 32 n]) (by simp [hb.hdr_len]) rfl]
    simp [Block.shrunk, Block.words, lenWord, BitVec.or_comm]
  have hrep : Rep hl ⟨_, a.garbage + (b.len - n)⟩ _ := rep_setAt h hr' hsz hwf rfl
  have hr2 : At (setAt (pre ++ b :: post) (wordsOf pre).length (b.shrunk n b.hdr))
      (wordsOf pre).length (b.shrunk n b.hdr) := by
    rw [at_setAt hr' hsz]; exact .inl ⟨rfl, rfl⟩
  obtain ⟨a', h3, h4, h5⟩ := writeHeader_at hrep hr2 h1 h2
  refine ⟨a', ?_, by rw [h4], ?_⟩
  · have hn' : (n != 0) = true := by simpa using hn
    have hle' : decide (n ≤ b.len) = true := by simpa using hle
    have hh := headerUnchecked_at hrep hr2
    simp only [shrinkClause, assertM, hn', if_true, bind_pure_ok, clauseLen_at h hr', bind_ok, hle', e1,
      hh]
    exact h3
  · have : setAt (setAt (pre ++ b :: post) (wordsOf pre).length (b.shrunk n b.hdr))
        (wordsOf pre).length ((b.shrunk n b.hdr).withHdr (shr b.hdr b.len n)) =
        setAt (pre ++ b :: post) (wordsOf pre).length (b.shrunk n (shr b.hdr b.len n)) := by
      rw [setAt_split, setAt_split, setAt_split]; rfl
    rw [← this]; exact h5

/-! ## Adding a clause -/

/-- The block of a new clause. -/
def Block.new (hdr : List Word) (ls : List Lit) : Block :=
  { hdr := hdr, len := ls.length, body := ls.map Lit.code32 }

theorem new_lits (hdr : List Word) (ls : List Lit) : (Block.new hdr ls).lits = ls := by
  simp [Block.lits, Block.litWords, Block.new, Function.comp_def]

theorem at_append {r : Nat} {b c : Block} :
    At (bs ++ [c]) r b ↔ At bs r b ∨ (r = (wordsOf bs).length ∧ b = c) := by
  induction bs generalizing r with
  | nil =>
    simp only [List.nil_append, at_cons, wordsOf_nil, List.length_nil]
    constructor
    · rintro (⟨h1, h2⟩ | ⟨_, h2⟩)
      · exact .inr ⟨h1, h2⟩
      · exact absurd h2 at_nil
    · rintro (h | ⟨h1, h2⟩)
      · exact absurd h at_nil
      · exact .inl ⟨h1, h2⟩
  | cons d bs ih =>
    simp only [List.cons_append, at_cons, ih, wordsOf_cons, List.length_append]
    have : d.words.length = d.size := rfl
    rw [this]
    constructor
    · rintro (⟨h1, h2⟩ | ⟨h1, h2 | ⟨h2, h3⟩⟩)
      · exact .inl (.inl ⟨h1, h2⟩)
      · exact .inl (.inr ⟨h1, h2⟩)
      · exact .inr ⟨by omega, h3⟩
    · rintro ((⟨h1, h2⟩ | ⟨h1, h2⟩) | ⟨h2, h3⟩)
      · exact .inl ⟨h1, h2⟩
      · exact .inr ⟨h1, .inl h2⟩
      · exact .inr ⟨by omega, .inr ⟨by omega, h3⟩⟩

theorem addClause_spec {hdr : List Word} {ls : List Lit} (h : Rep hl a bs) (hne : ls ≠ [])
    (h1 : hdr.length = hl) (h2 : ∀ w ∈ hdr, w.toNat < 2 ^ 31) (h3 : ∀ l ∈ ls, l.Valid) :
    addClause a hdr ls = .ok none ∨
    ∃ a', addClause a hdr ls = .ok (some (a', (wordsOf bs).length)) ∧ a'.garbage = a.garbage ∧
      Rep hl a' (bs ++ [Block.new hdr ls]) := by
  have he : (!ls.isEmpty) = true := by cases ls <;> simp_all
  simp only [addClause, assertM, he, if_true, bind_pure_ok]
  by_cases hc : a.buffer.length > 2 ^ 32 - 1 ∨ ls.length > HEADER_MASK.toNat
  · rw [if_pos hc]; exact .inl rfl
  · rw [if_neg hc]
    right
    have hlen : a.buffer.length = (wordsOf bs).length := by rw [h.buffer]
    have hm : HEADER_MASK.toNat = 2 ^ 31 - 1 := HeaderWord.HEADER_MASK_toNat
    rw [hm] at hc
    refine ⟨{ a with buffer := a.buffer ++ hdr ++ [lenWord ls.length] ++ ls.map Lit.code32 },
      ?_, rfl, ?_⟩
    · rw [← hlen, pure_eq, Nat.mod_eq_of_lt (show a.buffer.length < 2 ^ 32 by omega)]
    · refine ⟨?_, ?_, ?_⟩
      · simp [h.buffer, Block.words, Block.new]
      · intro b hb
        rw [List.mem_append, List.mem_singleton] at hb
        rcases hb with hb | rfl
        · exact h.wf _ hb
        · refine ⟨h1, h2, ?_, by simp [Block.new], by simp only [Block.new]; omega, ?_⟩
          · intro w hw
            simp only [Block.new, List.mem_map] at hw
            obtain ⟨l, hl, rfl⟩ := hw
            have := h3 l hl
            simp only [Lit.Valid, MAX_CODE_eq, Lit.code] at this; omega
          · intro h0
            exact absurd (List.length_eq_zero_iff.1 h0) hne
      · intro r b hr
        rcases at_append.1 hr with hr | ⟨hr, _⟩
        · exact h.starts _ _ hr
        · omega

theorem rep_empty : Rep hl empty [] := ⟨rfl, by simp, fun _ _ h => absurd h at_nil⟩

/-! ## Iteration -/

/-- Reference of the first live block, with the offset of the first block. -/
def firstLive : Nat → List Block → Option Nat
  | _, [] => none
  | off, b :: bs => if b.len ≠ 0 then some off else firstLive (off + b.size) bs

/-- References of all live blocks in order. -/
def liveRefs : Nat → List Block → List Nat
  | _, [] => []
  | off, b :: bs =>
    if b.len ≠ 0 then off :: liveRefs (off + b.size) bs else liveRefs (off + b.size) bs

theorem findLoop_spec (P pad : List Word) (post : List Block) (fuel : Nat)
    (hpad : ∀ w ∈ pad, w.toNat < 2 ^ 31) (hwf : ∀ b ∈ post, b.WF hl)
    (hst : ∀ r b, At post r b → P.length + pad.length + r < 2 ^ 32)
    (hf : pad.length + (wordsOf post).length < fuel) :
    findLoop hl (P ++ (pad ++ wordsOf post)) fuel (P.length + hl) =
      .ok (firstLive (P.length + pad.length) post) := by
  induction fuel generalizing P pad post with
  | zero => omega
  | succ fuel ih =>
    cases pad with
    | nil =>
      cases post with
      | nil =>
        simp [findLoop, firstLive]; rfl
      | cons b post =>
        have hb := hwf b (by simp)
        have e : (P ++ ([] ++ wordsOf (b :: post)))[P.length + hl]? = some (lenWord b.len) := by
          simp only [List.nil_append, wordsOf_cons]; exact getElem?_lenWord hb
        unfold findLoop
        rw [e]
        simp only [ne_eq, lenWord_marked hb.len_lt, not_false_eq_true, if_true,
          lenWord_eq_marker hb.len_lt, firstLive, List.length_nil, Nat.add_zero]
        by_cases h0 : b.len = 0
        · simp only [h0, if_true, not_true, if_false]
          obtain ⟨w, rest, hbd, hw⟩ := hb.dead h0
          have e2 : (P ++ ([] ++ wordsOf (b :: post)))[P.length + hl + 1]? = some w := by
            rw [List.getElem?_append_right (by omega)]
            simp only [List.nil_append, wordsOf_cons, Block.words, List.append_assoc,
              Nat.add_assoc, Nat.add_sub_cancel_left]
            rw [List.getElem?_append_right (by rw [hb.hdr_len]; omega)]
            simp [hb.hdr_len, hbd]
          rw [idx_ok e2, bind_ok]
          have hwl : w.toNat ≤ b.body.length := by rw [hbd]; simpa using hw
          have e3 : P ++ ([] ++ wordsOf (b :: post)) =
              (P ++ b.hdr ++ [lenWord b.len] ++ b.body.take w.toNat) ++
                (b.body.drop w.toNat ++ wordsOf post) := by
            simp only [wordsOf_cons, Block.words, List.append_assoc, List.nil_append]
            rw [← List.append_assoc (List.take w.toNat b.body), List.take_append_drop]
            simp
          have hl1 : (P ++ b.hdr ++ [lenWord b.len] ++ b.body.take w.toNat).length =
              P.length + hl + 1 + w.toNat := by
            simp [hb.hdr_len, hwl]; omega
          have hsz := Block.size_eq hb
          have := ih (P ++ b.hdr ++ [lenWord b.len] ++ b.body.take w.toNat) (b.body.drop w.toNat)
            post (fun x hx => hb.body_small _ (List.mem_of_mem_drop hx))
            (fun c hc => hwf c (by simp [hc]))
            (by
              intro r c hc
              have := hst (r + b.size) c (at_cons.2 (.inr ⟨by omega, by simpa using hc⟩))
              rw [hl1, List.length_drop]
              simp only [List.length_nil] at this
              omega)
            (by
              have hbs : b.words.length = b.size := rfl
              simp only [List.length_nil, wordsOf_cons, List.length_append] at hf
              rw [List.length_drop]; omega)
          rw [e3]
          have e4 : P.length + hl + (w.toNat + hl + 1) =
              (P ++ b.hdr ++ [lenWord b.len] ++ b.body.take w.toNat).length + hl := by
            rw [hl1]; omega
          rw [e4, this, hl1, List.length_drop, hsz]
          congr 2; omega
        · simp only [h0, if_false, not_false_eq_true, if_true]
          have := hst 0 b (at_cons.2 (.inl ⟨rfl, rfl⟩))
          simp only [List.length_nil] at this
          rw [debugM_ok (by simp), bind_ok, pure_eq]
          congr 2
          have : P.length < 2 ^ 32 := by omega
          rw [Nat.add_sub_cancel, Nat.mod_eq_of_lt this]
    | cons x pad =>
      have hstep : findLoop hl (P ++ (x :: pad ++ wordsOf post)) fuel (P.length + hl + 1) =
          .ok (firstLive (P.length + (x :: pad).length) post) := by
        have := ih (P ++ [x]) pad post (fun w hw => hpad w (by simp [hw])) hwf
          (by
            intro r b hb
            have := hst r b hb
            simp only [List.length_append, List.length_cons, List.length_nil] at *; omega)
          (by simp only [List.length_cons] at hf; omega)
        simp only [List.append_assoc, List.singleton_append, List.length_append, List.length_cons,
          List.length_nil, Nat.zero_add] at this
        rw [show P.length + hl + 1 = P.length + 1 + hl by omega]
        simp only [List.cons_append]
        rw [this]
        congr 2; simp only [List.length_cons]; omega
      unfold findLoop
      cases hg : (P ++ (x :: pad ++ wordsOf post))[P.length + hl]? with
      | none =>
        simp only
        cases post with
        | nil => rfl
        | cons b post =>
          have hb := hwf b (by simp)
          have := Block.size_eq hb
          have hbs : b.words.length = b.size := rfl
          rw [List.getElem?_eq_none_iff] at hg
          simp at hg
          omega
      | some w =>
        have hsm : w.toNat < 2 ^ 31 := by
          rw [List.getElem?_append_right (by omega)] at hg
          simp only [Nat.add_sub_cancel_left] at hg
          by_cases h1 : hl < (x :: pad).length
          · rw [List.getElem?_append_left h1] at hg
            exact hpad _ (List.mem_of_getElem? hg)
          · rw [List.getElem?_append_right (by omega)] at hg
            cases post with
            | nil => simp at hg
            | cons b post =>
              have hb := hwf b (by simp)
              simp only [List.length_cons] at h1 hg
              rw [wordsOf_cons, Block.words, List.append_assoc,
                List.getElem?_append_left (by rw [hb.hdr_len]; omega)] at hg
              exact hb.hdr_small _ (List.mem_of_getElem? hg)
        simp only [ne_eq, (and_LEN_MARKER w).2 hsm, not_true, if_false]
        exact hstep

/-- The live references following a live block. -/
theorem nextClause_none (h : Rep hl a bs) :
    nextClause hl a none = .ok (firstLive 0 bs) := by
  have := findLoop_spec [] [] bs (a.buffer.length + 1) (by simp) h.wf
    (fun r b hr => by simpa using h.starts r b hr) (by simp [h.buffer])
  simp only [nextClause, findClause, bind_pure_ok, h.buffer] at *
  simpa using this

theorem nextClause_split {pre post : List Block} {b : Block} (h : Rep hl a (pre ++ b :: post)) :
    nextClause hl a (some (wordsOf pre).length) =
      .ok (firstLive ((wordsOf pre).length + b.size) post) := by
  have hat : At (pre ++ b :: post) (wordsOf pre).length b := ⟨pre, post, rfl, rfl⟩
  have hb := h.wf _ hat.mem
  have hle := hb.len_le
  have e : wordsOf (pre ++ b :: post) =
      (wordsOf pre ++ b.hdr ++ [lenWord b.len] ++ b.body.take b.len) ++
        (b.body.drop b.len ++ wordsOf post) := by
    simp only [wordsOf_append, wordsOf_cons, Block.words, List.append_assoc]
    rw [← List.append_assoc (List.take b.len b.body), List.take_append_drop]
    simp
  have hl1 : (wordsOf pre ++ b.hdr ++ [lenWord b.len] ++ b.body.take b.len).length =
      (wordsOf pre).length + hl + 1 + b.len := by
    simp [hb.hdr_len, hle]; omega
  have hsz := Block.size_eq hb
  have hmain := findLoop_spec (wordsOf pre ++ b.hdr ++ [lenWord b.len] ++ b.body.take b.len)
    (b.body.drop b.len) post (a.buffer.length + 1)
    (fun x hx => hb.body_small _ (List.mem_of_mem_drop hx))
    (fun c hc => h.wf c (by simp [hc]))
    (by
      rintro r c ⟨p2, q2, rfl, rfl⟩
      have := h.starts ((wordsOf (pre ++ b :: p2)).length) c ⟨pre ++ b :: p2, q2, by simp, rfl⟩
      rw [hl1, List.length_drop]
      have hbs : b.words.length = b.size := rfl
      simp only [wordsOf_append, wordsOf_cons, List.length_append] at this
      omega)
    (by
      rw [h.buffer, e]; simp only [List.length_append]; omega)
  simp only [nextClause, clauseLen_at h hat, bind_ok, pure_eq, findClause]
  rw [h.buffer] at hmain ⊢
  rw [← e] at hmain
  rw [show (wordsOf pre).length + b.len + hl + 1 + hl =
    (wordsOf pre ++ b.hdr ++ [lenWord b.len] ++ b.body.take b.len).length + hl by rw [hl1]; omega, hmain]
  congr 2
  rw [hl1, List.length_drop, hsz]; omega

end Starlit.Arena
