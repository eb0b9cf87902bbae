import Verif.Solver.Prop
import Verif.Props.Arena
import Verif.Props.Words

/-!
# The clause arena of the solver as a list of clauses

`LRep a S`: the arena `a` stores exactly the clauses `S` (deleted clauses have no literals), in
insertion order.
-/

namespace Starlit

/-- A stored long clause. -/
structure LC where
  ref : Nat
  hdr : LongHeader
  lits : List Lit
deriving DecidableEq, Repr

namespace LC

def ofEntry (e : Arena.Entry) : LC := ⟨e.ref, .ofWords e.hdr, e.lits⟩

/-- Not deleted. -/
def live (e : LC) : Bool := !e.lits.isEmpty

theorem live_iff {e : LC} : e.live = true ↔ e.lits ≠ [] := by simp [live]

end LC

/-- Change of the clause with a given reference. -/
def modS (S : List LC) (r : Nat) (f : LC → LC) : List LC :=
  S.map (fun e => if e.ref = r then f e else e)

theorem LongHeader.words_ofWords {ws : List Word} (h : ws.length = 2) :
    (LongHeader.ofWords ws).words = ws := by
  match ws, h with
  | [a, b], _ => rfl

theorem LongHeader.ofWords_words (h : LongHeader) : LongHeader.ofWords h.words = h := rfl

open Arena in
structure LRepB (a : Arena) (S : List LC) (bs : List Arena.Block) : Prop where
  rep : Arena.Rep 2 a bs
  valid : ∀ b ∈ bs, ∀ l ∈ b.lits, l.Valid
  store : S = (storeOf 0 bs).map LC.ofEntry
  acct : a.garbage + usedOf 2 bs = a.buffer.length

/-- The arena stores exactly the clauses of the list. -/
def LRep (a : Arena) (S : List LC) : Prop := ∃ bs, LRepB a S bs

namespace LRep
open Arena

variable {a : Arena} {S : List LC} {bs : List Block}

theorem empty : LRep Arena.empty [] := ⟨[], rep_empty, by simp, rfl, rfl⟩

theorem nodup (h : LRep a S) : (S.map LC.ref).Nodup := by
  obtain ⟨bs, h⟩ := h
  rw [h.store, List.map_map]
  exact storeOf_nodup 0 bs

theorem unique (h : LRep a S) {e e' : LC} (he : e ∈ S) (he' : e' ∈ S) (hr : e.ref = e'.ref) :
    e = e' := by
  have hn := h.nodup
  clear h
  induction S with
  | nil => simp at he
  | cons x S ih =>
    simp only [List.map_cons, List.nodup_cons, List.mem_map, not_exists, not_and] at hn
    rcases List.mem_cons.1 he with h1 | h1
    · rcases List.mem_cons.1 he' with h2 | h2
      · rw [h1, h2]
      · subst h1; exact absurd hr.symm (hn.1 _ h2)
    · rcases List.mem_cons.1 he' with h2 | h2
      · subst h2; exact absurd hr (hn.1 _ h1)
      · exact ih h1 h2 hn.2

theorem at_of_mem (h : LRepB a S bs) {e : LC} (he : e ∈ S) :
    ∃ b, At bs e.ref b ∧ e = ⟨e.ref, .ofWords b.hdr, b.lits⟩ := by
  rw [h.store] at he
  obtain ⟨x, hx, rfl⟩ := List.mem_map.1 he
  obtain ⟨r, b, hb, rfl⟩ := mem_storeOf.1 hx
  exact ⟨b, by simpa [LC.ofEntry] using hb, rfl⟩

theorem valid (h : LRep a S) {e : LC} (he : e ∈ S) : ∀ l ∈ e.lits, l.Valid := by
  obtain ⟨bs, h⟩ := h
  obtain ⟨b, hb, hx⟩ := at_of_mem h he
  rw [hx]; exact h.valid b hb.mem

theorem hdrWF (h : LRep a S) {e : LC} (he : e ∈ S) : e.hdr.WF := by
  obtain ⟨bs, h⟩ := h
  obtain ⟨b, hb, hx⟩ := at_of_mem h he
  rw [hx]
  have hw := h.rep.wf b hb.mem
  have h2 := hw.hdr_len
  have h3 := hw.hdr_small
  match hh : b.hdr, h2 with
  | [x, y], _ =>
    rw [hh] at h3
    exact ⟨h3 x (by simp), h3 y (by simp)⟩

theorem len_lt (h : LRep a S) {e : LC} (he : e ∈ S) : e.lits.length < 2 ^ 31 := by
  obtain ⟨bs, h⟩ := h
  obtain ⟨b, hb, hx⟩ := at_of_mem h he
  rw [hx]
  have hw := h.rep.wf b hb.mem
  simp only [lits_length hw]; exact hw.len_lt

theorem len_le_buffer (h : LRep a S) {e : LC} (he : e ∈ S) : e.lits.length ≤ a.buffer.length := by
  obtain ⟨bs, h⟩ := h
  obtain ⟨b, hb, hx⟩ := at_of_mem h he
  have hw := h.rep.wf b hb.mem
  obtain ⟨pre, post, rfl, _⟩ := hb
  rw [hx, h.rep.buffer]
  simp only [lits_length hw, wordsOf_append, wordsOf_cons, List.length_append]
  have := hw.len_le
  have := Block.size_eq hw
  have : b.words.length = b.size := rfl
  omega

theorem length_le_buffer (h : LRep a S) : S.length ≤ a.buffer.length := by
  obtain ⟨bs, h⟩ := h
  rw [h.store, h.rep.buffer]
  have hlen : ∀ off (bs : List Block), (storeOf off bs).length = bs.length := by
    intro off bs
    induction bs generalizing off with
    | nil => rfl
    | cons b bs ih => simp [storeOf, ih]
  have := length_le_words bs
  simp only [List.length_map, hlen]; exact this

theorem lits_ok (h : LRep a S) {e : LC} (he : e ∈ S) : Long.lits a e.ref = .ok e.lits := by
  obtain ⟨bs, h⟩ := h
  obtain ⟨b, hb, hx⟩ := at_of_mem h he
  have := lits_at h.rep hb
  unfold Long.lits Long.hl
  rw [this, hx]

theorem clauseLen_ok (h : LRep a S) {e : LC} (he : e ∈ S) :
    Long.len a e.ref = .ok e.lits.length := by
  obtain ⟨bs, h⟩ := h
  obtain ⟨b, hb, hx⟩ := at_of_mem h he
  have hw := h.rep.wf b hb.mem
  have := clauseLen_at h.rep hb
  unfold Long.len Long.hl
  rw [this, hx]
  simp only [lits_length hw]

theorem header_ok (h : LRep a S) {e : LC} (he : e ∈ S) : Long.header a e.ref = .ok e.hdr := by
  obtain ⟨bs, h⟩ := h
  obtain ⟨b, hb, hx⟩ := at_of_mem h he
  have := header_at h.rep hb
  unfold Long.header Long.hl
  rw [this, bind_ok, hx]; rfl

theorem headerAndLits_ok (h : LRep a S) {e : LC} (he : e ∈ S) :
    Long.headerAndLits a e.ref = .ok (e.hdr, e.lits) := by
  obtain ⟨bs, h⟩ := h
  obtain ⟨b, hb, hx⟩ := at_of_mem h he
  have := headerAndLits_at h.rep hb
  unfold Long.headerAndLits Long.hl
  rw [this, bind_ok, hx]; rfl

/-- Replacing one block. -/
theorem setAt_store (h : LRepB a S bs) {r : Nat} {b b' : Block} (hb : At bs r b)
    (hsz : b'.size = b.size) {f : LC → LC}
    (hf : f ⟨r, .ofWords b.hdr, b.lits⟩ = ⟨r, .ofWords b'.hdr, b'.lits⟩) :
    modS S r f = (storeOf 0 (setAt bs r b')).map LC.ofEntry := by
  have key := storeOf_setAt (off := 0) (f := fun e => ⟨e.ref, b'.hdr, b'.lits⟩) hb hsz (by simp)
  rw [Nat.zero_add] at key
  rw [← key, h.store, modS, Store.modify, List.map_map, List.map_map]
  apply List.map_congr_left
  intro e he
  obtain ⟨s, c, hc, rfl⟩ := mem_storeOf.1 he
  simp only [Function.comp, LC.ofEntry, Nat.zero_add]
  by_cases hs : s = r
  · subst hs
    have := hb.unique hc; subst this
    simp [hf]
  · simp [hs]

theorem modHeader_ok (h : LRep a S) {e : LC} (he : e ∈ S) {f : LongHeader → LongHeader}
    (hf : (f e.hdr).WF) :
    ∃ a', Long.modHeader a e.ref f = .ok a' ∧
      LRep a' (modS S e.ref (fun e => { e with hdr := f e.hdr })) ∧
      a'.buffer.length = a.buffer.length ∧ a'.garbage = a.garbage := by
  obtain ⟨bs, h⟩ := h
  obtain ⟨b, hb, hx⟩ := at_of_mem h he
  have hw := h.rep.wf b hb.mem
  have hfe : f e.hdr = f (.ofWords b.hdr) := by rw [hx]
  have hws : ∀ w ∈ (f (LongHeader.ofWords b.hdr)).words, w.toNat < 2 ^ 31 := by
    rw [← hfe]
    intro w hw
    simp only [LongHeader.words, List.mem_cons, List.not_mem_nil, or_false] at hw
    rcases hw with rfl | rfl
    · exact hf.1
    · exact hf.2
  obtain ⟨a', e1, e2, e3⟩ := modifyHeader_at (f := fun ws => (f (.ofWords ws)).words) h.rep hb
    rfl hws
  have hsz : (b.withHdr ((f (.ofWords b.hdr)).words)).size = b.size := by
    simp [Block.size, Block.words, Block.withHdr, hw.hdr_len, LongHeader.words]
    omega
  refine ⟨a', e1, ⟨_, e3, ?_, ?_, ?_⟩, ?_, e2⟩
  · intro c hc
    rcases mem_setAt hc with rfl | hc
    · exact h.valid b hb.mem
    · exact h.valid c hc
  · exact setAt_store h hb hsz (by simp [Block.withHdr, LongHeader.ofWords_words]; rfl)
  · have hB := h.acct
    rw [h.rep.buffer] at hB
    rw [e3.buffer, e2, wordsOf_setAt_length hb hsz, ← hB]
    have := usedOf_setAt (hl := 2) (b' := b.withHdr ((f (.ofWords b.hdr)).words)) hb
    rw [show (b.withHdr ((f (.ofWords b.hdr)).words)).len = b.len from rfl] at this
    omega
  · rw [e3.buffer, h.rep.buffer, wordsOf_setAt_length hb hsz]

theorem setLits_ok (h : LRep a S) {e : LC} (he : e ∈ S) {ls : List Lit}
    (hlen : ls.length = e.lits.length) (hv : ∀ l ∈ ls, l.Valid) :
    ∃ a', Long.setLits a e.ref ls = .ok a' ∧
      LRep a' (modS S e.ref (fun e => { e with lits := ls })) ∧
      a'.buffer.length = a.buffer.length ∧ a'.garbage = a.garbage := by
  obtain ⟨bs, h⟩ := h
  obtain ⟨b, hb, hx⟩ := at_of_mem h he
  have hw := h.rep.wf b hb.mem
  have hl' : ls.length = b.len := by rw [hlen, hx]; exact lits_length hw
  obtain ⟨a', e1, e2, e3⟩ := modifyLits_at (f := fun _ => ls) h.rep hb hl' hv
  have hsz := withLits_size hw hl'
  refine ⟨a', e1, ⟨_, e3, ?_, ?_, ?_⟩, ?_, e2⟩
  · intro c hc
    rcases mem_setAt hc with rfl | hc
    · rw [withLits_lits hl']; exact hv
    · exact h.valid c hc
  · exact setAt_store h hb hsz (by simp [withLits_lits hl']; rfl)
  · have hB := h.acct
    rw [h.rep.buffer] at hB
    rw [e3.buffer, e2, wordsOf_setAt_length hb hsz, ← hB]
    have := usedOf_setAt (hl := 2) (b' := b.withLits ls) hb
    rw [show (b.withLits ls).len = b.len from rfl] at this
    omega
  · rw [e3.buffer, h.rep.buffer, wordsOf_setAt_length hb hsz]

theorem delete_ok (h : LRep a S) {e : LC} (he : e ∈ S) (hlive : e.live = true) :
    ∃ a', Long.delete a e.ref = .ok a' ∧
      LRep a' (modS S e.ref (fun e => { e with lits := [] })) ∧
      a'.buffer.length = a.buffer.length := by
  obtain ⟨bs, h⟩ := h
  obtain ⟨b, hb, hx⟩ := at_of_mem h he
  have hw := h.rep.wf b hb.mem
  obtain ⟨a', e1, e2, e3⟩ := deleteClause_at h.rep hb
  have hsz := deleted_size hw
  have hdl : b.deleted.lits = [] := (dead_iff hw.deleted).2 (deleted_len b)
  have hb0 : b.len ≠ 0 := by
    intro h0
    rw [hx] at hlive
    exact LC.live_iff.1 hlive ((dead_iff hw).2 h0)
  refine ⟨a', e1, ⟨_, e3, ?_, ?_, ?_⟩, ?_⟩
  · intro c hc
    rcases mem_setAt hc with rfl | hc
    · rw [hdl]; simp
    · exact h.valid c hc
  · exact setAt_store h hb hsz (by
      simp only [hdl]
      congr 2
      unfold Block.deleted; split <;> rfl)
  · have hB := h.acct
    rw [h.rep.buffer] at hB
    rw [e3.buffer, e2, wordsOf_setAt_length hb hsz, ← hB]
    have := usedOf_setAt (hl := 2) (b' := b.deleted) hb
    rw [deleted_len, if_neg hb0, if_pos rfl] at this
    omega
  · rw [e3.buffer, h.rep.buffer, wordsOf_setAt_length hb hsz]

theorem add_ok (h : LRep a S) {hd : LongHeader} {ls : List Lit} (hh : hd.WF) (hne : ls ≠ [])
    (hv : ∀ l ∈ ls, l.Valid) :
    Long.add a hd ls = .ok none ∨
    ∃ a' r, Long.add a hd ls = .ok (some (a', r)) ∧ LRep a' (S ++ [⟨r, hd, ls⟩]) := by
  obtain ⟨bs, h⟩ := h
  have hws : ∀ w ∈ hd.words, w.toNat < 2 ^ 31 := by
    intro w hw
    simp only [LongHeader.words, List.mem_cons, List.not_mem_nil, or_false] at hw
    rcases hw with rfl | rfl
    · exact hh.1
    · exact hh.2
  rcases addClause_spec (hdr := hd.words) h.rep hne rfl hws hv with e | ⟨a', e, hg, hr⟩
  · exact .inl e
  · refine .inr ⟨a', _, e, _, hr, ?_, ?_, ?_⟩
    · intro b hb
      rcases List.mem_append.1 hb with hb | hb
      · exact h.valid b hb
      · simp only [List.mem_singleton] at hb; subst hb
        rw [new_lits]; exact hv
    · rw [storeOf_append, List.map_append, h.store]
      simp only [storeOf, List.map_cons, List.map_nil, LC.ofEntry, new_lits, Nat.zero_add]
      rfl
    · have hB := h.acct
      rw [h.rep.buffer] at hB
      rw [hr.buffer, hg, usedOf_append]
      have hne' : ls.length ≠ 0 := by simpa using hne
      have hu : usedOf 2 [Block.new hd.words ls] = 2 + 1 + ls.length := by
        simp only [usedOf]; exact if_neg hne'
      rw [hu]
      simp only [Block.new, wordsOf_append, wordsOf_cons, wordsOf_nil, List.append_nil,
        List.length_append, Block.words, List.length_cons, List.length_map, ← hB]
      simp only [LongHeader.words, List.length_cons, List.length_nil]
      omega

/-- The garbage counter is exact. -/
theorem garbage (h : LRep a S) :
    a.garbage + ((S.filter LC.live).map (fun e => e.lits.length + 3)).sum = a.buffer.length := by
  obtain ⟨bs, h⟩ := h
  rw [← h.acct, h.store]
  congr 1
  have key : ∀ (off : Nat) (bs : List Block), (∀ b ∈ bs, b.WF 2) →
      ((((storeOf off bs).map LC.ofEntry).filter LC.live).map (fun e => e.lits.length + 3)).sum =
        usedOf 2 bs := by
    intro off bs
    induction bs generalizing off with
    | nil => intro _; rfl
    | cons b bs ih =>
      intro hwf
      have hb := hwf b (by simp)
      have ih := ih (off + b.size) (fun c hc => hwf c (by simp [hc]))
      simp only [storeOf, List.map_cons, usedOf]
      rw [← ih]
      by_cases h0 : b.len = 0
      · have : b.lits = [] := (dead_iff hb).2 h0
        simp [LC.ofEntry, LC.live, this, h0]
      · have h1 : b.lits ≠ [] := fun e => h0 ((dead_iff hb).1 e)
        have h2 := lits_length hb
        rw [List.filter_cons_of_pos (by simpa [LC.ofEntry, LC.live] using h1)]
        simp only [List.map_cons, List.sum_cons, LC.ofEntry, h2, if_neg h0]
        omega
  exact key 0 bs h.rep.wf

/-- Reference of the first live clause. -/
def firstRef (S : List LC) : Option Nat := (S.find? LC.live).map LC.ref

theorem firstRef_storeOf (off : Nat) (bs : List Block) (hw : ∀ b ∈ bs, b.WF 2) :
    firstRef ((storeOf off bs).map LC.ofEntry) = firstLive off bs := by
  induction bs generalizing off with
  | nil => rfl
  | cons b bs ih =>
    have ih := ih (off + b.size) (fun c hc => hw c (by simp [hc]))
    have hb := dead_iff (hw b (by simp))
    simp only [storeOf, List.map_cons, firstRef, List.find?_cons, firstLive, LC.ofEntry, LC.live]
      at ih ⊢
    by_cases h0 : b.len = 0
    · rw [if_neg (by simp [h0]), ← ih, hb.2 h0]; rfl
    · have : b.lits.isEmpty = false := by simpa using fun e => h0 (hb.1 e)
      rw [if_pos h0, this]; rfl

theorem next_none (h : LRep a S) : Long.next a none = .ok (firstRef S) := by
  obtain ⟨bs, h⟩ := h
  rw [h.store, firstRef_storeOf 0 bs h.rep.wf]
  exact nextClause_none h.rep

theorem next_some (h : LRep a S) {pre post : List LC} {e : LC} (hS : S = pre ++ e :: post) :
    Long.next a (some e.ref) = .ok (firstRef post) := by
  obtain ⟨bs, h⟩ := h
  have h1 := h.store
  rw [hS] at h1
  -- split the block list
  have split : ∀ (off : Nat) (bs : List Block) (pre : List LC),
      pre ++ e :: post = (storeOf off bs).map LC.ofEntry →
      ∃ p b q, bs = p ++ b :: q ∧ e.ref = off + (wordsOf p).length ∧
        post = (storeOf (off + (wordsOf p).length + b.size) q).map LC.ofEntry := by
    intro off bs
    induction bs generalizing off with
    | nil => intro pre hp; simp [storeOf] at hp
    | cons c bs ih =>
      intro pre hp
      cases pre with
      | nil =>
        simp only [storeOf, List.nil_append, List.map_cons, List.cons.injEq] at hp
        refine ⟨[], c, bs, rfl, ?_, ?_⟩
        · rw [hp.1]; simp [LC.ofEntry]
        · simpa using hp.2
      | cons x pre =>
        simp only [storeOf, List.cons_append, List.map_cons, List.cons.injEq] at hp
        obtain ⟨p, b, q, rfl, hr, hq⟩ := ih (off + c.size) pre hp.2
        refine ⟨c :: p, b, q, rfl, ?_, ?_⟩
        · rw [hr]; simp [Block.size, Nat.add_assoc]
        · rw [hq]; simp [Block.size, Nat.add_assoc]
  obtain ⟨p, b, q, hbs, hr, hq⟩ := split 0 bs pre h1
  subst hbs
  have := nextClause_split h.rep
  unfold Long.next Long.hl
  rw [hr, hq, Nat.zero_add, this, firstRef_storeOf]
  intro c hc; exact h.rep.wf c (by simp [hc])

/-- Garbage collection keeps the live clauses in order, with new references given by the map. -/
theorem gc_ok (h : LRep a S) (hb : a.buffer.length < 2 ^ 32) :
    ∃ a' gaps, Arena.collectGarbage Long.hl a = .ok (a', gaps) ∧ ∃ ρ : Nat → Option Nat,
      (∀ e ∈ S, gapsUpdate gaps e.ref = .ok (ρ e.ref)) ∧
      (∀ e ∈ S, (ρ e.ref).isSome = e.live) ∧
      LRep a' (S.filterMap (fun e => (ρ e.ref).map (fun r => { e with ref := r }))) ∧
      a'.buffer.length ≤ a.buffer.length ∧ a'.garbage = 0 := by
  obtain ⟨bs, h⟩ := h
  obtain ⟨a', gaps, e1, eg, e3, e4⟩ := collectGarbage_spec h.rep hb
  have hval : ∀ e ∈ S, ∃ b, At bs e.ref b ∧ e = ⟨e.ref, .ofWords b.hdr, b.lits⟩ ∧
      ∃ o, gapsUpdate gaps e.ref = .ok o ∧ o.isSome = e.live := by
    intro e he
    obtain ⟨b, hb, hx⟩ := at_of_mem h he
    refine ⟨b, hb, hx, ?_⟩
    have hw := h.rep.wf b hb.mem
    obtain ⟨p, q, hpq, hr⟩ := hb
    have := e4 p b q hpq
    rw [← hr] at this
    refine ⟨_, this, ?_⟩
    have hd := dead_iff hw
    rw [hx]
    by_cases h0 : b.len = 0
    · simp [h0, LC.live, hd.2 h0]
    · have : b.lits ≠ [] := fun e => h0 (hd.1 e)
      simp [h0, LC.live, this]
  let ρ : Nat → Option Nat := fun r => match gapsUpdate gaps r with | .ok o => o | .error _ => none
  have hρ : ∀ e ∈ S, gapsUpdate gaps e.ref = .ok (ρ e.ref) := by
    intro e he
    obtain ⟨_, _, _, o, ho, _⟩ := hval e he
    simp only [ρ, ho]
  refine ⟨a', gaps, e1, ρ, hρ, ?_, ⟨compact bs, e3, ?_, ?_, ?_⟩, ?_, eg⟩
  · intro e he
    obtain ⟨_, _, _, o, ho, ho'⟩ := hval e he
    simp only [ρ, ho, ho']
  · intro b hb
    simp only [compact, List.mem_map, List.mem_filter] at hb
    obtain ⟨c, ⟨hc, _⟩, rfl⟩ := hb
    rw [trim_lits]; exact h.valid c hc
  · have r1 := remap_compact gaps 0 0 bs h.rep.wf (by
      intro p b q hpq
      rw [Nat.zero_add, Nat.zero_add]; exact e4 p b q hpq)
    have r2 := remap_spec gaps bs ρ 0 (by
      intro r b hb
      rw [Nat.zero_add]
      have hm : (⟨r, .ofWords b.hdr, b.lits⟩ : LC) ∈ S := by
        rw [h.store, List.mem_map]
        exact ⟨⟨r, b.hdr, b.lits⟩, mem_storeOf.2 ⟨r, b, hb, by simp⟩, rfl⟩
      exact hρ _ hm)
    rw [r1] at r2
    injection r2 with r2
    rw [r2, h.store, List.map_filterMap, List.filterMap_map]
    congr 1
    funext e
    simp only [Function.comp, LC.ofEntry]
    cases ρ e.ref <;> rfl
  · rw [e3.buffer, eg, usedOf_compact bs h.rep.wf]; omega
  · rw [e3.buffer, h.rep.buffer]; exact compact_words_le bs

end LRep

/-! ## Changes of the list -/

theorem mem_modS {S : List LC} {r : Nat} {f : LC → LC} {e : LC} :
    e ∈ modS S r f ↔ ∃ x ∈ S, e = if x.ref = r then f x else x := by
  simp only [modS, List.mem_map]
  constructor
  · rintro ⟨x, h1, h2⟩; exact ⟨x, h1, h2.symm⟩
  · rintro ⟨x, h1, h2⟩; exact ⟨x, h1, h2.symm⟩

theorem modS_modS {S : List LC} {r : Nat} {f g : LC → LC} (hf : ∀ x, (f x).ref = x.ref) :
    modS (modS S r f) r g = modS S r (fun x => g (f x)) := by
  simp only [modS, List.map_map]
  apply List.map_congr_left
  intro x _
  simp only [Function.comp]
  by_cases h : x.ref = r
  · simp [h, hf]
  · simp [h]

theorem modS_id {S : List LC} {r : Nat} {f : LC → LC} (hf : ∀ e ∈ S, e.ref = r → f e = e) :
    modS S r f = S := by
  rw [modS, List.map_congr_left (g := id), List.map_id]
  intro e he
  by_cases h : e.ref = r
  · simp [h, hf e he h]
  · simp [h]

theorem modS_congr {S : List LC} {r : Nat} {f g : LC → LC}
    (hf : ∀ e ∈ S, e.ref = r → f e = g e) : modS S r f = modS S r g := by
  apply List.map_congr_left
  intro e he
  by_cases h : e.ref = r
  · simp [h, hf e he h]
  · simp [h]

/-! ## Header facts -/

namespace LongHeader

theorem redundant_setGlue (h : LongHeader) (g : Nat) : (h.setGlue g).redundant = h.redundant := by
  simp only [redundant, setGlue, HeaderWord.bit_eq]
  rw [HeaderWord.getLsbD_setField (by decide), if_neg (by decide)]

theorem redundant_setUsed (h : LongHeader) (g : Nat) : (h.setUsed g).redundant = h.redundant := by
  simp only [redundant, setUsed, HeaderWord.bit_eq]
  rw [HeaderWord.getLsbD_setField (by decide), if_neg (by decide)]

theorem redundant_setProt (h : LongHeader) (b : Bool) : (h.setProt b).redundant = h.redundant := by
  simp only [redundant, setProt, HeaderWord.bit_eq]
  rw [HeaderWord.getLsbD_setBit (by decide), if_neg (by decide)]

theorem redundant_setSearchPos (h : LongHeader) (n : Nat) :
    (h.setSearchPos n).redundant = h.redundant := rfl

theorem searchPos_setGlue (h : LongHeader) (g : Nat) : (h.setGlue g).searchPos = h.searchPos := rfl
theorem searchPos_setUsed (h : LongHeader) (g : Nat) : (h.setUsed g).searchPos = h.searchPos := rfl
theorem searchPos_setProt (h : LongHeader) (b : Bool) : (h.setProt b).searchPos = h.searchPos := rfl

theorem searchPos_setSearchPos (h : LongHeader) {n : Nat} (hn : n < 2 ^ 31) :
    (h.setSearchPos n).searchPos = n := by
  have := (C21_header_fields h).2.2.2.2.1 n hn
  exact congrArg HeaderView.searchPos this

theorem prot_setProt (h : LongHeader) (b : Bool) : (h.setProt b).prot = b :=
  congrArg HeaderView.prot ((C21_header_fields h).2.1 b)

theorem prot_setGlue (h : LongHeader) (g : Nat) : (h.setGlue g).prot = h.prot := by
  simp only [prot, setGlue, HeaderWord.bit_eq]
  rw [HeaderWord.getLsbD_setField (by decide), if_neg (by decide)]

theorem prot_setUsed (h : LongHeader) (g : Nat) : (h.setUsed g).prot = h.prot := by
  simp only [prot, setUsed, HeaderWord.bit_eq]
  rw [HeaderWord.getLsbD_setField (by decide), if_neg (by decide)]

end LongHeader

end Starlit
