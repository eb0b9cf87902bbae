import Verif.GcLemmas

/-!
# Properties C16–C20: the clause arena as a clause store

The specification is a list of entries (reference, header, literals) in insertion order; a deleted
entry has no literals.
-/

namespace Starlit.Arena

/-- An entry of the specification. -/
structure Entry where
  ref : Nat
  hdr : List Word
  lits : List Lit
deriving DecidableEq, Repr

/-- The specification of an arena. -/
abbrev Store := List Entry

/-- Calls that change an arena. Functions stand for what the caller does with a `&mut` slice or
header. -/
inductive Op where
  | add (hdr : List Word) (lits : List Lit)
  | setLits (r : Nat) (f : List Lit → List Lit)
  | setHeader (r : Nat) (f : List Word → List Word)
  | shrink (r n : Nat)
  | delete (r : Nat)
  | gc

/-- What the Rust types guarantee about the arguments: headers have `hl` words with unset top bit,
literals are in range, and `&mut` access keeps this. -/
def Op.WellTyped (hl : Nat) : Op → Prop
  | .add hdr lits => hdr.length = hl ∧ (∀ w ∈ hdr, w.toNat < 2 ^ 31) ∧ ∀ l ∈ lits, l.Valid
  | .setLits _ f => ∀ ls : List Lit, (f ls).length = ls.length ∧
      ((∀ l ∈ ls, l.Valid) → ∀ l ∈ f ls, l.Valid)
  | .setHeader _ f => ∀ h : List Word, h.length = hl → (∀ w ∈ h, w.toNat < 2 ^ 31) →
      (f h).length = hl ∧ ∀ w ∈ f h, w.toNat < 2 ^ 31
  | _ => True

/-- The same for the `shrink_clause` callback of the header type. -/
def ShrinkOk (hl : Nat) (shr : List Word → Nat → Nat → List Word) : Prop :=
  ∀ h m n, h.length = hl → (∀ w ∈ h, w.toNat < 2 ^ 31) →
    (shr h m n).length = hl ∧ ∀ w ∈ shr h m n, w.toNat < 2 ^ 31

/-- Change of the entry with a given reference. -/
def Store.modify (S : Store) (r : Nat) (f : Entry → Entry) : Store :=
  S.map (fun e => if e.ref = r then f e else e)

/-- Moves every entry to where the reference map of a garbage collection sends it, dropping the
ones sent to `None`. -/
def Store.remap (gaps : List Gap) : Store → M Store
  | [] => pure []
  | e :: S => do
    let r ← gapsUpdate gaps e.ref
    let S' ← Store.remap gaps S
    match r with
    | some r => pure ({ e with ref := r } :: S')
    | none => pure S'

/-- One call on the arena, together with its effect on the specification.  Garbage collection is
only considered for buffers below `2^32` words (see `DESIGN.md`). -/
def step (hl : Nat) (shr : List Word → Nat → Nat → List Word) (st : Arena × Store) :
    Op → M (Arena × Store)
  | .add hdr lits => do
    match ← addClause st.1 hdr lits with
    | none => pure st
    | some (a, r) => pure (a, st.2 ++ [⟨r, hdr, lits⟩])
  | .setLits r f => do
    let a ← modifyLits hl st.1 r f
    pure (a, st.2.modify r (fun e => { e with lits := f e.lits }))
  | .setHeader r f => do
    let a ← modifyHeader hl st.1 r f
    pure (a, st.2.modify r (fun e => { e with hdr := f e.hdr }))
  | .shrink r n => do
    let a ← shrinkClause hl shr st.1 r n
    pure (a, st.2.modify r (fun e =>
      { e with hdr := shr e.hdr e.lits.length n, lits := e.lits.take n }))
  | .delete r => do
    let a ← deleteClause hl st.1 r
    pure (a, st.2.modify r (fun e => { e with lits := [] }))
  | .gc =>
    if st.1.buffer.length < 2 ^ 32 then do
      let (a, gaps) ← collectGarbage hl st.1
      let S ← Store.remap gaps st.2
      pure (a, S)
    else throw .tooBig

/-- A history of calls. -/
def run (hl : Nat) (shr : List Word → Nat → Nat → List Word) :
    Arena × Store → List Op → M (Arena × Store)
  | st, [] => pure st
  | st, o :: os => do
    let st ← step hl shr st o
    run hl shr st os

/-! ## Simulation -/

/-- The store described by a block list. -/
def storeOf : Nat → List Block → Store
  | _, [] => []
  | off, b :: bs => ⟨off, b.hdr, b.lits⟩ :: storeOf (off + b.size) bs

structure Sim (hl : Nat) (a : Arena) (S : Store) (bs : List Block) : Prop where
  rep : Rep hl a bs
  store : S = storeOf 0 bs
  valid : ∀ b ∈ bs, ∀ l ∈ b.lits, l.Valid

variable {hl : Nat} {a : Arena} {bs : List Block} {S : Store}
  {shr : List Word → Nat → Nat → List Word}

theorem storeOf_append (off : Nat) (bs cs : List Block) :
    storeOf off (bs ++ cs) = storeOf off bs ++ storeOf (off + (wordsOf bs).length) cs := by
  induction bs generalizing off with
  | nil => simp [storeOf]
  | cons b bs ih =>
    simp only [List.cons_append, storeOf, ih, wordsOf_cons, List.length_append]
    rw [show b.words.length = b.size from rfl, Nat.add_assoc]

theorem mem_storeOf {off : Nat} {e : Entry} :
    e ∈ storeOf off bs ↔ ∃ r b, At bs r b ∧ e = ⟨off + r, b.hdr, b.lits⟩ := by
  induction bs generalizing off with
  | nil =>
    simp only [storeOf, List.not_mem_nil, false_iff]
    rintro ⟨r, b, h, _⟩; exact at_nil h
  | cons c bs ih =>
    simp only [storeOf, List.mem_cons, ih]
    constructor
    · rintro (rfl | ⟨r, b, h, rfl⟩)
      · exact ⟨0, c, at_cons.2 (.inl ⟨rfl, rfl⟩), rfl⟩
      · exact ⟨c.size + r, b, at_cons.2 (.inr ⟨by omega, by simpa using h⟩), by
          simp [Nat.add_assoc]⟩
    · rintro ⟨r, b, h, rfl⟩
      rcases at_cons.1 h with ⟨rfl, rfl⟩ | ⟨h1, h2⟩
      · exact .inl rfl
      · exact .inr ⟨_, b, h2, by congr 1; omega⟩

theorem storeOf_refs_ge {off : Nat} {e : Entry} (h : e ∈ storeOf off bs) : off ≤ e.ref := by
  obtain ⟨r, b, _, rfl⟩ := mem_storeOf.1 h; simp

theorem storeOf_nodup (off : Nat) (bs : List Block) : ((storeOf off bs).map Entry.ref).Nodup := by
  induction bs generalizing off with
  | nil => simp [storeOf]
  | cons b bs ih =>
    simp only [storeOf, List.map_cons, List.nodup_cons]
    refine ⟨?_, ih _⟩
    intro h
    rw [List.mem_map] at h
    obtain ⟨e, he, h2⟩ := h
    have := storeOf_refs_ge he
    have := b.size_pos
    omega

/-- The store after replacing one block. -/
theorem storeOf_setAt {r off : Nat} {b b' : Block} {f : Entry → Entry} (hr : At bs r b)
    (hsz : b'.size = b.size)
    (hf : f ⟨off + r, b.hdr, b.lits⟩ = ⟨off + r, b'.hdr, b'.lits⟩) :
    (storeOf off bs).modify (off + r) f = storeOf off (setAt bs r b') := by
  induction bs generalizing r off with
  | nil => exact absurd hr at_nil
  | cons c bs ih =>
    have hc := c.size_pos
    have skip : ∀ (cs : List Block) (o : Nat), off + r < o →
        (storeOf o cs).map (fun e => if e.ref = off + r then f e else e) = storeOf o cs := by
      intro cs o ho
      rw [List.map_congr_left (g := id), List.map_id]
      intro e he
      have := storeOf_refs_ge he
      rw [if_neg (by omega)]; rfl
    rcases at_cons.1 hr with ⟨rfl, rfl⟩ | ⟨h1, h2⟩
    · simp only [storeOf, Store.modify, List.map_cons, setAt, if_true, Nat.add_zero] at *
      rw [hf, hsz, skip _ _ (by omega)]
    · have : ¬ r = 0 := by omega
      simp only [storeOf, Store.modify, List.map_cons, setAt, this, if_false]
      rw [if_neg (by simp; omega)]
      have := ih (off := off + c.size) h2 (by rw [show off + c.size + (r - c.size) = off + r by omega]; exact hf)
      rw [show off + c.size + (r - c.size) = off + r by omega] at this
      rw [← this]; rfl

theorem sim_empty : Sim hl empty [] [] := ⟨rep_empty, rfl, by simp⟩

theorem dead_iff {b : Block} (h : b.WF hl) : b.lits = [] ↔ b.len = 0 := by
  rw [← List.length_eq_zero_iff, lits_length h]

theorem remap_spec (gaps : List Gap) (bs : List Block) (f : Nat → Option Nat) (off : Nat)
    (h : ∀ r b, At bs r b → gapsUpdate gaps (off + r) = .ok (f (off + r))) :
    Store.remap gaps (storeOf off bs) =
      .ok ((storeOf off bs).filterMap (fun e => (f e.ref).map (fun r => { e with ref := r }))) := by
  induction bs generalizing off with
  | nil => rfl
  | cons b bs ih =>
    have h0 := h 0 b (at_cons.2 (.inl ⟨rfl, rfl⟩))
    have ih := ih (off + b.size) (by
      intro r c hc
      have := h (b.size + r) c (at_cons.2 (.inr ⟨by omega, by simpa using hc⟩))
      rw [Nat.add_assoc]; exact this)
    simp only [Nat.add_zero] at h0
    simp only [storeOf, Store.remap, h0, ih, bind_ok, List.filterMap_cons]
    cases f off <;> rfl

/-- The specification of garbage collection: live entries at their new places. -/
theorem remap_compact (gaps : List Gap) (off new : Nat) (bs : List Block)
    (hwf : ∀ b ∈ bs, b.WF hl)
    (h : ∀ p b q, bs = p ++ b :: q → gapsUpdate gaps (off + (wordsOf p).length) =
      .ok (if b.len = 0 then none else some (new + (wordsOf (compact p)).length))) :
    Store.remap gaps (storeOf off bs) = .ok (storeOf new (compact bs)) := by
  induction bs generalizing off new with
  | nil => rfl
  | cons b bs ih =>
    have hb := hwf b (by simp)
    have h0 := h [] b bs rfl
    simp only [wordsOf_nil, List.length_nil, Nat.add_zero, compact, List.filter_nil,
      List.map_nil] at h0
    by_cases hd : b.len = 0
    · have hc : compact (b :: bs) = compact bs := by simp [compact, Block.live, hd]
      have := ih (off + b.size) new (fun c hc => hwf c (by simp [hc])) (by
        intro p c q hpq
        have := h (b :: p) c q (by simp [hpq])
        have hc' : compact (b :: p) = compact p := by simp [compact, Block.live, hd]
        rw [hc', wordsOf_cons, List.length_append, ← Nat.add_assoc] at this
        exact this)
      rw [if_pos hd] at h0
      simp only [storeOf, Store.remap, h0, this, bind_ok, hc]
      rfl
    · have := ih (off + b.size) (new + b.trim.size) (fun c hc => hwf c (by simp [hc])) (by
        intro p c q hpq
        have := h (b :: p) c q (by simp [hpq])
        rw [compact_live hd, wordsOf_cons, wordsOf_cons, List.length_append, List.length_append,
          ← Nat.add_assoc, ← Nat.add_assoc] at this
        exact this)
      rw [if_neg hd] at h0
      simp only [storeOf, Store.remap, h0, this, bind_ok, compact_live hd, trim_lits]
      rfl

theorem Sim.block_valid (h : Sim hl a S bs) {b' : Block} {r : Nat}
    (hv : ∀ l ∈ b'.lits, l.Valid) : ∀ c ∈ setAt bs r b', ∀ l ∈ c.lits, l.Valid := by
  intro c hc
  rcases mem_setAt hc with rfl | hc
  · exact hv
  · exact h.valid c hc

/-- Every well-typed call on a valid state either panics (or is out of the considered range) or
leads to a valid state that agrees with the specification. It never accesses memory out of bounds. -/
theorem Sim.step (hshr : ShrinkOk hl shr) (h : Sim hl a S bs) (o : Op) (ho : o.WellTyped hl) :
    step hl shr (a, S) o = .error .panic ∨ step hl shr (a, S) o = .error .tooBig ∨
    ∃ a' S' bs', step hl shr (a, S) o = .ok (a', S') ∧ Sim hl a' S' bs' := by
  have hcase : ∀ r, (∃ b, At bs r b) ∨ (∀ b, ¬ At bs r b) := by
    intro r
    by_cases h : ∃ b, At bs r b
    · exact .inl h
    · exact .inr (fun b hb => h ⟨b, hb⟩)
  cases o with
  | add hdr ls =>
    obtain ⟨h1, h2, h3⟩ := ho
    by_cases hne : ls = []
    · left; subst hne
      simp [Arena.step, addClause, assertM, throw_eq]
    · right; right
      rcases addClause_spec h.rep hne h1 h2 h3 with he | ⟨a', he, _, hrep⟩
      · exact ⟨a, S, bs, by simp only [Arena.step, he, bind_ok]; rfl, h⟩
      · refine ⟨a', _, _, by simp only [Arena.step, he, bind_ok]; rfl, hrep, ?_, ?_⟩
        · rw [h.store, storeOf_append]
          simp [storeOf, new_lits]
          rfl
        · intro b hb
          rw [List.mem_append, List.mem_singleton] at hb
          rcases hb with hb | rfl
          · exact h.valid b hb
          · rw [new_lits]; exact h3
  | setLits r f =>
    rcases hcase r with ⟨b, hb⟩ | hn
    · right; right
      have hwf := h.rep.wf _ hb.mem
      have h1 : (f b.lits).length = b.len := by rw [(ho b.lits).1, lits_length hwf]
      have h2 := (ho b.lits).2 (h.valid b hb.mem)
      obtain ⟨a', he, _, hrep⟩ := modifyLits_at h.rep hb h1 h2
      refine ⟨a', _, _, by simp only [Arena.step, he, bind_ok]; rfl, hrep, ?_, ?_⟩
      · rw [h.store]
        have := storeOf_setAt (off := 0) (f := fun e => { e with lits := f e.lits }) hb
          (withLits_size hwf h1) (by rw [withLits_lits h1]; rfl)
        simpa using this
      · exact h.block_valid (by rw [withLits_lits h1]; exact h2)
    · left
      simp [Arena.step, modifyLits, clauseLen_not_at h.rep hn]
  | setHeader r f =>
    rcases hcase r with ⟨b, hb⟩ | hn
    · right; right
      have hwf := h.rep.wf _ hb.mem
      obtain ⟨h1, h2⟩ := ho b.hdr hwf.hdr_len hwf.hdr_small
      obtain ⟨a', he, _, hrep⟩ := modifyHeader_at h.rep hb h1 h2
      refine ⟨a', _, _, by simp only [Arena.step, he, bind_ok]; rfl, hrep, ?_, ?_⟩
      · rw [h.store]
        have := storeOf_setAt (off := 0) (f := fun e => { e with hdr := f e.hdr })
          (b' := b.withHdr (f b.hdr)) hb
          (by simp [Block.size, Block.words, Block.withHdr, h1, hwf.hdr_len]) rfl
        simpa using this
      · exact h.block_valid (h.valid b hb.mem)
    · left
      simp [Arena.step, modifyHeader, clauseLen_not_at h.rep hn]
  | shrink r n =>
    by_cases hn0 : n = 0
    · left; subst hn0; simp [Arena.step, shrinkClause, assertM, throw_eq]
    rcases hcase r with ⟨b, hb⟩ | hn
    · by_cases hle : n ≤ b.len
      · right; right
        have hwf := h.rep.wf _ hb.mem
        obtain ⟨h1, h2⟩ := hshr b.hdr b.len n hwf.hdr_len hwf.hdr_small
        obtain ⟨a', he, _, hrep⟩ := shrinkClause_at h.rep hb hn0 hle h1 h2
        have hl : (b.shrunk n (shr b.hdr b.len n)).lits = b.lits.take n := by
          simp only [Block.lits, Block.litWords, Block.shrunk, ← List.map_take, List.take_take]
          rw [Nat.min_eq_left hle]
        refine ⟨a', _, _, by simp only [Arena.step, he, bind_ok]; rfl, hrep, ?_, ?_⟩
        · rw [h.store]
          have := storeOf_setAt (off := 0) (f := fun e =>
              { e with hdr := shr e.hdr e.lits.length n, lits := e.lits.take n })
            (b' := b.shrunk n (shr b.hdr b.len n)) hb
            (by simp [Block.size, Block.words, Block.shrunk, h1, hwf.hdr_len])
            (by simp only [hl, lits_length hwf]; rfl)
          simpa using this
        · refine h.block_valid ?_
          rw [hl]
          exact fun l hl => h.valid b hb.mem l (List.mem_of_mem_take hl)
      · left
        have hn' : (n != 0) = true := by simpa using hn0
        have hle' : decide (n ≤ b.len) = false := by simpa using hle
        simp [Arena.step, shrinkClause, assertM, hn0, clauseLen_at h.rep hb, hle, throw_eq]
    · left
      simp [Arena.step, shrinkClause, assertM, hn0, clauseLen_not_at h.rep hn]
  | delete r =>
    rcases hcase r with ⟨b, hb⟩ | hn
    · right; right
      have hwf := h.rep.wf _ hb.mem
      obtain ⟨a', he, _, hrep⟩ := deleteClause_at h.rep hb
      have hl : b.deleted.lits = [] := by
        simp [Block.lits, Block.litWords, deleted_len]
      have hh : b.deleted.hdr = b.hdr := by
        unfold Block.deleted; by_cases h0 : b.len = 0 <;> simp [h0]
      refine ⟨a', _, _, by simp only [Arena.step, he, bind_ok]; rfl, hrep, ?_, ?_⟩
      · rw [h.store]
        have := storeOf_setAt (off := 0) (f := fun e => { e with lits := [] })
          (b' := b.deleted) hb (deleted_size hwf) (by simp only [hl, hh])
        simpa using this
      · refine h.block_valid ?_
        rw [hl]; simp
    · left
      simp [Arena.step, deleteClause, clauseLen_not_at h.rep hn]
  | gc =>
    simp only [Arena.step]
    by_cases hb : a.buffer.length < 2 ^ 32
    · right; right
      obtain ⟨a', gaps, he, _, hrep, hmap⟩ := collectGarbage_spec h.rep hb
      have hre := remap_compact gaps 0 0 bs h.rep.wf (by simpa using hmap)
      refine ⟨a', storeOf 0 (compact bs), compact bs, ?_, hrep, rfl, ?_⟩
      · simp only [hb, if_true, he, bind_ok, h.store, hre]; rfl
      · intro b hb
        simp only [compact, List.mem_map, List.mem_filter] at hb
        obtain ⟨c, ⟨hc, _⟩, rfl⟩ := hb
        rw [trim_lits]; exact h.valid c hc
    · right; left
      simp [hb, throw_eq]

theorem Sim.run (hshr : ShrinkOk hl shr) (h : Sim hl a S bs) (os : List Op)
    (ho : ∀ o ∈ os, o.WellTyped hl) :
    run hl shr (a, S) os = .error .panic ∨ run hl shr (a, S) os = .error .tooBig ∨
    ∃ a' S' bs', run hl shr (a, S) os = .ok (a', S') ∧ Sim hl a' S' bs' := by
  induction os generalizing a S bs with
  | nil => exact .inr (.inr ⟨a, S, bs, rfl, h⟩)
  | cons o os ih =>
    rcases h.step hshr o (ho o (by simp)) with he | he | ⟨a', S', bs', he, hs⟩
    · left; simp [Arena.run, he]
    · right; left; simp [Arena.run, he]
    · simp only [Arena.run, he, bind_ok]
      exact ih hs (fun o h => ho o (by simp [h]))

theorem run_sim (hshr : ShrinkOk hl shr) {os : List Op} (ho : ∀ o ∈ os, o.WellTyped hl)
    (hr : run hl shr (empty, []) os = .ok (a, S)) : ∃ bs, Sim hl a S bs := by
  rcases sim_empty.run hshr os ho with he | he | ⟨a', S', bs', he, hs⟩
  · rw [he] at hr; cases hr
  · rw [he] at hr; cases hr
  · rw [he] at hr; cases hr; exact ⟨bs', hs⟩

/-! ## C16 and C18 -/

/-- C16: after any history of calls (with any headers, literals and updates, and any number of
garbage collections), the entries of the specification have pairwise different references, and
`clause_len`, `lits`, `header` and `header_and_lits` of each of them return exactly the stored
header and literals (the empty list if the clause was deleted). -/
theorem C16_faithful_store (hl : Nat) (shr : List Word → Nat → Nat → List Word)
    (hshr : ShrinkOk hl shr) (os : List Op) (ho : ∀ o ∈ os, o.WellTyped hl) (a : Arena) (S : Store)
    (hr : run hl shr (empty, []) os = .ok (a, S)) :
    (S.map Entry.ref).Nodup ∧ ∀ e ∈ S,
      clauseLen hl a e.ref = .ok e.lits.length ∧ lits hl a e.ref = .ok e.lits ∧
      header hl a e.ref = .ok e.hdr ∧ headerAndLits hl a e.ref = .ok (e.hdr, e.lits) := by
  obtain ⟨bs, h⟩ := run_sim hshr ho hr
  refine ⟨by rw [h.store]; exact storeOf_nodup 0 bs, ?_⟩
  intro e he
  rw [h.store, mem_storeOf] at he
  obtain ⟨r, b, hb, rfl⟩ := he
  simp only [Nat.zero_add]
  refine ⟨?_, lits_at h.rep hb, header_at h.rep hb, headerAndLits_at h.rep hb⟩
  rw [clauseLen_at h.rep hb, lits_length (h.rep.wf _ hb.mem)]

/-- C18, part 1: no history of well-typed calls, whatever references are passed, accesses the
buffer out of bounds or fails to terminate: the only errors are Rust panics (and the range
restriction of the model for garbage collection). -/
theorem C18_no_undefined_behaviour (hl : Nat) (shr : List Word → Nat → Nat → List Word)
    (hshr : ShrinkOk hl shr) (os : List Op) (ho : ∀ o ∈ os, o.WellTyped hl) :
    run hl shr (empty, []) os ≠ .error .ub ∧ run hl shr (empty, []) os ≠ .error .fuel := by
  rcases (sim_empty (hl := hl)).run hshr os ho with he | he | ⟨a', S', bs', he, _⟩ <;> rw [he] <;>
    simp

/-- C18, part 2: after any history, every function panics for a reference that is not the reference
of a stored clause. -/
theorem C18_invalid_refs_panic (hl : Nat) (shr : List Word → Nat → Nat → List Word)
    (hshr : ShrinkOk hl shr) (os : List Op) (ho : ∀ o ∈ os, o.WellTyped hl) (a : Arena) (S : Store)
    (hr : run hl shr (empty, []) os = .ok (a, S)) (r : Nat) (hnot : ∀ e ∈ S, e.ref ≠ r) :
    clauseLen hl a r = .error .panic ∧ lits hl a r = .error .panic ∧
    header hl a r = .error .panic ∧ headerAndLits hl a r = .error .panic ∧
    nextClause hl a (some r) = .error .panic ∧
    (∀ f, modifyLits hl a r f = .error .panic) ∧ (∀ f, modifyHeader hl a r f = .error .panic) ∧
    (∀ n, shrinkClause hl shr a r n = .error .panic) ∧ deleteClause hl a r = .error .panic := by
  obtain ⟨bs, h⟩ := run_sim hshr ho hr
  have hn : ∀ b, ¬ At bs r b := by
    intro b hb
    refine hnot ⟨0 + r, b.hdr, b.lits⟩ ?_ (by simp)
    rw [h.store, mem_storeOf]; exact ⟨r, b, hb, rfl⟩
  have hp := clauseLen_not_at h.rep hn
  refine ⟨hp, by simp [lits, hp], by simp [header, hp], by simp [headerAndLits, hp],
    by simp [nextClause, hp], by simp [modifyLits, hp], by simp [modifyHeader, hp], ?_,
    by simp [deleteClause, hp]⟩
  intro n
  by_cases hn0 : n = 0
  · simp [shrinkClause, assertM, hn0, throw_eq]
  · simp [shrinkClause, assertM, hn0, hp]

/-! ## C17 -/

/-- Iteration as documented: `while let Some(clause) = arena.next_clause(&mut iter)`, for at most
`fuel` rounds. -/
def iterate (hl : Nat) (a : Arena) : Nat → Option Nat → M (List Nat)
  | 0, _ => throw .fuel
  | fuel + 1, it => do
    match ← nextClause hl a it with
    | none => pure []
    | some c => do
      let rest ← iterate hl a fuel (some c)
      pure (c :: rest)

theorem iterate_spec (h : Rep hl a bs) (pre post : List Block) (fuel : Nat) (it : Option Nat)
    (hbs : bs = pre ++ post) (hf : post.length < fuel)
    (hit : nextClause hl a it = .ok (firstLive (wordsOf pre).length post)) :
    iterate hl a fuel it =
      .ok (((storeOf (wordsOf pre).length post).filter (fun e => e.lits ≠ [])).map Entry.ref) := by
  induction fuel generalizing pre post it with
  | zero => omega
  | succ fuel ih =>
    have hdeadf : ∀ (dead : List Block) (off : Nat), (∀ c ∈ dead, c.len = 0) →
        (∀ c ∈ dead, c ∈ bs) → (storeOf off dead).filter (fun e => e.lits ≠ []) = [] := by
      intro dead off hd hm
      rw [List.filter_eq_nil_iff]
      intro e he
      obtain ⟨r, b, hb, rfl⟩ := mem_storeOf.1 he
      have := (dead_iff (h.wf b (hm b hb.mem))).2 (hd b hb.mem)
      simp [this]
    unfold iterate
    rw [hit, bind_ok]
    cases hfl : firstLive (wordsOf pre).length post with
    | none =>
      have hd := firstLive_none hfl
      rw [hdeadf post _ hd (by intro c hc; simp [hbs, hc])]; rfl
    | some r =>
      obtain ⟨dead, b, post', rfl, hd, hb0, hr⟩ := firstLive_some hfl
      have hbs' : bs = (pre ++ dead) ++ b :: post' := by simp [hbs]
      have hr' : r = (wordsOf (pre ++ dead)).length := by simp [hr]
      have hn := nextClause_split (hl := hl) (a := a) (pre := pre ++ dead) (b := b) (post := post')
        (by rw [← hbs']; exact h)
      have hih := ih (pre ++ dead ++ [b]) post' (some r) (by simp [hbs']) (by simp at hf; omega)
        (by rw [hr', hn]; simp [Block.size, Nat.add_assoc])
      simp only [hih, bind_ok]
      rw [pure_eq]
      congr 1
      rw [storeOf_append, List.filter_append, hdeadf dead _ hd (by intro c hc; simp [hbs, hc])]
      have hbl : b.lits ≠ [] := fun e => hb0 ((dead_iff (h.wf b (by simp [hbs']))).1 e)
      simp [storeOf, hbl, hr, Block.size, Nat.add_assoc]

/-- C17: iterating with `next_clause` terminates and visits exactly the references of the clauses
that are not deleted, once each, in insertion order. -/
theorem C17_iteration (hl : Nat) (shr : List Word → Nat → Nat → List Word)
    (hshr : ShrinkOk hl shr) (os : List Op) (ho : ∀ o ∈ os, o.WellTyped hl) (a : Arena) (S : Store)
    (hr : run hl shr (empty, []) os = .ok (a, S)) :
    iterate hl a (S.length + 1) none = .ok ((S.filter (fun e => e.lits ≠ [])).map Entry.ref) := by
  obtain ⟨bs, h⟩ := run_sim hshr ho hr
  have hlen : ∀ off (bs : List Block), (storeOf off bs).length = bs.length := by
    intro off bs
    induction bs generalizing off with
    | nil => rfl
    | cons b bs ih => simp [storeOf, ih]
  have := iterate_spec h.rep [] bs (S.length + 1) none rfl (by rw [h.store, hlen]; omega)
    (by simpa using nextClause_none h.rep)
  rw [this, h.store]; rfl

/-! ## C19 -/

/-- C19: after any history that leaves a buffer of fewer than `2^32` words, `collect_garbage`
succeeds; the map sends the reference of every live clause to a reference of a clause with the same
header and literals and the reference of every deleted clause to `None`; the new arena contains
exactly these clauses in the old order and nothing else (no deleted clauses and no padding). -/
theorem C19_garbage_collection_partial (hl : Nat) (shr : List Word → Nat → Nat → List Word)
    (hshr : ShrinkOk hl shr) (os : List Op) (ho : ∀ o ∈ os, o.WellTyped hl) (a : Arena) (S : Store)
    (hr : run hl shr (empty, []) os = .ok (a, S)) (hbound : a.buffer.length < 2 ^ 32) :
    ∃ a' gaps refs, collectGarbage hl a = .ok (a', gaps) ∧
      -- deleted clauses
      (∀ e ∈ S, e.lits = [] → gapsUpdate gaps e.ref = .ok none) ∧
      -- live clauses, in order
      (S.filter (fun e => e.lits ≠ [])).mapM (fun e => gapsUpdate gaps e.ref) = .ok (refs.map some) ∧
      refs.mapM (fun r => headerAndLits hl a' r) =
        .ok ((S.filter (fun e => e.lits ≠ [])).map (fun e => (e.hdr, e.lits))) ∧
      (∀ fuel, S.length < fuel → iterate hl a' fuel none = .ok refs) ∧
      a'.buffer.length = ((S.filter (fun e => e.lits ≠ [])).map (fun e => hl + 1 + e.lits.length)).sum ∧
      a'.garbage = 0 := by
  obtain ⟨bs, h⟩ := run_sim hshr ho hr
  obtain ⟨a', gaps, he, hg, hrep, hmap⟩ := collectGarbage_spec h.rep hbound
  have hlen : ∀ off (bs : List Block), (storeOf off bs).length = bs.length := by
    intro off bs
    induction bs generalizing off with
    | nil => rfl
    | cons b bs ih => simp [storeOf, ih]
  refine ⟨a', gaps, (storeOf 0 (compact bs)).map Entry.ref, he, ?_, ?_, ?_, ?_, ?_, hg⟩
  · intro e he hd
    rw [h.store, mem_storeOf] at he
    obtain ⟨r, b, ⟨p, q, hpq, rfl⟩, rfl⟩ := he
    have hb0 := (dead_iff (h.rep.wf b (by simp [hpq]))).1 hd
    simp only [Nat.zero_add]
    rw [hmap p b q hpq, if_pos hb0]
  · -- by induction over the blocks
    rw [h.store]
    have key : ∀ (bs : List Block) (off new : Nat), (∀ b ∈ bs, b.WF hl) →
        (∀ p b q, bs = p ++ b :: q → gapsUpdate gaps (off + (wordsOf p).length) =
          .ok (if b.len = 0 then none else some (new + (wordsOf (compact p)).length))) →
        ((storeOf off bs).filter (fun e => e.lits ≠ [])).mapM (fun e => gapsUpdate gaps e.ref) =
          .ok (((storeOf new (compact bs)).map Entry.ref).map some) := by
      intro bs
      induction bs with
      | nil => intros; rfl
      | cons b bs ih =>
        intro off new hwf hm
        have hb := hwf b (by simp)
        have h0 := hm [] b bs rfl
        simp only [wordsOf_nil, List.length_nil, Nat.add_zero, compact, List.filter_nil,
          List.map_nil] at h0
        by_cases hd : b.len = 0
        · have hc : compact (b :: bs) = compact bs := by simp [compact, Block.live, hd]
          have hl0 := (dead_iff hb).2 hd
          rw [hc, storeOf, List.filter_cons_of_neg (by simp [hl0])]
          refine ih _ _ (fun c hc => hwf c (by simp [hc])) ?_
          intro p c q hpq
          have := hm (b :: p) c q (by simp [hpq])
          have hc' : compact (b :: p) = compact p := by simp [compact, Block.live, hd]
          rw [hc', wordsOf_cons, List.length_append, ← Nat.add_assoc] at this
          exact this
        · have hl0 : b.lits ≠ [] := fun e => hd ((dead_iff hb).1 e)
          rw [compact_live hd, storeOf, List.filter_cons_of_pos (by simp [hl0]), List.mapM_cons, h0,
            if_neg hd]
          have := ih (off + b.size) (new + b.trim.size) (fun c hc => hwf c (by simp [hc])) (by
            intro p c q hpq
            have := hm (b :: p) c q (by simp [hpq])
            rw [compact_live hd, wordsOf_cons, wordsOf_cons, List.length_append, List.length_append,
              ← Nat.add_assoc, ← Nat.add_assoc] at this
            exact this)
          rw [bind_ok, this]
          rfl
    exact key bs 0 0 h.rep.wf (by simpa using hmap)
  · have key : ∀ (bs : List Block) (off : Nat), (∀ r b, At bs r b →
        headerAndLits hl a' (off + r) = .ok (b.hdr, b.lits)) →
        ((storeOf off bs).map Entry.ref).mapM (fun r => headerAndLits hl a' r) =
          .ok (bs.map (fun b => (b.hdr, b.lits))) := by
      intro bs
      induction bs with
      | nil => intros; rfl
      | cons b bs ih =>
        intro off hm
        have h0 := hm 0 b (at_cons.2 (.inl ⟨rfl, rfl⟩))
        simp only [Nat.add_zero] at h0
        simp only [storeOf, List.map_cons, List.mapM_cons, h0, bind_ok]
        rw [ih (off + b.size) (by
          intro r c hc
          have := hm (b.size + r) c (at_cons.2 (.inr ⟨by omega, by simpa using hc⟩))
          rw [Nat.add_assoc]; exact this)]
        rfl
    rw [key (compact bs) 0 (by intro r b hb; rw [Nat.zero_add]; exact headerAndLits_at hrep hb)]
    congr 1
    rw [h.store]
    have key2 : ∀ (bs : List Block) (off : Nat), (∀ b ∈ bs, b.WF hl) →
        (compact bs).map (fun b => (b.hdr, b.lits)) =
          ((storeOf off bs).filter (fun e => e.lits ≠ [])).map (fun e => (e.hdr, e.lits)) := by
      intro bs
      induction bs with
      | nil => intros; rfl
      | cons b bs ih =>
        intro off hwf
        have hb := hwf b (by simp)
        have ih := ih (off + b.size) (fun c hc => hwf c (by simp [hc]))
        by_cases hd : b.len = 0
        · have hc : compact (b :: bs) = compact bs := by simp [compact, Block.live, hd]
          rw [hc, storeOf, List.filter_cons_of_neg (by simp [(dead_iff hb).2 hd]), ih]
        · rw [compact_live hd, storeOf,
            List.filter_cons_of_pos (by simp; exact fun e => hd ((dead_iff hb).1 e)),
            List.map_cons, List.map_cons, ih, trim_lits]
          rfl
    exact key2 bs 0 h.rep.wf
  · intro fuel hf
    have hcl : (compact bs).length ≤ bs.length := by
      simp only [compact, List.length_map]; exact List.length_filter_le _ _
    have := iterate_spec hrep [] (compact bs) fuel none rfl
      (by rw [h.store, hlen] at hf; omega) (by simpa using nextClause_none hrep)
    rw [this]
    congr 2
    refine List.filter_eq_self.2 ?_
    intro e he
    obtain ⟨r, b, hb, rfl⟩ := mem_storeOf.1 he
    have hm := hb.mem
    simp only [compact, List.mem_map, List.mem_filter] at hm
    obtain ⟨c, ⟨hc, hlive⟩, rfl⟩ := hm
    rw [trim_lits]
    have : c.lits ≠ [] := fun e => by
      have := (dead_iff (h.rep.wf c hc)).1 e
      simp [Block.live, this] at hlive
    simpa using this
  · rw [hrep.buffer, h.store]
    have key : ∀ (bs : List Block) (off : Nat), (∀ b ∈ bs, b.WF hl) →
        (wordsOf (compact bs)).length =
          (((storeOf off bs).filter (fun e => e.lits ≠ [])).map
            (fun e => hl + 1 + e.lits.length)).sum := by
      intro bs
      induction bs with
      | nil => intros; rfl
      | cons b bs ih =>
        intro off hwf
        have hb := hwf b (by simp)
        have ih := ih (off + b.size) (fun c hc => hwf c (by simp [hc]))
        by_cases hd : b.len = 0
        · have hc : compact (b :: bs) = compact bs := by simp [compact, Block.live, hd]
          rw [hc, storeOf, List.filter_cons_of_neg (by simp [(dead_iff hb).2 hd]), ih]
        · rw [compact_live hd, storeOf,
            List.filter_cons_of_pos (by simp; exact fun e => hd ((dead_iff hb).1 e)),
            List.map_cons, List.sum_cons, wordsOf_cons, List.length_append, ih,
            trim_words_length hb, lits_length hb]
          omega
    exact key bs 0 h.rep.wf

/-! ## C20 -/

/-- No call deletes a clause that is already deleted. -/
def NoDoubleDelete (hl : Nat) (shr : List Word → Nat → Nat → List Word) :
    Arena × Store → List Op → Prop
  | _, [] => True
  | st, o :: os => (∀ r, o = .delete r → ∀ e ∈ st.2, e.ref = r → e.lits ≠ []) ∧
    ∀ st', step hl shr st o = .ok st' → NoDoubleDelete hl shr st' os

/-- Words of live clauses. -/
def Store.used (hl : Nat) (S : Store) : Nat :=
  ((S.filter (fun e => e.lits ≠ [])).map (fun e => hl + 1 + e.lits.length)).sum

/-- Words occupied by live clauses, on blocks. -/
def usedOf (hl : Nat) : List Block → Nat
  | [] => 0
  | b :: bs => (if b.len = 0 then 0 else hl + 1 + b.len) + usedOf hl bs

theorem used_storeOf (off : Nat) (bs : List Block) (hwf : ∀ b ∈ bs, b.WF hl) :
    Store.used hl (storeOf off bs) = usedOf hl bs := by
  induction bs generalizing off with
  | nil => rfl
  | cons b bs ih =>
    have hb := hwf b (by simp)
    have ih := ih (off + b.size) (fun c hc => hwf c (by simp [hc]))
    unfold Store.used at *
    by_cases hd : b.len = 0
    · rw [storeOf, List.filter_cons_of_neg (by simp [(dead_iff hb).2 hd]), ih]
      simp [usedOf, hd]
    · rw [storeOf, List.filter_cons_of_pos (by simp; exact fun e => hd ((dead_iff hb).1 e)),
        List.map_cons, List.sum_cons, ih, lits_length hb]
      simp [usedOf, hd]

theorem usedOf_setAt {r : Nat} {b b' : Block} (hr : At bs r b) :
    usedOf hl (setAt bs r b') + (if b.len = 0 then 0 else hl + 1 + b.len) =
      usedOf hl bs + (if b'.len = 0 then 0 else hl + 1 + b'.len) := by
  induction bs generalizing r with
  | nil => exact absurd hr at_nil
  | cons c bs ih =>
    rcases at_cons.1 hr with ⟨rfl, rfl⟩ | ⟨h1, h2⟩
    · simp only [setAt, if_true, usedOf]; omega
    · have := c.size_pos
      have h0 : ¬ r = 0 := by omega
      simp only [setAt, h0, if_false, usedOf]
      have := ih h2
      omega

theorem usedOf_append (bs cs : List Block) : usedOf hl (bs ++ cs) = usedOf hl bs + usedOf hl cs := by
  induction bs with
  | nil => simp [usedOf]
  | cons b bs ih => simp only [List.cons_append, usedOf, ih]; omega

theorem wordsOf_setAt_length {r : Nat} {b b' : Block} (hr : At bs r b) (hsz : b'.size = b.size) :
    (wordsOf (setAt bs r b')).length = (wordsOf bs).length := by
  obtain ⟨p, q, rfl, rfl⟩ := hr
  rw [setAt_split]
  have h1 : b.words.length = b.size := rfl
  have h2 : b'.words.length = b'.size := rfl
  simp only [wordsOf_append, wordsOf_cons, List.length_append, h1, h2, hsz]

theorem usedOf_compact (bs : List Block) (hwf : ∀ b ∈ bs, b.WF hl) :
    usedOf hl (compact bs) = (wordsOf (compact bs)).length := by
  induction bs with
  | nil => rfl
  | cons b bs ih =>
    have hb := hwf b (by simp)
    have ih := ih (fun c hc => hwf c (by simp [hc]))
    by_cases hd : b.len = 0
    · have hc : compact (b :: bs) = compact bs := by simp [compact, Block.live, hd]
      rw [hc, ih]
    · rw [compact_live hd]
      simp only [usedOf, wordsOf_cons, List.length_append, ih, trim_words_length hb]
      rw [show b.trim.len = b.len from rfl, if_neg hd]; omega

theorem account_step (hshr : ShrinkOk hl shr) (h : Sim hl a S bs)
    (hacc : a.garbage + usedOf hl bs = a.buffer.length) (o : Op) (ho : o.WellTyped hl)
    (hnd : ∀ r, o = .delete r → ∀ e ∈ S, e.ref = r → e.lits ≠ []) {a' : Arena} {S' : Store}
    (hs : step hl shr (a, S) o = .ok (a', S')) :
    ∃ bs', Sim hl a' S' bs' ∧ a'.garbage + usedOf hl bs' = a'.buffer.length := by
  have hcase : ∀ r, (∃ b, At bs r b) ∨ (∀ b, ¬ At bs r b) := by
    intro r
    by_cases h : ∃ b, At bs r b
    · exact .inl h
    · exact .inr (fun b hb => h ⟨b, hb⟩)
  -- the block list that `Sim.step` produces is determined by the store
  have hB := h.rep.buffer
  cases o with
  | add hdr ls =>
    obtain ⟨h1, h2, h3⟩ := ho
    by_cases hne : ls = []
    · subst hne; simp [Arena.step, addClause, assertM, throw_eq] at hs
    · rcases addClause_spec h.rep hne h1 h2 h3 with he | ⟨a2, he, hg, hrep⟩
      · simp only [Arena.step, he, bind_ok, pure_eq, Except.ok.injEq, Prod.mk.injEq] at hs
        obtain ⟨rfl, rfl⟩ := hs
        exact ⟨bs, h, hacc⟩
      · simp only [Arena.step, he, bind_ok, pure_eq, Except.ok.injEq, Prod.mk.injEq] at hs
        obtain ⟨rfl, rfl⟩ := hs
        refine ⟨_, ⟨hrep, ?_, ?_⟩, ?_⟩
        · rw [h.store, storeOf_append]; simp [storeOf, new_lits]; rfl
        · intro b hb
          rw [List.mem_append, List.mem_singleton] at hb
          rcases hb with hb | rfl
          · exact h.valid b hb
          · rw [new_lits]; exact h3
        · rw [hrep.buffer, hg, usedOf_append]
          have hne' : ls.length ≠ 0 := by simpa using hne
          have hu : usedOf hl [Block.new hdr ls] = hl + 1 + ls.length := by
            simp only [usedOf]; exact if_neg hne'
          rw [hu]
          simp only [Block.new, wordsOf_append, wordsOf_cons, wordsOf_nil, List.append_nil,
            List.length_append, Block.words, List.length_cons, List.length_map, h1, ← hB]
          omega
  | setLits r f =>
    rcases hcase r with ⟨b, hb⟩ | hn
    · have hwf := h.rep.wf _ hb.mem
      have h1 : (f b.lits).length = b.len := by rw [(ho b.lits).1, lits_length hwf]
      have h2 := (ho b.lits).2 (h.valid b hb.mem)
      obtain ⟨a2, he, hg, hrep⟩ := modifyLits_at h.rep hb h1 h2
      simp only [Arena.step, he, bind_ok, pure_eq, Except.ok.injEq, Prod.mk.injEq] at hs
      obtain ⟨rfl, rfl⟩ := hs
      refine ⟨_, ⟨hrep, ?_, ?_⟩, ?_⟩
      · rw [h.store]
        have := storeOf_setAt (off := 0) (f := fun e => { e with lits := f e.lits }) hb
          (withLits_size hwf h1) (by rw [withLits_lits h1]; rfl)
        simpa using this
      · exact h.block_valid (by rw [withLits_lits h1]; exact h2)
      · rw [hrep.buffer, hg, wordsOf_setAt_length hb (withLits_size hwf h1), ← hB]
        have := usedOf_setAt (hl := hl) (b' := b.withLits (f b.lits)) hb
        rw [show (b.withLits (f b.lits)).len = b.len from rfl] at this
        omega
    · simp [Arena.step, modifyLits, clauseLen_not_at h.rep hn] at hs
  | setHeader r f =>
    rcases hcase r with ⟨b, hb⟩ | hn
    · have hwf := h.rep.wf _ hb.mem
      obtain ⟨h1, h2⟩ := ho b.hdr hwf.hdr_len hwf.hdr_small
      obtain ⟨a2, he, hg, hrep⟩ := modifyHeader_at h.rep hb h1 h2
      have hsz : (b.withHdr (f b.hdr)).size = b.size := by
        simp [Block.size, Block.words, Block.withHdr, h1, hwf.hdr_len]
      simp only [Arena.step, he, bind_ok, pure_eq, Except.ok.injEq, Prod.mk.injEq] at hs
      obtain ⟨rfl, rfl⟩ := hs
      refine ⟨_, ⟨hrep, ?_, ?_⟩, ?_⟩
      · rw [h.store]
        have := storeOf_setAt (off := 0) (f := fun e => { e with hdr := f e.hdr })
          (b' := b.withHdr (f b.hdr)) hb hsz rfl
        simpa using this
      · exact h.block_valid (h.valid b hb.mem)
      · rw [hrep.buffer, hg, wordsOf_setAt_length hb hsz, ← hB]
        have := usedOf_setAt (hl := hl) (b' := b.withHdr (f b.hdr)) hb
        rw [show (b.withHdr (f b.hdr)).len = b.len from rfl] at this
        omega
    · simp [Arena.step, modifyHeader, clauseLen_not_at h.rep hn] at hs
  | shrink r n =>
    by_cases hn0 : n = 0
    · subst hn0; simp [Arena.step, shrinkClause, assertM, throw_eq] at hs
    rcases hcase r with ⟨b, hb⟩ | hn
    · by_cases hle : n ≤ b.len
      · have hwf := h.rep.wf _ hb.mem
        obtain ⟨h1, h2⟩ := hshr b.hdr b.len n hwf.hdr_len hwf.hdr_small
        obtain ⟨a2, he, hg, hrep⟩ := shrinkClause_at h.rep hb hn0 hle h1 h2
        have hl' : (b.shrunk n (shr b.hdr b.len n)).lits = b.lits.take n := by
          simp only [Block.lits, Block.litWords, Block.shrunk, ← List.map_take, List.take_take]
          rw [Nat.min_eq_left hle]
        have hsz : (b.shrunk n (shr b.hdr b.len n)).size = b.size := by
          simp [Block.size, Block.words, Block.shrunk, h1, hwf.hdr_len]
        simp only [Arena.step, he, bind_ok, pure_eq, Except.ok.injEq, Prod.mk.injEq] at hs
        obtain ⟨rfl, rfl⟩ := hs
        refine ⟨_, ⟨hrep, ?_, ?_⟩, ?_⟩
        · rw [h.store]
          have := storeOf_setAt (off := 0) (f := fun e =>
              { e with hdr := shr e.hdr e.lits.length n, lits := e.lits.take n })
            (b' := b.shrunk n (shr b.hdr b.len n)) hb hsz
            (by simp only [hl', lits_length hwf]; rfl)
          simpa using this
        · refine h.block_valid ?_
          rw [hl']
          exact fun l hl => h.valid b hb.mem l (List.mem_of_mem_take hl)
        · rw [hrep.buffer, hg, wordsOf_setAt_length hb hsz, ← hB]
          have := usedOf_setAt (hl := hl) (b' := b.shrunk n (shr b.hdr b.len n)) hb
          rw [show (b.shrunk n (shr b.hdr b.len n)).len = n from rfl, if_neg hn0,
            if_neg (show b.len ≠ 0 by omega)] at this
          omega
      · simp [Arena.step, shrinkClause, assertM, hn0, clauseLen_at h.rep hb, hle, throw_eq] at hs
    · simp [Arena.step, shrinkClause, assertM, hn0, clauseLen_not_at h.rep hn] at hs
  | delete r =>
    rcases hcase r with ⟨b, hb⟩ | hn
    · have hwf := h.rep.wf _ hb.mem
      obtain ⟨a2, he, hg, hrep⟩ := deleteClause_at h.rep hb
      have hl' : b.deleted.lits = [] := by
        simp [Block.lits, Block.litWords, deleted_len]
      have hh : b.deleted.hdr = b.hdr := by
        unfold Block.deleted; by_cases h0 : b.len = 0 <;> simp [h0]
      have hb0 : b.len ≠ 0 := by
        intro h0
        refine hnd r rfl ⟨0 + r, b.hdr, b.lits⟩ ?_ (by simp) ((dead_iff hwf).2 h0)
        rw [h.store, mem_storeOf]; exact ⟨r, b, hb, rfl⟩
      simp only [Arena.step, he, bind_ok, pure_eq, Except.ok.injEq, Prod.mk.injEq] at hs
      obtain ⟨rfl, rfl⟩ := hs
      refine ⟨_, ⟨hrep, ?_, ?_⟩, ?_⟩
      · rw [h.store]
        have := storeOf_setAt (off := 0) (f := fun e => { e with lits := [] })
          (b' := b.deleted) hb (deleted_size hwf) (by simp only [hl', hh])
        simpa using this
      · refine h.block_valid ?_
        rw [hl']; simp
      · rw [hrep.buffer, hg, wordsOf_setAt_length hb (deleted_size hwf), ← hB]
        have := usedOf_setAt (hl := hl) (b' := b.deleted) hb
        rw [deleted_len, if_neg hb0, if_pos rfl] at this
        omega
    · simp [Arena.step, deleteClause, clauseLen_not_at h.rep hn] at hs
  | gc =>
    simp only [Arena.step] at hs
    by_cases hb : a.buffer.length < 2 ^ 32
    · obtain ⟨a2, gaps, he, hg, hrep, hmap⟩ := collectGarbage_spec h.rep hb
      have hre := remap_compact gaps 0 0 bs h.rep.wf (by simpa using hmap)
      simp only [hb, if_true, he, bind_ok, h.store, hre, pure_eq, Except.ok.injEq,
        Prod.mk.injEq] at hs
      obtain ⟨rfl, rfl⟩ := hs
      refine ⟨compact bs, ⟨hrep, rfl, ?_⟩, ?_⟩
      · intro b hb
        simp only [compact, List.mem_map, List.mem_filter] at hb
        obtain ⟨c, ⟨hc, _⟩, rfl⟩ := hb
        rw [trim_lits]; exact h.valid c hc
      · rw [hrep.buffer, hg, usedOf_compact bs h.rep.wf]; omega
    · simp [hb, throw_eq] at hs

/-- What holds of C20: if no clause is deleted twice, `utilization()` returns the buffer length and
exactly the number of words of live clauses (buffers shorter than `2^64` words, as for every Rust
vector).  Missing: histories that delete an already deleted clause, where the claim is false
(`C20_false`). -/
theorem C20_utilization_partial (hl : Nat) (shr : List Word → Nat → Nat → List Word)
    (hshr : ShrinkOk hl shr) (os : List Op) (ho : ∀ o ∈ os, o.WellTyped hl)
    (hnd : NoDoubleDelete hl shr (empty, []) os) (a : Arena) (S : Store)
    (hr : run hl shr (empty, []) os = .ok (a, S)) (hlt : a.buffer.length < 2 ^ 64) :
    utilization a = (a.buffer.length, S.used hl) := by
  have key : ∀ (os : List Op) (a0 : Arena) (S0 : Store) (bs0 : List Block), Sim hl a0 S0 bs0 →
      a0.garbage + usedOf hl bs0 = a0.buffer.length → (∀ o ∈ os, o.WellTyped hl) →
      NoDoubleDelete hl shr (a0, S0) os → run hl shr (a0, S0) os = .ok (a, S) →
      ∃ bs, Sim hl a S bs ∧ a.garbage + usedOf hl bs = a.buffer.length := by
    intro os
    induction os with
    | nil =>
      intro a0 S0 bs0 h hacc _ _ hr
      simp only [Arena.run, pure_eq, Except.ok.injEq, Prod.mk.injEq] at hr
      obtain ⟨rfl, rfl⟩ := hr
      exact ⟨bs0, h, hacc⟩
    | cons o os ih =>
      intro a0 S0 bs0 h hacc ho hnd hr
      simp only [Arena.run] at hr
      rw [bind_eq_ok] at hr
      obtain ⟨⟨a1, S1⟩, h1, h2⟩ := hr
      obtain ⟨bs1, hs1, hacc1⟩ := account_step hshr h hacc o (ho o (by simp)) hnd.1 h1
      exact ih a1 S1 bs1 hs1 hacc1 (fun o h => ho o (by simp [h])) (hnd.2 _ h1) h2
  obtain ⟨bs, h, hacc⟩ := key os empty [] [] sim_empty rfl ho hnd hr
  have hu := used_storeOf (hl := hl) 0 bs h.rep.wf
  rw [← h.store] at hu
  simp only [utilization, hu]
  congr 1
  rw [Nat.mod_eq_of_lt (show a.garbage < 2 ^ 64 by omega)]
  omega

/-- C20 is false for the code: deleting a clause twice counts its header and length words twice. -/
theorem C20_false : ∃ (os : List Op) (a : Arena) (S : Store),
    (∀ o ∈ os, o.WellTyped 0) ∧ run 0 (fun h _ _ => h) (empty, []) os = .ok (a, S) ∧
    utilization a ≠ (a.buffer.length, S.used 0) := by
  refine ⟨[.add [] [⟨2#32⟩, ⟨4#32⟩, ⟨6#32⟩], .delete 0, .delete 0],
    ⟨[LEN_MARKER, 3#32, 4#32, 6#32], 5⟩, [⟨0, [], []⟩], ?_, by decide +kernel, by decide +kernel⟩
  intro o ho
  simp only [List.mem_cons, List.not_mem_nil, or_false] at ho
  rcases ho with rfl | rfl | rfl
  · exact ⟨rfl, by simp, by decide⟩
  · trivial
  · trivial

/-! ## The hypotheses are satisfiable -/

/-- The callback of `LongHeader` on header words. -/
def longShrink (h : List Word) (m n : Nat) : List Word :=
  match h with
  | [w0, w1] => let h' := (LongHeader.mk w0 w1).shrinkClause m n; [h'.w0, h'.w1]
  | h => h

theorem longShrink_ok : ShrinkOk 2 longShrink := by
  intro h m n hlen hs
  match h, hlen with
  | [w0, w1], _ =>
    refine ⟨rfl, ?_⟩
    simp only [longShrink, LongHeader.shrinkClause]
    by_cases hc : (LongHeader.mk w0 w1).searchPos ≥ n
    · simp only [hc, if_true, LongHeader.setSearchPos]
      intro w hw
      simp only [List.mem_cons, List.not_mem_nil, or_false] at hw
      rcases hw with rfl | rfl
      · exact hs _ (by simp)
      · decide
    · simp only [hc, if_false]
      exact hs

/-- A history with every kind of call: three clauses, one shrunk, one deleted, then a garbage
collection. -/
def exampleOps : List Op :=
  [.add [1#32, 5#32] [⟨2#32⟩, ⟨4#32⟩, ⟨6#32⟩, ⟨9#32⟩], .add [0#32, 0#32] [⟨1#32⟩, ⟨3#32⟩, ⟨5#32⟩],
   .add [7#32, 1#32] [⟨8#32⟩, ⟨11#32⟩, ⟨13#32⟩], .setLits 0 List.reverse, .shrink 0 3, .delete 7, .gc]

example : run 2 longShrink (empty, []) exampleOps =
    .ok (⟨[1#32, 0#32, lenWord 3, 9#32, 6#32, 4#32, 7#32, 1#32, lenWord 3, 8#32, 11#32, 13#32], 0⟩,
      [⟨0, [1#32, 0#32], [⟨9#32⟩, ⟨6#32⟩, ⟨4#32⟩]⟩, ⟨6, [7#32, 1#32], [⟨8#32⟩, ⟨11#32⟩, ⟨13#32⟩]⟩]) := by
  decide +kernel

example : ∀ o ∈ exampleOps, o.WellTyped 2 := by
  intro o ho
  simp only [exampleOps, List.mem_cons, List.not_mem_nil, or_false] at ho
  rcases ho with rfl | rfl | rfl | rfl | rfl | rfl | rfl
  · exact ⟨rfl, by simp, by decide⟩
  · exact ⟨rfl, by simp, by decide⟩
  · exact ⟨rfl, by simp, by decide⟩
  · intro ls; simp
  all_goals trivial

end Starlit.Arena
