import Verif.Solver.Solve

/-!
# Stored clauses, as seen through the data structures

The statements about propagation, conflict analysis, reduction and garbage collection refer to the
clauses that can be read from the arena, the binary clause lists and the trail.
-/

namespace Starlit

/-- References of long clauses after `it`, in the order of `next_clause`. -/
def Long.refsFrom (a : Arena) : Nat → Option Nat → M (List Nat)
  | 0, _ => throw .fuel
  | fuel + 1, it => do
    match ← Long.next a it with
    | none => pure []
    | some c => do
      let rs ← Long.refsFrom a fuel (some c)
      pure (c :: rs)

/-- References of all long clauses, found by calling `next_clause` until it returns `None`. -/
def Long.refs (a : Arena) : M (List Nat) := Long.refsFrom a (a.buffer.length + 1) none

/-- Iteration finds the long clause `r`, with this header and these literals. -/
structure StoredAt (p : PropState) (r : Nat) (h : LongHeader) (ls : List Lit) : Prop where
  mem : ∃ rs, Long.refs p.long = .ok rs ∧ r ∈ rs
  header : Long.header p.long r = .ok h
  lits : Long.lits p.long r = .ok ls

/-- The clauses stored in a propagation state.  Unit clauses are stored on the trail. -/
inductive Stored (p : PropState) : Multiset Lit → Prop
  | unit {s : Step} : s ∈ p.trail.steps → s.reason = .unit → Stored p {s.lit}
  | binary {a b : Lit} {bs : List Lit} : p.binary[a.code]? = some bs → b ∈ bs → Stored p (a ::ₘ {b})
  | long {r : Nat} {h : LongHeader} {ls : List Lit} : StoredAt p r h ls → Stored p (ls : Multiset Lit)

/-- Reverse unit propagation from stored clauses. -/
def StoredRUP (p : PropState) (C : Multiset Lit) : Prop := ∃ D : DB, (∀ c ∈ D, Stored p c) ∧ RUP D C

/-- The propagation states inside of `search_step` (`/repo/starlit/src/search.rs:46-52`): garbage was
collected in the reachable state `s`, giving `p1`, and propagation led to `p` and the result `r`. -/
structure Solver.Propagating (env : Env) (F : List (List Lit)) (s : Solver) (p1 : PropState) (ctx : Ctx)
    (p : PropState) (r : Option ConflictClause) : Prop where
  reach : Solver.Reachable env F s
  unsat : s.search.prop.unsat = false
  gc : collectGarbage s.search.prop = .ok p1
  prop : propagate s.ctx p1 = .ok (ctx, p, r)

/-! ## Connection with the invariant -/

theorem Long.refsFrom_spec {a : Arena} {S : List LC} (h : LRep a S) : ∀ (fuel : Nat)
    {pre post : List LC} {it : Option Nat}, S = pre ++ post →
    Long.next a it = .ok (LRep.firstRef post) → post.length < fuel →
    Long.refsFrom a fuel it = .ok ((post.filter LC.live).map LC.ref) := by
  intro fuel
  induction fuel with
  | zero => intros; omega
  | succ fuel ih =>
    intro pre post it hS hn hf
    unfold Long.refsFrom
    rw [hn, bind_ok]
    cases hr : LRep.firstRef post with
    | none =>
      have : post.filter LC.live = [] := by
        rw [List.filter_eq_nil_iff]
        intro x hx; simp [firstRef_none hr x hx]
      rw [this]; rfl
    | some r =>
      obtain ⟨d, e, rest, rfl, hd, hl, rfl⟩ := firstRef_split hr
      have hd' : d.filter LC.live = [] := by
        rw [List.filter_eq_nil_iff]
        intro x hx; simp [hd x hx]
      have hS' : S = (pre ++ d) ++ e :: rest := by rw [hS]; simp
      have hx := ih (pre := pre ++ d ++ [e]) (post := rest) (it := some e.ref) (by rw [hS']; simp)
        (h.next_some hS') (by simp at hf; omega)
      simp only [hx, bind_ok, List.filter_append, hd', List.nil_append, List.filter_cons, hl, if_true,
        List.map_cons, pure_eq]

theorem LRep.refs {a : Arena} {S : List LC} (h : LRep a S) :
    Long.refs a = .ok ((S.filter LC.live).map LC.ref) :=
  Long.refsFrom_spec h _ (pre := []) rfl h.next_none (by have := h.length_le_buffer; omega)

section
variable {n : Nat} {S : List LC} {p : PropState}

theorem LRep.storedAt_iff (h : LRep p.long S) {r : Nat} {hd : LongHeader} {ls : List Lit} :
    StoredAt p r hd ls ↔ ∃ e ∈ S, e.live = true ∧ e.ref = r ∧ e.hdr = hd ∧ e.lits = ls := by
  constructor
  · rintro ⟨⟨rs, h1, h2⟩, h3, h4⟩
    rw [h.refs] at h1
    cases h1
    obtain ⟨e, he, rfl⟩ := List.mem_map.1 h2
    obtain ⟨he, hl⟩ := List.mem_filter.1 he
    rw [h.header_ok he] at h3
    rw [h.lits_ok he] at h4
    cases h3; cases h4
    exact ⟨e, he, hl, rfl, rfl, rfl⟩
  · rintro ⟨e, he, hl, rfl, rfl, rfl⟩
    exact ⟨⟨_, h.refs, List.mem_map.2 ⟨e, List.mem_filter.2 ⟨he, hl⟩, rfl⟩⟩, h.header_ok he,
      h.lits_ok he⟩

/-- The literal with this code. -/
def litOfCode (i : Nat) : Lit := ⟨BitVec.ofNat 32 i⟩

theorem litOfCode_code {i : Nat} (h : i < 2 ^ 32) : (litOfCode i).code = i := by
  simp only [litOfCode, Lit.code, BitVec.toNat_ofNat]
  exact Nat.mod_eq_of_lt h

/-- The binary clauses. -/
def binDB (B : List (List Lit)) : DB :=
  Multiset.ofList ((List.range B.length).flatMap fun i =>
    (B[i]?.getD []).map fun b => (litOfCode i ::ₘ {b} : Multiset Lit))

/-- The unit clauses on the trail. -/
def unitDB (steps : List Step) : DB :=
  Multiset.ofList ((steps.filter (fun s => s.reason == .unit)).map fun s => ({s.lit} : Multiset Lit))

theorem mem_binDB {B : List (List Lit)} (hB : B.length ≤ 2 ^ 32) {c : Multiset Lit} :
    c ∈ binDB B ↔ ∃ (a b : Lit) (bs : List Lit), B[a.code]? = some bs ∧ b ∈ bs ∧ c = a ::ₘ {b} := by
  unfold binDB
  rw [Multiset.mem_coe, List.mem_flatMap]
  constructor
  · rintro ⟨i, hi, hc⟩
    obtain ⟨b, hb, rfl⟩ := List.mem_map.1 hc
    have hi := List.mem_range.1 hi
    refine ⟨litOfCode i, b, B[i], ?_, ?_, rfl⟩
    · rw [litOfCode_code (by omega)]; exact List.getElem?_eq_getElem hi
    · simpa [List.getElem?_eq_getElem hi] using hb
  · rintro ⟨a, b, bs, h1, h2, rfl⟩
    have hi := (List.getElem?_eq_some_iff.1 h1).1
    refine ⟨a.code, List.mem_range.2 hi, List.mem_map.2 ⟨b, by rw [h1]; exact h2, ?_⟩⟩
    have : litOfCode a.code = a := Lit.ext_code (litOfCode_code (by omega))
    rw [this]

theorem mem_unitDB {steps : List Step} {c : Multiset Lit} :
    c ∈ unitDB steps ↔ ∃ s ∈ steps, s.reason = .unit ∧ c = {s.lit} := by
  unfold unitDB
  rw [Multiset.mem_coe, List.mem_map]
  constructor
  · rintro ⟨s, hs, rfl⟩
    obtain ⟨h1, h2⟩ := List.mem_filter.1 hs
    exact ⟨s, h1, by simpa using h2, rfl⟩
  · rintro ⟨s, h1, h2, rfl⟩
    exact ⟨s, List.mem_filter.2 ⟨h1, by simp [h2]⟩, rfl⟩

/-- The stored clauses that are not learned long clauses. -/
def storedBase (S : List LC) (p : PropState) : DB := liveIrr S + binDB p.binary + unitDB p.trail.steps

theorem card_of_live (h : LongOK n S) {c : Multiset Lit} (hc : c ∈ liveIrr S ∨ c ∈ liveRed S) :
    3 ≤ c.card ∧ ∃ e ∈ S, e.live = true ∧ e.cl = c := by
  have : ∃ e ∈ S, e.live = true ∧ e.cl = c := by
    rcases hc with hc | hc
    · unfold liveIrr at hc
      rw [Multiset.mem_coe, List.mem_map] at hc
      obtain ⟨e, he, rfl⟩ := hc
      obtain ⟨he, hp⟩ := List.mem_filter.1 he
      simp at hp
      exact ⟨e, he, hp.1, rfl⟩
    · unfold liveRed at hc
      rw [Multiset.mem_coe, List.mem_map] at hc
      obtain ⟨e, he, rfl⟩ := hc
      obtain ⟨he, hp⟩ := List.mem_filter.1 he
      simp at hp
      exact ⟨e, he, hp.1, rfl⟩
  obtain ⟨e, he, hl, rfl⟩ := this
  refine ⟨?_, e, he, hl, rfl⟩
  have := (h.len e he hl).1
  simpa [LC.cl] using this

theorem PInv.bin_len (h : PInv n S p) : p.binary.length ≤ 2 ^ 32 := by
  have h1 := h.sized.bin
  have h2 := h.sized.n_le
  rw [MAX_INDEX_eq] at h2
  omega

/-- The stored clauses can play the role of the formula and the learned clauses. -/
theorem PInv.storedInv (h : PInv n S p) :
    DBInv (storedBase S p) (liveRed S) S p.binary p.trail.steps p.unsat := by
  have hlen := h.bin_len
  have hred : ∀ c ∈ liveRed S, 3 ≤ c.card := fun c hc => (card_of_live h.long (.inr hc)).1
  have hirr : ∀ c ∈ liveIrr S, 3 ≤ c.card := fun c hc => (card_of_live h.long (.inl hc)).1
  have hb2 : ∀ c ∈ binDB p.binary, c.card = 2 := by
    intro c hc
    obtain ⟨a, b, bs, _, _, rfl⟩ := (mem_binDB hlen).1 hc
    simp
  have hu1 : ∀ c ∈ unitDB p.trail.steps, c.card = 1 := by
    intro c hc
    obtain ⟨s, _, _, rfl⟩ := mem_unitDB.1 hc
    simp
  refine ⟨?_, ?_, ?_, ?_, ?_, ?_, ?_⟩
  · exact (Multiset.filter_eq_self.2 hred).symm
  · unfold storedBase
    rw [Multiset.filter_add, Multiset.filter_add, Multiset.filter_eq_self.2 hirr,
      Multiset.filter_eq_nil.2 (fun c hc => by rw [hb2 c hc]; omega),
      Multiset.filter_eq_nil.2 (fun c hc => by rw [hu1 c hc]; omega)]
    simp
  · intro a b bs h1 h2
    unfold storedBase
    simp only [Multiset.mem_add]
    exact .inl (.inl (.inr ((mem_binDB hlen).2 ⟨a, b, bs, h1, h2, rfl⟩)))
  · intro a b hc
    unfold storedBase at hc
    simp only [Multiset.mem_add] at hc
    rcases hc with (hc | hc) | hc
    · have := hirr _ hc; simp at this
    · obtain ⟨a', b', bs, h1, h2, e⟩ := (mem_binDB hlen).1 hc
      have e' : (a = a' ∧ b = b') ∨ (a = b' ∧ b = a') := by
        rw [Multiset.cons_eq_cons] at e
        rcases e with ⟨rfl, e⟩ | ⟨_, C, e1, e2⟩
        · left; simpa using e
        · right
          have h3 : b = a' ∧ C = 0 := by
            have := e1.symm
            rw [← Multiset.cons_zero, Multiset.cons_eq_cons] at this
            rcases this with ⟨e, e'⟩ | ⟨_, D, _, e⟩
            · exact ⟨e.symm, e'⟩
            · exact absurd e.symm (Multiset.cons_ne_zero)
          obtain ⟨rfl, rfl⟩ := h3
          exact ⟨(Multiset.singleton_inj.1 e2).symm, rfl⟩
      rcases e' with ⟨rfl, rfl⟩ | ⟨rfl, rfl⟩
      · exact ⟨bs, h1, h2⟩
      · have hlt : a.code < p.binary.length := by
          rw [h.sized.bin]; exact Lit.code_lt_of_index_lt (h.bs.idx _ _ h1 _ h2)
        refine ⟨_, List.getElem?_eq_getElem hlt, ?_⟩
        have := h.bs.symm b a _ bs h1 (List.getElem?_eq_getElem hlt)
        have hpos : 0 < bs.count a := List.count_pos_iff.2 h2
        rw [this] at hpos
        exact List.count_pos_iff.1 hpos
    · have := hu1 _ hc; simp at this
  · intro s hs hr
    unfold storedBase
    simp only [Multiset.mem_add]
    exact .inl (.inr (mem_unitDB.2 ⟨s, hs, hr, rfl⟩))
  · intro a hc
    unfold storedBase at hc
    simp only [Multiset.mem_add] at hc
    rcases hc with (hc | hc) | hc
    · have := hirr _ hc; simp at this
    · have := hb2 _ hc; simp at this
    · obtain ⟨s, h1, h2, e⟩ := mem_unitDB.1 hc
      right
      obtain ⟨i, hi⟩ := List.mem_iff_getElem?.1 h1
      have := h.reasons i s hi
      unfold ReasonOK at this
      rw [h2] at this
      exact ⟨s, h1, (Multiset.singleton_inj.1 e).symm, this⟩
  · intro hc
    unfold storedBase at hc
    simp only [Multiset.mem_add] at hc
    rcases hc with (hc | hc) | hc
    · have := hirr _ hc; simp at this
    · have := hb2 _ hc; simp at this
    · have := hu1 _ hc; simp at this

/-- Members of that database are stored. -/
theorem PInv.stored_of_mem (h : PInv n S p) {c : Multiset Lit} (hc : c ∈ storedBase S p + liveRed S) :
    Stored p c := by
  unfold storedBase at hc
  simp only [Multiset.mem_add] at hc
  have long : c ∈ liveIrr S ∨ c ∈ liveRed S → Stored p c := by
    intro hc
    obtain ⟨_, e, he, hl, rfl⟩ := card_of_live h.long hc
    exact .long (h.rep.storedAt_iff.2 ⟨e, he, hl, rfl, rfl, rfl⟩)
  rcases hc with ((hc | hc) | hc) | hc
  · exact long (.inl hc)
  · obtain ⟨a, b, bs, h1, h2, rfl⟩ := (mem_binDB h.bin_len).1 hc
    exact .binary h1 h2
  · obtain ⟨s, h1, h2, rfl⟩ := mem_unitDB.1 hc
    exact .unit h1 h2
  · exact long (.inr hc)

theorem PInv.storedRUP (h : PInv n S p) {C : Multiset Lit} (hc : RUP (storedBase S p + liveRed S) C) :
    StoredRUP p C := ⟨_, fun _ => h.stored_of_mem, hc⟩

/-- Stored clauses are clauses of the proof. -/
theorem PInv.mem_of_stored {F L : DB} (h : PInv n S p)
    (d : DBInv F L S p.binary p.trail.steps p.unsat) {c : Multiset Lit} (hc : Stored p c) :
    c ∈ F + L := by
  cases hc with
  | unit h1 h2 => exact d.unit _ h1 h2
  | binary h1 h2 => exact d.bin _ _ _ h1 h2
  | long h1 =>
    obtain ⟨e, he, hl, _, _, rfl⟩ := h.rep.storedAt_iff.1 h1
    exact d.mem he hl

end

end Starlit
