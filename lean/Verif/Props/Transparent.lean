import Verif.TransparentMacro

/-!
# C79: `#[derive(Transparent)]` fulfils the contract of the unsafe trait
-/

namespace Starlit.Transparent

theorem checkRepr_spec : ∀ (as : List Repr) (acc : Bool), checkRepr acc as =
    if Repr.other ∈ as then .error .repr else .ok (acc || !as.isEmpty)
  | [], acc => by simp [checkRepr]
  | .other :: as, acc => by simp [checkRepr]
  | .c :: as, acc => by simp [checkRepr, checkRepr_spec as]
  | .transparent :: as, acc => by simp [checkRepr, checkRepr_spec as]

theorem checkAttrs_spec : ∀ (as : List (List Repr)) (acc : Bool), checkAttrs acc as =
    if ∃ a ∈ as, Repr.other ∈ a then .error .repr else .ok (acc || as.any fun a => !a.isEmpty)
  | [], acc => by simp [checkAttrs]
  | a :: as, acc => by
    unfold checkAttrs
    rw [checkRepr_spec]
    by_cases h : Repr.other ∈ a
    · simp [h]; rfl
    · rw [if_neg h]
      show checkAttrs _ as = _
      rw [checkAttrs_spec as]
      simp [h, Bool.or_assoc]

/-- C79: the macro accepts exactly structs that have a `repr`, all of whose words are `C` or `transparent`; the storage
is the first field. -/
theorem C79_accepted (d : Decl) (S : RTy) : derive d = .ok S ↔
    d.kind = .struct ∧ (∃ a ∈ d.attrs, a ≠ []) ∧ (∀ a ∈ d.attrs, Repr.other ∉ a) ∧
      S = (d.fields.head?).getD unit := by
  unfold derive
  rw [checkAttrs_spec]
  cases hk : d.kind with
  | enum => simp
  | union => simp
  | struct =>
    by_cases h : ∃ a ∈ d.attrs, Repr.other ∈ a
    · rw [if_pos h]
      constructor
      · intro e; cases e
      · rintro ⟨_, _, h2, _⟩
        obtain ⟨a, h3, h4⟩ := h
        exact absurd h4 (h2 a h3)
    · rw [if_neg h]
      have h' : ∀ a ∈ d.attrs, Repr.other ∉ a := fun a ha hb => h ⟨a, ha, hb⟩
      show (if (false || _) = true then _ else _) = _ ↔ _
      rw [Bool.false_or]
      by_cases h2 : (d.attrs.any fun a => !a.isEmpty) = true
      · rw [if_pos h2]
        have h3 : ∃ a ∈ d.attrs, a ≠ [] := by simpa [List.any_eq_true] using h2
        cases hf : d.fields with
        | nil =>
          constructor
          · intro e; cases e; exact ⟨rfl, h3, h', rfl⟩
          · rintro ⟨_, _, _, rfl⟩; rfl
        | cons f fs =>
          constructor
          · intro e; cases e; exact ⟨rfl, h3, h', rfl⟩
          · rintro ⟨_, _, _, rfl⟩; rfl
      · rw [if_neg h2]
        constructor
        · intro e; cases e
        · rintro ⟨_, h3, _⟩
          exact absurd (by simpa [List.any_eq_true] using h3) h2

/-! ## Layout -/

theorem roundUp_ge {o a : Nat} (h : 0 < a) : o ≤ roundUp o a := by
  unfold roundUp
  have h1 := Nat.div_add_mod (o + (a - 1)) a
  have h2 := Nat.mod_lt (o + (a - 1)) h
  rw [Nat.mul_comm] at h1
  omega

theorem roundUp_zero {a : Nat} (h : 0 < a) : roundUp 0 a = 0 := by
  unfold roundUp
  rw [Nat.div_eq_of_lt (by omega), Nat.zero_mul]

theorem fieldsEnd_ge : ∀ (fs : List RTy) (o : Nat), o ≤ fieldsEnd o fs
  | [], _ => Nat.le_refl _
  | f :: fs, o => by
    have h1 := fieldsEnd_ge fs (roundUp o (2 ^ f.alignLog) + f.size)
    have h2 := roundUp_ge (o := o) (a := 2 ^ f.alignLog) (Nat.two_pow_pos _)
    unfold fieldsEnd
    omega

/-- If a struct is as large as its first field, all others are empty and behind it. -/
theorem offsets_empty : ∀ (fs : List RTy) (o : Nat), fieldsEnd o fs ≤ o →
    ∀ x ∈ offsets o fs, x.1 = o ∧ x.2.size = 0 ∧ x.2 ∈ fs
  | [], _, _, x, hx => by simp [offsets] at hx
  | f :: fs, o, h, x, hx => by
    unfold fieldsEnd at h
    have h1 := fieldsEnd_ge fs (roundUp o (2 ^ f.alignLog) + f.size)
    have h2 := roundUp_ge (o := o) (a := 2 ^ f.alignLog) (Nat.two_pow_pos _)
    have h3 : roundUp o (2 ^ f.alignLog) = o := by omega
    have h4 : f.size = 0 := by omega
    unfold offsets at hx
    rw [h3, h4] at hx
    rw [h3, h4] at h
    rcases List.mem_cons.1 hx with rfl | hx
    · exact ⟨rfl, h4, by simp⟩
    · obtain ⟨a, b, c⟩ := offsets_empty fs o h x hx
      exact ⟨a, b, by simp [c]⟩

theorem offsets_mem : ∀ (fs : List RTy) (o : Nat), ∀ f ∈ fs, ∃ x ∈ offsets o fs, x.2 = f
  | [], _, f, h => by simp at h
  | g :: fs, o, f, h => by
    unfold offsets
    rcases List.mem_cons.1 h with rfl | h
    · exact ⟨_, List.mem_cons_self, rfl⟩
    · obtain ⟨x, hx, e⟩ := offsets_mem fs _ f h
      exact ⟨x, List.mem_cons_of_mem _ hx, e⟩

theorem slice_all {b : Bytes} {n : Nat} (h : b.length = n) : slice b 0 n = b := by
  unfold slice
  rw [List.drop_zero, List.take_of_length_le (by omega)]

theorem slice_empty (b : Bytes) (o : Nat) : slice b o 0 = [] := by simp [slice]

theorem maxAlign_cons (f : RTy) (fs : List RTy) : maxAlign (f :: fs) = max f.alignLog (maxAlign fs) := rfl

/-- The valid values of a struct that is as large as its first field. -/
theorem structC_valid {f : RTy} {fs : List RTy} (h : (structC (f :: fs)).size = f.size) (b : Bytes) :
    (structC (f :: fs)).valid b ↔ f.valid b ∧ ∀ g ∈ fs, g.valid [] := by
  have hz := roundUp_zero (a := 2 ^ f.alignLog) (Nat.two_pow_pos _)
  have h1 : roundUp (fieldsEnd 0 (f :: fs)) (2 ^ maxAlign (f :: fs)) = f.size := h
  have h2 := roundUp_ge (o := fieldsEnd 0 (f :: fs)) (a := 2 ^ maxAlign (f :: fs)) (Nat.two_pow_pos _)
  have h3 : fieldsEnd f.size fs ≤ f.size := by
    have : fieldsEnd 0 (f :: fs) = fieldsEnd f.size fs := by
      rw [fieldsEnd, hz, Nat.zero_add]
    omega
  have ho : offsets 0 (f :: fs) = (0, f) :: offsets f.size fs := by
    rw [offsets, hz, Nat.zero_add]
  constructor
  · rintro ⟨hl, hv⟩
    rw [h1] at hl
    rw [ho] at hv
    constructor
    · have := hv (0, f) List.mem_cons_self
      rwa [slice_all hl] at this
    · intro g hg
      obtain ⟨x, hx, rfl⟩ := offsets_mem fs f.size g hg
      have := hv x (List.mem_cons_of_mem _ hx)
      rwa [(offsets_empty fs _ h3 x hx).2.1, slice_empty] at this
  · rintro ⟨hf, hg⟩
    have hl := f.length b hf
    refine ⟨by rw [h1]; exact hl, ?_⟩
    rw [ho]
    intro x hx
    rcases List.mem_cons.1 hx with rfl | hx
    · rw [slice_all hl]; exact hf
    · obtain ⟨_, hs, hm⟩ := offsets_empty fs _ h3 x hx
      rw [hs, slice_empty]
      exact hg _ hm

/-! ## The contract -/

/-- The contract of the unsafe trait `Transparent`, as the conversions of values, references and slices need it: a value
of `T` is a value of `S`, in the same bytes at the same address. -/
structure Contract (T S : RTy) : Prop where
  size : T.size = S.size
  align : S.alignLog ≤ T.alignLog
  valid : ∀ b, T.valid b → S.valid b

/-- C79: whatever struct the macro accepts, if the compiler accepts the generated code, then the contract holds. -/
theorem C79_contract {d : Decl} {S : RTy} (h : derive d = .ok S) (hc : Compiles d S) : Contract d.ty S := by
  obtain ⟨_, _, _, rfl⟩ := (C79_accepted d S).1 h
  unfold Compiles Decl.ty at *
  cases hf : d.fields with
  | nil =>
    refine ⟨by rw [hf] at hc; exact hc, Nat.zero_le _, fun b hb => ?_⟩
    have := (structC []).length b hb
    rw [show (structC []).size = 0 from roundUp_zero (Nat.two_pow_pos _)] at this
    exact List.eq_nil_of_length_eq_zero this
  | cons f fs =>
    rw [hf] at hc
    refine ⟨hc, ?_, fun b hb => ((structC_valid hc b).1 hb).1⟩
    show f.alignLog ≤ maxAlign (f :: fs)
    rw [maxAlign_cons]
    exact Nat.le_max_left _ _

/-- C79: with the contract, all conversions to the storage are sound: of values and references, of slices, and of arrays
of every length (`/repo/starlit/src/util/transparent.rs:30-52`, `75-117`). -/
theorem C79_into {T S : RTy} (h : Contract T S) :
    (∀ mem a, RefOk mem T a → RefOk mem S a) ∧
    (∀ mem a n, SliceOk mem T a n → SliceOk mem S a n) ∧
    (∀ n, Contract (arr T n) (arr S n)) := by
  have hd : ∀ a, 2 ^ T.alignLog ∣ a → 2 ^ S.alignLog ∣ a := fun a ha =>
    (Nat.pow_dvd_pow 2 h.align).trans ha
  refine ⟨fun mem a hr => ⟨hd a hr.1, ?_⟩, fun mem a n hr => ⟨hd a hr.1, fun i hi => ?_⟩, fun n => ⟨?_, h.align, ?_⟩⟩
  · rw [← h.size]; exact h.valid _ hr.2
  · rw [← h.size]; exact h.valid _ (hr.2 i hi)
  · show n * _ = n * _
    rw [h.size]
  · rintro b ⟨h1, h2⟩
    refine ⟨by rw [← h.size]; exact h1, fun i hi => ?_⟩
    rw [← h.size]
    exact h.valid _ (h2 i hi)

/-- C79: the way back.  The bytes of a storage are a value of the struct if and only if the fields behind the first, which
are all empty, have a value; a reference to the storage is one to the struct if and only if, moreover, the address is
a multiple of the alignment of these fields.  So what remains to be ensured by callers of the unsafe functions is this and
the invariants of the struct that are not visible in its type. -/
theorem C79_back {d : Decl} {S : RTy} {fs : List RTy} (hf : d.fields = S :: fs) (hc : Compiles d S) :
    (∀ b, d.ty.valid b ↔ S.valid b ∧ ∀ g ∈ fs, g.valid []) ∧
    (∀ g ∈ fs, g.size = 0) ∧
    (∀ mem a, RefOk mem d.ty a ↔ RefOk mem S a ∧ ∀ g ∈ fs, g.valid [] ∧ 2 ^ g.alignLog ∣ a) := by
  unfold Compiles Decl.ty at *
  rw [hf] at hc ⊢
  have hv := structC_valid hc
  have hdvd : ∀ (l : List RTy) (a : Nat), 2 ^ maxAlign l ∣ a ↔ ∀ g ∈ l, 2 ^ g.alignLog ∣ a := by
    intro l a
    induction l with
    | nil => simp [maxAlign]
    | cons g l ih =>
      rw [maxAlign_cons, List.forall_mem_cons, ← ih]
      rcases Nat.le_total g.alignLog (maxAlign l) with h | h
      · rw [Nat.max_eq_right h]
        exact ⟨fun x => ⟨(Nat.pow_dvd_pow 2 h).trans x, x⟩, fun x => x.2⟩
      · rw [Nat.max_eq_left h]
        exact ⟨fun x => ⟨x, (Nat.pow_dvd_pow 2 h).trans x⟩, fun x => x.1⟩
  refine ⟨hv, fun g hg => ?_, fun mem a => ?_⟩
  · have h2 := roundUp_ge (o := fieldsEnd 0 (S :: fs)) (a := 2 ^ maxAlign (S :: fs)) (Nat.two_pow_pos _)
    have h1 : roundUp (fieldsEnd 0 (S :: fs)) (2 ^ maxAlign (S :: fs)) = S.size := hc
    have h3 : fieldsEnd S.size fs ≤ S.size := by
      have : fieldsEnd 0 (S :: fs) = fieldsEnd S.size fs := by
        rw [fieldsEnd, roundUp_zero (Nat.two_pow_pos _), Nat.zero_add]
      omega
    obtain ⟨x, hx, rfl⟩ := offsets_mem fs S.size g hg
    exact (offsets_empty fs _ h3 x hx).2.1
  · unfold RefOk
    rw [hv, hc, show (structC (S :: fs)).alignLog = maxAlign (S :: fs) from rfl, hdvd, List.forall_mem_cons]
    constructor
    · rintro ⟨⟨a1, a2⟩, a3, a4⟩
      exact ⟨⟨a1, a3⟩, fun g hg => ⟨a4 g hg, a2 g hg⟩⟩
    · rintro ⟨⟨a1, a2⟩, a3⟩
      exact ⟨⟨a1, fun g hg => (a3 g hg).2⟩, a2, fun g hg => (a3 g hg).1⟩

/-- C79: for a struct with one field, and for arrays of them, nothing remains: struct and storage have the same values
and the same references.  All structs of the crate are of this kind (`C79_crate`). -/
theorem C79_single {d : Decl} {S : RTy} (hf : d.fields = [S]) (hc : Compiles d S) :
    Contract d.ty S ∧ Contract S d.ty := by
  have hb := (C79_back hf hc).1
  have ha : d.ty.alignLog = S.alignLog := by
    unfold Decl.ty
    rw [hf]
    show maxAlign [S] = _
    rw [maxAlign_cons]
    exact Nat.max_eq_left (Nat.zero_le _)
  exact ⟨⟨hc, Nat.le_of_eq ha.symm, fun b h => ((hb b).1 h).1⟩,
    ⟨hc.symm, Nat.le_of_eq ha, fun b h => (hb b).2 ⟨h, by simp⟩⟩⟩

/-- Both directions, through two structs. -/
theorem Contract.trans {T S R : RTy} (h : Contract T S) (h' : Contract S R) : Contract T R :=
  ⟨h.size.trans h'.size, h'.align.trans h.align, fun b hb => h'.valid b (h.valid b hb)⟩

theorem headerWord_single : Contract headerWord.ty litIdx ∧ Contract litIdx headerWord.ty :=
  C79_single rfl (by decide)

/-- C79: the headers and literals in the clause arena.  The macro accepts the declarations of the crate; a `LongHeader` is
two words of the buffer, an `EmptyClauseHeader` none, and a literal one, at the alignment of the buffer, in both
directions, also for slices. -/
theorem C79_crate :
    derive headerWord = .ok litIdx ∧ derive longHeader = .ok (arr headerWord.ty 2) ∧
    derive emptyClauseHeader = .ok (arr headerWord.ty 0) ∧
    (∀ mem a, RefOk mem longHeader.ty a ↔ RefOk mem (arr litIdx 2) a) ∧
    (∀ mem a, RefOk mem emptyClauseHeader.ty a ↔ RefOk mem (arr litIdx 0) a) ∧
    (∀ mem a n, SliceOk mem headerWord.ty a n ↔ SliceOk mem litIdx a n) := by
  have hw := headerWord_single
  have h2 := C79_single (d := longHeader) rfl (by decide)
  have h0 := C79_single (d := emptyClauseHeader) rfl (by decide)
  have a1 := (C79_into hw.1).2.2
  have a2 := (C79_into hw.2).2.2
  refine ⟨rfl, rfl, rfl, fun mem a => ⟨(C79_into (h2.1.trans (a1 2))).1 mem a, (C79_into ((a2 2).trans h2.2)).1 mem a⟩,
    fun mem a => ⟨(C79_into (h0.1.trans (a1 0))).1 mem a, (C79_into ((a2 0).trans h0.2)).1 mem a⟩,
    fun mem a n => ⟨(C79_into hw.1).2.1 mem a n, (C79_into hw.2).2.1 mem a n⟩⟩

/-! ## Where it ends -/

/-- `u64`. -/
def u64 : RTy where
  size := 8
  alignLog := 3
  valid b := b.length = 8 ∧ none ∉ b
  length _ h := h.1

/-- `#[repr(C)] struct H([HeaderWord; 2], [u64; 0]);` -/
def aligned : Decl := ⟨.struct, [[.c]], [arr headerWord.ty 2, arr u64 0]⟩

/-- C79, what the macro does not ensure: it accepts a struct with a larger alignment than its storage, and so does the
compiler.  Then `from_storage_unchecked` makes an unaligned reference of a reference to valid bytes, as `header()`, a safe
function, would do for a clause at an odd position in an arena with such headers. -/
theorem C79_align_false : derive aligned = .ok (arr headerWord.ty 2) ∧ Compiles aligned (arr headerWord.ty 2) ∧
    ∃ mem a, RefOk mem (arr litIdx 2) a ∧ RefOk mem (arr headerWord.ty 2) a ∧ ¬ RefOk mem aligned.ty a := by
  have hr : RefOk (fun _ => some 0) (arr litIdx 2) 4 := by
    refine ⟨by decide, by decide, ?_⟩
    intro i hi
    have : i = 0 ∨ i = 1 := by omega
    rcases this with rfl | rfl
    · exact ⟨by decide, by decide⟩
    · exact ⟨by decide, by decide⟩
  refine ⟨rfl, by decide, fun _ => some 0, 4, hr, (C79_into ((C79_into headerWord_single.2).2.2 2)).1 _ _ hr, ?_⟩
  intro h
  exact absurd h.1 (by decide)

/-- C79, the check of the compiler is needed: the macro accepts `#[repr(C)] struct P(u32, u32);` with storage `u32`, for which
the contract fails; `transmute` does not compile. -/
theorem C79_check : derive ⟨.struct, [[.c]], [litIdx, litIdx]⟩ = .ok litIdx ∧
    ¬ Compiles ⟨.struct, [[.c]], [litIdx, litIdx]⟩ litIdx ∧
    ¬ Contract (Decl.ty ⟨.struct, [[.c]], [litIdx, litIdx]⟩) litIdx :=
  ⟨rfl, by decide, fun h => absurd h.size (by decide)⟩

/-- A struct with an empty second field of a smaller alignment: accepted, with eight bytes at a multiple of four; some words are
rejected. -/
theorem C79_example :
    derive ⟨.struct, [[.c], [.transparent]], [arr litIdx 2, unit]⟩ = .ok (arr litIdx 2) ∧
    Compiles ⟨.struct, [[.c], [.transparent]], [arr litIdx 2, unit]⟩ (arr litIdx 2) ∧
    (Decl.ty ⟨.struct, [[.c], [.transparent]], [arr litIdx 2, unit]⟩).valid (List.replicate 8 (some 1)) ∧
    ¬ (Decl.ty ⟨.struct, [[.c], [.transparent]], [arr litIdx 2, unit]⟩).valid (List.replicate 8 none) ∧
    (∀ S, derive ⟨.struct, [[.c], [.other]], [litIdx]⟩ ≠ .ok S) ∧
    (∀ S, derive ⟨.struct, [[]], [litIdx]⟩ ≠ .ok S) := by
  have hc : Compiles ⟨.struct, [[.c], [.transparent]], [arr litIdx 2, unit]⟩ (arr litIdx 2) := by decide
  have hv := (C79_back (d := ⟨.struct, [[.c], [.transparent]], [arr litIdx 2, unit]⟩) rfl hc).1
  refine ⟨rfl, hc, (hv _).2 ⟨⟨by decide, ?_⟩, ?_⟩, ?_, ?_, ?_⟩
  · intro i hi
    have : i = 0 ∨ i = 1 := by omega
    rcases this with rfl | rfl
    · exact ⟨by decide, by decide⟩
    · exact ⟨by decide, by decide⟩
  · intro g hg
    rw [List.mem_singleton] at hg
    subst hg; rfl
  · intro h
    have := (((hv _).1 h).1.2 0 (by decide)).2
    exact this (by decide)
  · intro S e; cases e
  · intro S e; cases e

end Starlit.Transparent
