import Verif.Solver.MinimizeMain

/-!
# Adding clauses to the propagation state
-/

namespace Starlit

theorem Lit.valid_of_lt {n : Nat} {l : Lit} (hn : n ≤ MAX_INDEX + 1) (hl : l.index < n) :
    l.Valid := Lit.valid_iff_index.2 (by omega)

/-! ## Binary clauses -/

/-- The binary clause lists contain the clause. -/
def HasBin (bin : List (List Lit)) (a b : Lit) : Prop := ∃ bs, bin[a.code]? = some bs ∧ b ∈ bs

theorem getElem?_set_code {α : Type} {l : List α} {a x : Lit} {v : α} (ha : a.code < l.length) :
    (l.set a.code v)[x.code]? = if x = a then some v else l[x.code]? := by
  rw [List.getElem?_set]
  by_cases h : x = a
  · subst h; simp [ha]
  · rw [if_neg (fun e => h (Lit.code_inj.1 e.symm)), if_neg h]

theorem count_ite (x a b y : Lit) :
    List.count y (if x = a then [b] else []) = if x = a ∧ y = b then 1 else 0 := by
  by_cases h : x = a
  · by_cases h' : y = b
    · simp [h, h']
    · have : b ≠ y := fun e => h' e.symm
      simp [h, h', this]
  · simp [h]

theorem binaryAdd_spec {n : Nat} {bin : List (List Lit)} (hlen : bin.length = n * 2)
    (hs : BinStruct n bin) {a b : Lit} (ha : a.index < n) (hb : b.index < n) :
    ∃ bin', binaryAdd bin a b = .ok bin' ∧ bin'.length = n * 2 ∧ BinStruct n bin' ∧
      ∀ x y, HasBin bin' x y ↔ HasBin bin x y ∨ (x = a ∧ y = b) ∨ (x = b ∧ y = a) := by
  have hac : a.code < bin.length := by rw [hlen]; exact Lit.code_lt_of_index_lt ha
  have hbc : b.code < bin.length := by rw [hlen]; exact Lit.code_lt_of_index_lt hb
  have h1 := List.getElem?_eq_getElem hac
  generalize bin[a.code] = la at h1
  have hbc' : b.code < (bin.set a.code (la ++ [b])).length := by simpa using hbc
  have h2 := List.getElem?_eq_getElem hbc'
  generalize (bin.set a.code (la ++ [b]))[b.code] = lb at h2
  have h2' := h2
  rw [getElem?_set_code hac] at h2'
  have get : ∀ x : Lit, ((bin.set a.code (la ++ [b])).set b.code (lb ++ [a]))[x.code]? =
      (bin[x.code]?).map (fun bs => bs ++ (if x = a then [b] else []) ++
        (if x = b then [a] else [])) := by
    intro x
    rw [getElem?_set_code hbc', getElem?_set_code hac]
    by_cases hxb : x = b
    · subst hxb
      by_cases hxa : x = a
      · subst hxa
        rw [if_pos rfl] at h2'
        injection h2' with h2'
        rw [if_pos rfl, if_pos rfl, h1, ← h2']; simp
      · rw [if_neg hxa] at h2'
        rw [if_pos rfl, h2', if_neg hxa]; simp
    · rw [if_neg hxb, if_neg hxb]
      by_cases hxa : x = a
      · subst hxa
        rw [if_pos rfl, h1]; simp
      · rw [if_neg hxa, if_neg hxa]; simp
  refine ⟨(bin.set a.code (la ++ [b])).set b.code (lb ++ [a]), ?_, by simpa using hlen, ⟨?_, ?_⟩, ?_⟩
  · unfold binaryAdd
    rw [idx_ok h1, bind_ok, upd_ok hac, bind_ok, idx_ok h2, bind_ok, upd_ok hbc']
  · intro x bs hx y hy
    rw [get] at hx
    obtain ⟨cs, hc, rfl⟩ := Option.map_eq_some_iff.1 hx
    simp only [List.mem_append] at hy
    rcases hy with (hy | hy) | hy
    · exact hs.idx x cs hc y hy
    · split at hy
      · simp at hy; subst hy; exact hb
      · simp at hy
    · split at hy
      · simp at hy; subst hy; exact ha
      · simp at hy
  · intro x y as bs hx hy
    rw [get] at hx hy
    obtain ⟨cx, hcx, rfl⟩ := Option.map_eq_some_iff.1 hx
    obtain ⟨cy, hcy, rfl⟩ := Option.map_eq_some_iff.1 hy
    have h0 := hs.symm x y _ _ hcx hcy
    simp only [List.count_append, h0, count_ite]
    by_cases x1 : x = a ∧ y = b <;> by_cases x2 : x = b ∧ y = a <;>
      simp only [x1, x2, and_comm, and_self, if_true, if_false] <;> omega
  · intro x y
    constructor
    · rintro ⟨bs, hx, hy⟩
      rw [get] at hx
      obtain ⟨cs, hc, rfl⟩ := Option.map_eq_some_iff.1 hx
      simp only [List.mem_append] at hy
      rcases hy with (hy | hy) | hy
      · exact .inl ⟨cs, hc, hy⟩
      · split at hy
        · rename_i hxa; simp at hy; exact .inr (.inl ⟨hxa, hy⟩)
        · simp at hy
      · split at hy
        · rename_i hxb; simp at hy; exact .inr (.inr ⟨hxb, hy⟩)
        · simp at hy
    · rintro (⟨bs, hx, hy⟩ | ⟨rfl, rfl⟩ | ⟨rfl, rfl⟩)
      · exact ⟨_, by rw [get, hx]; rfl, by simp [hy]⟩
      · exact ⟨_, by rw [get, h1]; rfl, by simp⟩
      · have hb1 := List.getElem?_eq_getElem hbc
        exact ⟨_, by rw [get, hb1]; rfl, by simp⟩

/-! ## Long clauses -/

theorem push_eq {w : Watches} {l : Lit} {x : Watch} {ws : List Watch} (he : w.enabled = true)
    (h : w.byLit[l.code]? = some ws) :
    w.push l x = .ok { w with byLit := w.byLit.set l.code (ws ++ [x]) } := by
  unfold Watches.push
  rw [idx_ok h, bind_ok, upd_ok (List.getElem?_eq_some_iff.1 h).1, bind_ok,
    debugM_ok he, bind_ok]; rfl

/-- Watching a new clause. -/
theorem watchClause_spec {n : Nat} {S : List LC} {w : Watches} (he : w.enabled = true)
    (hlen : w.byLit.length = n * 2) (hs : WatchStruct S w.byLit) (hbk : BlkOK n w.byLit)
    {e : LC} {a b : Lit} {rest : List Lit} (hel : e.lits = a :: b :: rest) (ha : a.index < n)
    (hb : b.index < n) (hne : ∀ x ∈ S, x.ref ≠ e.ref) :
    ∃ w', w.watchClause e.ref a b = .ok w' ∧ w'.enabled = true ∧ w'.byLit.length = n * 2 ∧
      WatchStruct (S ++ [e]) w'.byLit ∧ BlkOK n w'.byLit := by
  have hac : a.code < w.byLit.length := by rw [hlen]; exact Lit.code_lt_of_index_lt ha
  have hbc : b.code < w.byLit.length := by rw [hlen]; exact Lit.code_lt_of_index_lt hb
  have h1 := List.getElem?_eq_getElem hac
  generalize w.byLit[a.code] = la at h1
  have hbc' : b.code < (w.byLit.set a.code (la ++ [⟨e.ref, b⟩])).length := by simpa using hbc
  have h2 := List.getElem?_eq_getElem hbc'
  generalize (w.byLit.set a.code (la ++ [⟨e.ref, b⟩]))[b.code] = lb at h2
  have h2' := h2
  rw [getElem?_set_code hac] at h2'
  have get : ∀ x : Lit, ((w.byLit.set a.code (la ++ [⟨e.ref, b⟩])).set b.code
      (lb ++ [⟨e.ref, a⟩]))[x.code]? =
      (w.byLit[x.code]?).map (fun bs => bs ++ (if x = a then [⟨e.ref, b⟩] else []) ++
        (if x = b then [⟨e.ref, a⟩] else [])) := by
    intro x
    rw [getElem?_set_code hbc', getElem?_set_code hac]
    by_cases hxb : x = b
    · subst hxb
      by_cases hxa : x = a
      · subst hxa
        rw [if_pos rfl] at h2'
        injection h2' with h2'
        rw [if_pos rfl, if_pos rfl, h1, ← h2']; simp
      · rw [if_neg hxa] at h2'
        rw [if_pos rfl, h2', if_neg hxa]; simp
    · rw [if_neg hxb, if_neg hxb]
      by_cases hxa : x = a
      · subst hxa
        rw [if_pos rfl, h1]; simp
      · rw [if_neg hxa, if_neg hxa]; simp
  refine ⟨{ byLit := (w.byLit.set a.code (la ++ [⟨e.ref, b⟩])).set b.code (lb ++ [⟨e.ref, a⟩])
            enabled := true }, ?_, rfl, by simpa using hlen, ⟨?_, ?_⟩, ?_⟩
  · unfold Watches.watchClause
    rw [if_pos he, push_eq he h1, bind_ok]
    have e2 := push_eq (w := ⟨w.byLit.set a.code (la ++ [(⟨e.ref, b⟩ : Watch)]), w.enabled⟩)
      (x := ⟨e.ref, a⟩) he h2
    rw [e2, he]
  · intro l ws hl v hv
    simp only [get] at hl
    obtain ⟨cs, hc, rfl⟩ := Option.map_eq_some_iff.1 hl
    simp only [List.mem_append] at hv
    rcases hv with (hv | hv) | hv
    · obtain ⟨x, hx, h3, h4⟩ := hs.mem l cs hc v hv
      exact ⟨x, by simp [hx], h3, h4⟩
    · split at hv
      · rename_i hla; simp at hv; subst hv; subst hla
        exact ⟨e, by simp, rfl, fun _ => by simp [hel]⟩
      · simp at hv
    · split at hv
      · rename_i hlb; simp at hv; subst hv; subst hlb
        refine ⟨e, by simp, rfl, fun _ => ⟨by simp [hel], mem_erase_of_take ?_⟩⟩
        simpa [hel] using List.Perm.swap _ _ _
      · simp at hv
  · intro l ws hl x hx hlv
    simp only [get] at hl
    obtain ⟨cs, hc, rfl⟩ := Option.map_eq_some_iff.1 hl
    simp only [List.countP_append]
    rcases List.mem_append.1 hx with hx | hx
    · rw [hs.count l cs hc x hx hlv]
      have hxe : e.ref ≠ x.ref := fun h => hne x hx h.symm
      have c1 : List.countP (fun w : Watch => decide (w.clause = x.ref))
          (if l = a then [⟨e.ref, b⟩] else []) = 0 := by split <;> simp [hxe]
      have c2 : List.countP (fun w : Watch => decide (w.clause = x.ref))
          (if l = b then [⟨e.ref, a⟩] else []) = 0 := by split <;> simp [hxe]
      rw [c1, c2]; rfl
    · simp at hx
      subst hx
      have c0 : List.countP (fun w : Watch => decide (w.clause = x.ref)) cs = 0 := by
        rw [List.countP_eq_zero]
        intro v hv
        obtain ⟨y, hy, h3, _⟩ := hs.mem l cs hc v hv
        simp only [decide_eq_true_eq]
        intro h
        exact hne y hy (h3.trans h)
      rw [c0, hel]
      by_cases l1 : l = a <;> by_cases l2 : l = b
      · subst l1; subst l2; simp
      · have l2' : b ≠ l := fun h => l2 h.symm
        subst l1; simp [l2, l2']
      · have l1' : a ≠ l := fun h => l1 h.symm
        subst l2; simp [l1, l1']
      · have l1' : a ≠ l := fun h => l1 h.symm
        have l2' : b ≠ l := fun h => l2 h.symm
        simp [l1, l2, l1', l2']
  · intro ws hws v hv
    simp only at hws
    rcases List.mem_or_eq_of_mem_set hws with hws | rfl
    · rcases List.mem_or_eq_of_mem_set hws with hws | rfl
      · exact hbk ws hws v hv
      · rcases List.mem_append.1 hv with hv | hv
        · exact hbk la (List.mem_iff_getElem?.2 ⟨_, h1⟩) v hv
        · simp at hv; subst hv; exact hb
    · rcases List.mem_append.1 hv with hv | hv
      · by_cases hba : b = a
        · rw [if_pos hba] at h2'
          injection h2' with h2'
          rw [← h2'] at hv
          rcases List.mem_append.1 hv with hv | hv
          · exact hbk la (List.mem_iff_getElem?.2 ⟨_, h1⟩) v hv
          · simp at hv; subst hv; exact hb
        · rw [if_neg hba] at h2'
          exact hbk lb (List.mem_iff_getElem?.2 ⟨_, h2'⟩) v hv
      · simp at hv; subst hv; exact ha

theorem ReasonInv.mono {bin bin' : List (List Lit)} {S S' : List LC} {t : Trail}
    (h : ReasonInv bin S t) (hb : ∀ x y, HasBin bin x y → HasBin bin' x y)
    (hS : ∀ e ∈ S, e ∈ S') : ReasonInv bin' S' t := by
  intro i s hs
  have := h i s hs
  unfold ReasonOK at *
  cases hx : s.reason with
  | decision => rw [hx] at this; exact this
  | unit => rw [hx] at this; exact this
  | binary o => rw [hx] at this; exact ⟨hb _ _ this.1, this.2⟩
  | long c =>
    rw [hx] at this
    obtain ⟨e, he, h1⟩ := this
    exact ⟨e, hS e he, h1⟩

/-- Storing and watching a long clause. -/
theorem addLong_spec {n : Nat} {S : List LC} {p : PropState} (h : PInv n S p) {hd : LongHeader}
    (hh : hd.WF) (hsp : hd.searchPos = 0) {a b c : Lit} {rest : List Lit}
    (hl : ∀ l ∈ a :: b :: c :: rest, l.index < n) :
    Long.add p.long hd (a :: b :: c :: rest) = .ok none ∨
    ∃ long' r w', Long.add p.long hd (a :: b :: c :: rest) = .ok (some (long', r)) ∧
      p.watches.watchClause r a b = .ok w' ∧ w'.enabled = true ∧ w'.byLit.length = n * 2 ∧
      LRep long' (S ++ [⟨r, hd, a :: b :: c :: rest⟩]) ∧
      WatchStruct (S ++ [⟨r, hd, a :: b :: c :: rest⟩]) w'.byLit ∧ BlkOK n w'.byLit ∧
      LongOK n (S ++ [⟨r, hd, a :: b :: c :: rest⟩]) := by
  rcases h.rep.add_ok hh (ls := a :: b :: c :: rest) (by simp)
    (fun l hx => Lit.valid_of_lt h.sized.n_le (hl l hx)) with e | ⟨long', r, e, hrep⟩
  · exact .inl e
  right
  have hne : ∀ x ∈ S, x.ref ≠ (⟨r, hd, a :: b :: c :: rest⟩ : LC).ref := by
    intro x hx e
    have := hrep.nodup
    rw [List.map_append, List.nodup_append] at this
    exact this.2.2 x.ref (List.mem_map_of_mem hx) r (by simp) e
  obtain ⟨w', e2, h2, h3, h4, h5⟩ := watchClause_spec h.enabled h.sized.wat h.ws h.blk
    (e := ⟨r, hd, a :: b :: c :: rest⟩) rfl (hl a (by simp)) (hl b (by simp)) hne
  refine ⟨long', r, w', e, e2, h2, h3, hrep, h4, h5, ⟨?_, ?_⟩⟩
  · intro x hx hlv
    rcases List.mem_append.1 hx with hx | hx
    · exact h.long.len x hx hlv
    · simp at hx; subst hx; simp [hsp]
  · intro x hx
    rcases List.mem_append.1 hx with hx | hx
    · exact h.long.idx x hx
    · simp at hx; subst hx; exact hl

theorem liveRed_append (S : List LC) (e : LC) (hl : e.live = true) :
    liveRed (S ++ [e]) = if e.hdr.redundant then e.cl ::ₘ liveRed S else liveRed S := by
  unfold liveRed
  rw [List.filter_append, List.map_append]
  by_cases h : e.hdr.redundant = true
  · simp only [List.filter_cons, hl, h, Bool.and_self, if_true, List.filter_nil, List.map_cons,
      List.map_nil]
    exact Multiset.coe_eq_coe.2 List.perm_append_comm
  · simp [h]

theorem liveIrr_append (S : List LC) (e : LC) (hl : e.live = true) :
    liveIrr (S ++ [e]) = if e.hdr.redundant then liveIrr S else e.cl ::ₘ liveIrr S := by
  unfold liveIrr
  rw [List.filter_append, List.map_append]
  by_cases h : e.hdr.redundant = true
  · simp [h]
  · simp only [List.filter_cons, hl, h, if_true, List.filter_nil, List.map_cons,
      List.map_nil, Bool.not_false, Bool.and_self]
    exact Multiset.coe_eq_coe.2 List.perm_append_comm

end Starlit
