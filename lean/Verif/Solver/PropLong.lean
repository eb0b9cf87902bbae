import Verif.Solver.PropLemmas

/-!
# Propagation over long clauses
-/

namespace Starlit

/-! ## The search for a replacement -/

theorem searchLit_spec {n : Nat} {values : PartialAssignment} {ls : List Lit} {L : Nat}
    (hv : values.assigned.length = n) (hls : ∀ l ∈ ls, l.index < n) (hlen : ls.length = 2 + L)
    (k pos : Nat) (hp : pos < L) :
    Wp (searchLit values ls L k pos) (fun r => match r with
      | .isTrue l q => ls[2 + q]? = some l ∧ values.val l = some true ∧ q < L
      | .unassigned l q => ls[2 + q]? = some l ∧ values.val l = none ∧ q < L
      | .none q => q < L ∧ ∀ j < k, ∃ l, ls[2 + (pos + j) % L]? = some l ∧
          values.val l = some false) := by
  induction k generalizing pos with
  | zero => simp only [searchLit, wp_pure]; exact ⟨hp, by simp⟩
  | succ k ih =>
    have hlt : 2 + pos < ls.length := by omega
    have hg := List.getElem?_eq_getElem hlt
    generalize ls[2 + pos] = l at hg
    have hl : l.index < n := hls l (List.mem_iff_getElem?.2 ⟨_, hg⟩)
    simp only [searchLit, idx_ok hg, bind_ok,
      PartialAssignment.isFalse_eq (pa := values) (l := l) (by omega),
      PartialAssignment.isTrue_eq (pa := values) (l := l) (by omega)]
    by_cases h1 : values.val l = some false
    · simp only [h1, beq_self_eq_true, if_true]
      have hp' : (if pos + 1 = L then 0 else pos + 1) < L := by split <;> omega
      refine (ih _ hp').mono ?_
      intro r hr
      cases r with
      | isTrue l q => exact hr
      | unassigned l q => exact hr
      | none q =>
        refine ⟨hr.1, ?_⟩
        intro j hj
        cases j with
        | zero => rw [Nat.add_zero, Nat.mod_eq_of_lt hp]; exact ⟨l, hg, h1⟩
        | succ j =>
          obtain ⟨x, hx, hx'⟩ := hr.2 j (by omega)
          refine ⟨x, ?_, hx'⟩
          rw [← hx]
          congr 2
          by_cases he : pos + 1 = L
          · rw [if_pos he, Nat.zero_add, show pos + (j + 1) = j + L by omega, Nat.add_mod_right]
          · rw [if_neg he]; congr 1; omega
    · have e1 : (values.val l == some false) = false := by simpa using h1
      simp only [e1, Bool.false_eq_true, if_false]
      by_cases h2 : values.val l = some true
      · simp only [h2, beq_self_eq_true, if_true, wp_pure]
        exact ⟨hg, by trivial, hp⟩
      · have e2 : (values.val l == some true) = false := by simpa using h2
        simp only [e2, Bool.false_eq_true, if_false, wp_pure]
        refine ⟨hg, ?_, hp⟩
        cases hv : values.val l with
        | none => rfl
        | some v => cases v <;> simp_all

/-- All positions are visited. -/
theorem cyc_cover {L pos q : Nat} (hp : pos < L) (hq : q < L) : ∃ j < L, (pos + j) % L = q := by
  by_cases h : pos ≤ q
  · exact ⟨q - pos, by omega, by rw [show pos + (q - pos) = q by omega]; exact Nat.mod_eq_of_lt hq⟩
  · refine ⟨q + L - pos, by omega, ?_⟩
    rw [show pos + (q + L - pos) = q + L by omega, Nat.add_mod_right]; exact Nat.mod_eq_of_lt hq

/-! ## One watch -/

/-- The state with a given watch list for a literal. -/
def PropState.virt (p : PropState) (l : Lit) (ws : List Watch) : PropState :=
  { p with watches := { p.watches with byLit := p.watches.byLit.set l.code ws } }

/-- Some literal of the clause is true. -/
def SatC (p : PropState) (e : LC) : Prop := ∃ t ∈ p.trail.steps, t.lit ∈ e.lits

/-- Changing the clause store. -/
theorem PInv.setLong {n : Nat} {S S' : List LC} {p : PropState} (h : PInv n S p) {a : Arena}
    (hrep : LRep a S') (hr : ReasonInv p.binary S' p.trail) (hl : LongOK n S')
    (hw : WatchStruct S' p.watches.byLit) (hs : WatchSat S' p.trail.steps p.trail.propagated) :
    PInv n S' { p with long := a } :=
  ⟨⟨h.sized.values, h.sized.tix, h.sized.bin, h.sized.wat, h.sized.n_le⟩, h.trail, hr, hrep, hl, hw,
    h.blk, hs, h.bs, h.bsat, h.enabled, h.small⟩

theorem PInv.setWatch {n : Nat} {S : List LC} {p : PropState} (h : PInv n S p)
    {b : List (List Watch)} (hb : b.length = n * 2) (hw : WatchStruct S b) (hk : BlkOK n b) :
    PInv n S { p with watches := { p.watches with byLit := b } } :=
  ⟨⟨h.sized.values, h.sized.tix, h.sized.bin, hb, h.sized.n_le⟩, h.trail, h.reasons, h.rep, h.long,
    hw, hk, h.wsat, h.bs, h.bsat, h.enabled, h.small⟩

/-- Changing headers only. -/
theorem PInv.modHeader {n : Nat} {S : List LC} {p : PropState} (h : PInv n S p) {e : LC}
    (he : e ∈ S) {f : LongHeader → LongHeader} (hf : (f e.hdr).WF)
    (hpos : e.live → (f e.hdr).searchPos + 2 < e.lits.length)
    (hred : (f e.hdr).redundant = e.hdr.redundant) (hprot : (f e.hdr).prot = e.hdr.prot) :
    ∃ a', Long.modHeader p.long e.ref f = .ok a' ∧ ∃ S', SSim S S' ∧
      S' = modS S e.ref (fun e => { e with hdr := f e.hdr }) ∧
      PInv n S' { p with long := a' } := by
  obtain ⟨a', h1, h2, _, _⟩ := h.rep.modHeader_ok he hf
  have uq : ∀ x ∈ S, x.ref = e.ref → x = e := fun x hx hr => h.rep.unique hx he hr
  refine ⟨a', h1, _, ?_, rfl, ?_⟩
  · refine SSim.mod ?_
    intro x hx hr
    rw [uq x hx hr]
    exact ⟨rfl, .refl _, hred, hprot⟩
  · refine h.setLong h2 ?_ ?_ ?_ ?_
    · exact h.reasons.mod (fun x _ _ => ⟨rfl, .inl rfl⟩)
    · refine h.long.mod ?_
      intro x hx hr
      rw [uq x hx hr]
      exact ⟨.refl _, hpos⟩
    · exact h.ws.mod (fun x _ _ => ⟨rfl, .refl _, .refl _⟩)
    · exact h.wsat.mod (fun x _ _ => ⟨rfl, .refl _, .refl _⟩)

theorem LongHeader.WF.setSearchPos {h : LongHeader} (hw : h.WF) (k : Nat) :
    (h.setSearchPos k).WF := ((C21_header_fields h).2.2.2.2.2 hw).2.2.2.2 k

theorem BlkOK.set {n : Nat} {B : List (List Watch)} (h : BlkOK n B) {ws : List Watch}
    (hw : ∀ w ∈ ws, w.blocking.index < n) (i : Nat) : BlkOK n (B.set i ws) := by
  intro x hx
  rcases List.mem_or_eq_of_mem_set hx with hx | rfl
  · exact h x hx
  · exact hw

theorem BlkOK.get {n : Nat} {B : List (List Watch)} (h : BlkOK n B) {ws : List Watch} {i : Nat}
    (hi : B[i]? = some ws) : ∀ w ∈ ws, w.blocking.index < n :=
  h ws (List.mem_iff_getElem?.2 ⟨i, hi⟩)

/-- What a visited watch leaves behind. -/
def VisitPost (n : Nat) (S : List LC) (watched : Lit) (w : Watch) (kept rest : List Watch)
    (p : PropState) : PropState × VisitResult → Prop := fun (p', r) =>
  Ext n p p' ∧ p'.watches.byLit[watched.code]? = some [] ∧ ∃ S', SSim S S' ∧
  match r with
  | .keep w' => w'.clause = w.clause ∧ PInv n S' (p'.virt watched (kept ++ w' :: rest)) ∧
      (∀ e ∈ S', e.ref = w.clause → e.live → SatC p' e)
  | .remove => PInv n S' (p'.virt watched (kept ++ rest))
  | .conflict w' => PInv n S' (p'.virt watched (kept ++ w' :: rest)) ∧
      ConflictOK S' p' (.long w'.clause)

/-- A watch list with a different blocking literal. -/
theorem PInv.reblock {n : Nat} {S : List LC} {watched : Lit} {w : Watch}
    {kept rest : List Watch} {p : PropState}
    (h : PInv n S (p.virt watched (kept ++ w :: rest))) (hcw : watched.code < p.watches.byLit.length)
    {e : LC} (he : e ∈ S) (hwc : w.clause = e.ref) {b : Lit}
    (hb : b ∈ e.lits.erase watched) :
    PInv n S (p.virt watched (kept ++ { w with blocking := b } :: rest)) := by
  have hB : (p.virt watched (kept ++ w :: rest)).watches.byLit[watched.code]? =
      some (kept ++ w :: rest) := by
    simp only [PropState.virt]; rw [List.getElem?_set_self hcw]
  have uq : ∀ x ∈ S, ∀ y ∈ S, x.ref = y.ref → x = y := fun x hx y hy hr => h.rep.unique hx hy hr
  have h1 := h.ws.reblock uq he hB hwc hb
  have h2 : (p.virt watched (kept ++ w :: rest)).watches.byLit.set watched.code
      (kept ++ { w with blocking := b } :: rest) =
      p.watches.byLit.set watched.code (kept ++ { w with blocking := b } :: rest) := by
    simp [PropState.virt]
  rw [h2] at h1
  refine h.setWatch (b := p.watches.byLit.set watched.code
    (kept ++ { w with blocking := b } :: rest)) ?_ h1 ?_
  · have := h.sized.wat; simpa [PropState.virt] using this
  · rw [← h2]
    refine h.blk.set ?_ _
    intro x hx
    have hk := h.blk.get hB
    simp only [List.mem_append, List.mem_cons] at hx
    rcases hx with hx | rfl | hx
    · exact hk x (by simp [hx])
    · exact h.long.idx e he b (List.mem_of_mem_erase hb)
    · exact hk x (by simp [hx])

theorem visitWatch_spec {n : Nat} {S : List LC} {watched : Lit} {w : Watch}
    {kept rest : List Watch} {p : PropState}
    (h : PInv n S (p.virt watched (kept ++ w :: rest)))
    (hempty : p.watches.byLit[watched.code]? = some [])
    (hm : ∃ m, p.trail.steps[p.trail.propagated]? = some m ∧ m.lit = watched.neg) :
    Wp (visitWatch watched w p) (VisitPost n S watched w kept rest p) := by
  obtain ⟨m, hm, hmw⟩ := hm
  have hmm : m ∈ p.trail.steps := List.mem_iff_getElem?.2 ⟨_, hm⟩
  have hmlev : m.level = p.trail.decisionLevel := h.trail.prop_level _ m (Nat.le_refl _) hm
  have hmlen : p.trail.propagated < p.trail.steps.length := (List.getElem?_eq_some_iff.1 hm).1
  have hcw : watched.code < p.watches.byLit.length := (List.getElem?_eq_some_iff.1 hempty).1
  have hB : (p.virt watched (kept ++ w :: rest)).watches.byLit[watched.code]? =
      some (kept ++ w :: rest) := by
    simp only [PropState.virt]; rw [List.getElem?_set_self hcw]
  obtain ⟨e, he, her, hew⟩ := h.ws.mem watched _ hB w (by simp)
  obtain ⟨wc, wb⟩ := w
  simp only at her
  subst her
  have her : e.ref = e.ref := rfl
  have uq : ∀ x ∈ S, ∀ y ∈ S, x.ref = y.ref → x = y := fun x hx y hy hr => h.rep.unique hx hy hr
  have hvlen : p.values.assigned.length = n := h.sized.values
  have hwfalse : p.values.val watched = some false :=
    (h.trail.val_false_iff watched).2 ⟨m, hmm, hmw⟩
  have hwn : watched.index < n := by
    have := h.trail.idx_lt m hmm; rw [hmw] at this; simpa using this
  have hrep : LRep p.long S := h.rep
  have hbi : wb.index < n := h.blk.get hB _ (List.mem_append_right _ List.mem_cons_self)
  have hvt : ∀ l, p.values.val l = some true ↔ ∃ s ∈ p.trail.steps, s.lit = l := h.trail.val_iff
  have hvf : ∀ l, p.values.val l = some false ↔ ∃ s ∈ p.trail.steps, s.lit = l.neg :=
    h.trail.val_false_iff
  have hsat : ∀ {b : Lit}, b ∈ e.lits → p.values.val b = some true → ∀ x ∈ S, x.ref = e.ref →
      x.live → SatC p x := by
    intro b hb hbt x hx hr _
    have := uq x hx e he (hr.trans her.symm)
    subst this
    obtain ⟨s, hs, hsl⟩ := (hvt b).1 hbt
    exact ⟨s, hs, by rw [hsl]; exact hb⟩
  have hT : ∀ {l : Lit}, l.index < n → p.values.isTrue l = .ok (p.values.val l == some true) :=
    fun hl => PartialAssignment.isTrue_eq (by omega)
  have hF : ∀ {l : Lit}, l.index < n → p.values.isFalse l = .ok (p.values.val l == some false) :=
    fun hl => PartialAssignment.isFalse_eq (by omega)
  have beqf : ∀ {a b : Option Bool}, a ≠ b → (a == b) = false := by
    intro a b hab; simpa using hab
  simp only [visitWatch, hT hbi, bind_ok]
  by_cases hb1 : p.values.val wb = some true
  · simp only [hb1, beq_self_eq_true, if_true, wp_pure]
    refine ⟨.refl n p, hempty, S, .refl S, rfl, h, ?_⟩
    intro x hx hr hl
    have := uq x hx e he (hr.trans her.symm)
    subst this
    exact hsat (List.mem_of_mem_erase (hew hl).2) hb1 x hx hr hl
  simp only [beqf hb1, Bool.false_eq_true, if_false]
  rw [hrep.headerAndLits_ok he, bind_ok]
  by_cases hlen : e.lits.length < 2
  · -- a deleted clause
    simp only [hlen, if_true, wp_pure]
    have hd : e.lits = [] := by
      by_contra hc
      have := (h.long.len e he (LC.live_iff.2 hc)).1
      omega
    refine ⟨.refl n p, hempty, S, .refl S, ?_⟩
    have h1 := h.ws.drop uq he hd hB her.symm
    have h2 : (p.virt watched (kept ++ ⟨e.ref, wb⟩ :: rest)).watches.byLit.set watched.code (kept ++ rest) =
        p.watches.byLit.set watched.code (kept ++ rest) := by simp [PropState.virt]
    rw [h2] at h1
    refine h.setWatch (b := p.watches.byLit.set watched.code (kept ++ rest)) ?_ h1 ?_
    · have := h.sized.wat; simpa [PropState.virt] using this
    · rw [← h2]
      refine h.blk.set ?_ _
      intro x hx
      refine h.blk.get hB x ?_
      rcases List.mem_append.1 hx with hx | hx <;> simp [hx]
  simp only [hlen, if_false]
  have hlive : e.live := by
    rw [LC.live_iff]; intro hc; rw [hc] at hlen; simp at hlen
  obtain ⟨hlen3, hsp⟩ := h.long.len e he hlive
  obtain ⟨hwt, hwb⟩ := hew hlive
  -- the shape of the clause
  obtain ⟨a0, a1, tail, hls⟩ : ∃ a0 a1 tail, e.lits = a0 :: a1 :: tail := by
    match hx : e.lits, hlen3 with
    | a :: b :: c, _ => exact ⟨a, b, c, rfl⟩
  have hother : ∃ other, watched.selectOther a0 a1 = other ∧
      debugM (watched == a0 || watched == a1) = .ok () ∧ (e.lits.take 2).Perm [watched, other] := by
    rw [hls] at hwt ⊢
    simp only [List.take_succ_cons, List.take_zero, List.mem_cons, List.not_mem_nil, or_false] at hwt ⊢
    rcases hwt with rfl | rfl
    · exact ⟨a1, Lit.selectOther_left _ _, debugM_ok (by simp), .refl _⟩
    · exact ⟨a0, Lit.selectOther_right _ _, debugM_ok (by simp), .swap _ _ _⟩
  obtain ⟨other, hoeq, hdebug, htwo⟩ := hother
  have hom : other ∈ e.lits := List.mem_of_mem_take (htwo.mem_iff.2 (by simp))
  have hoi : other.index < n := h.long.idx e he other hom
  have g0 : idx e.lits 0 = .ok a0 := idx_ok (by rw [hls]; rfl)
  have g1 : idx e.lits 1 = .ok a1 := idx_ok (by rw [hls]; rfl)
  simp only [g0, g1, bind_ok, hdebug, hoeq, hT hoi]
  by_cases ho1 : p.values.val other = some true
  · simp only [ho1, beq_self_eq_true, if_true, wp_pure]
    exact ⟨.refl n p, hempty, S, .refl S, rfl, h.reblock hcw he her.symm (mem_erase_of_take htwo),
      hsat hom ho1⟩
  simp only [beqf ho1, Bool.false_eq_true, if_false]
  have htl : tail.length = e.lits.length - 2 := by rw [hls]; simp
  rw [wp_bind]
  refine (searchLit_spec hvlen (h.long.idx e he) (by omega : e.lits.length = 2 + (e.lits.length - 2))
    (e.lits.length - 2) e.hdr.searchPos (by omega)).mono ?_
  have hlen31 : e.lits.length < 2 ^ 31 := hrep.len_lt he
  have hWF : e.hdr.WF := hrep.hdrWF he
  -- the header update, for any new position
  have hdr : ∀ q, q < e.lits.length - 2 → ∃ a', Long.modHeader p.long e.ref
      (fun x => x.setSearchPos q) = .ok a' ∧ ∃ S', SSim S S' ∧
      S' = modS S e.ref (fun e => { e with hdr := e.hdr.setSearchPos q }) ∧
      PInv n S' (({ p with long := a' } : PropState).virt watched (kept ++ ⟨e.ref, wb⟩ :: rest)) := by
    intro q hq
    refine h.modHeader he (hWF.setSearchPos q) ?_ rfl rfl
    intro _
    rw [LongHeader.searchPos_setSearchPos _ (by omega)]
    omega
  have hes : ∀ q, { e with hdr := e.hdr.setSearchPos q } ∈
      modS S e.ref (fun e => { e with hdr := e.hdr.setSearchPos q }) :=
    fun q => mem_modS.2 ⟨e, he, by simp⟩
  intro r hr
  cases r with
  | isTrue l q =>
    obtain ⟨hl1, hl2, hq⟩ := hr
    have hlm : l ∈ e.lits := List.mem_iff_getElem?.2 ⟨_, hl1⟩
    obtain ⟨a', e1, S', e2, e3, e4⟩ := hdr q hq
    simp only [e1, bind_ok, wp_pure]
    have hmem := hes q
    rw [← e3] at hmem
    have hlw : l ≠ watched := by
      rintro rfl
      rw [hwfalse] at hl2; simp at hl2
    have hx := e4.reblock (b := l) hcw hmem her.symm ((List.mem_erase_of_ne hlw).2 hlm)
    refine ⟨⟨⟨[], by simp⟩, rfl, rfl, rfl, rfl, rfl⟩, hempty, S', e2, rfl, hx, ?_⟩
    intro x hx' hr hl
    have := e4.rep.unique hx' hmem (hr.trans her.symm)
    subst this
    obtain ⟨s, hs, hsl⟩ := (hvt l).1 hl2
    exact ⟨s, hs, by rw [hsl]; exact hlm⟩
  | unassigned l q =>
    obtain ⟨hl1, hl2, hq⟩ := hr
    have hlm : l ∈ e.lits := List.mem_iff_getElem?.2 ⟨_, hl1⟩
    have hln : l.index < n := h.long.idx e he l hlm
    have hlw : l ≠ watched := by rintro rfl; rw [hl2] at hwfalse; simp at hwfalse
    have hlc : l.code < p.watches.byLit.length := by
      have : p.watches.byLit.length = n * 2 := by simpa [PropState.virt] using h.sized.wat
      rw [this]; exact Lit.code_lt_of_index_lt hln
    have hcne : l.code ≠ watched.code := fun c => hlw (Lit.ext_code c)
    obtain ⟨a', e1, S', e2, e3, e4⟩ := hdr q hq
    have hmem := hes q
    rw [← e3] at hmem
    obtain ⟨Wl, hWl⟩ : ∃ Wl, p.watches.byLit[l.code]? = some Wl := ⟨_, List.getElem?_eq_getElem hlc⟩
    simp only [Watches.push, debugM_ok (show p.watches.enabled = true from h.enabled), idx_ok hWl, bind_ok, upd_ok hlc, e1, bind_pure_ok]
    have htq : tail[q]? = some l := by
      rw [hls, show 2 + q = q + 1 + 1 by omega] at hl1
      simpa using hl1
    have hu : ∀ {i : Nat} {xs : List Lit} (y : Lit), i < xs.length →
        upd xs i y = .ok (xs.set i y) := fun _ hi => upd_ok hi
    rw [hu l (by omega), bind_ok, hu other (by simp; omega), bind_ok,
      hu watched (by simp; omega), bind_ok]
    have hls' : ((e.lits.set 0 l).set 1 other).set (2 + q) watched =
        l :: other :: tail.set q watched := by
      rw [hls, show 2 + q = q + 1 + 1 by omega]; rfl
    rw [hls']
    have hperm : (l :: other :: tail.set q watched).Perm e.lits := by
      have p1 : (l :: other :: tail.set q watched).Perm (other :: l :: tail.set q watched) :=
        .swap _ _ _
      have p2 : (other :: l :: tail.set q watched).Perm (other :: watched :: tail) :=
        (perm_set_cons watched htq).cons other
      have p3 : ([watched, other] ++ tail).Perm e.lits := by
        rw [hls]
        have := htwo.symm
        rw [hls] at this
        exact this.append_right tail
      exact p1.trans (p2.trans ((List.Perm.swap _ _ _).trans p3))
    obtain ⟨a2, f1, f2, _, _⟩ := e4.rep.setLits_ok (ls := l :: other :: tail.set q watched) hmem
      hperm.length_eq (fun x hx => hrep.valid he x (hperm.mem_iff.1 hx))
    have f1' : Long.setLits a' e.ref (l :: other :: tail.set q watched) = .ok a2 := f1
    simp only [f1', bind_ok, wp_pure]
    have uq' : ∀ x ∈ S', ∀ y ∈ S', x.ref = y.ref → x = y :=
      fun x hx y hy hr => e4.rep.unique hx hy hr
    -- the new watch lists
    have hmove := e4.ws.move uq' hmem hlive htwo hperm rfl hlw hB her.symm
      (Wl := Wl) (by simp only [PropState.virt]; rw [List.getElem?_set_ne (fun c => hcne c.symm)]; exact hWl)
    have hBeq : ((({ p with long := a' } : PropState).virt watched
        (kept ++ ⟨e.ref, wb⟩ :: rest)).watches.byLit.set watched.code (kept ++ rest)).set l.code
          (Wl ++ [⟨e.ref, other⟩]) =
        (p.watches.byLit.set l.code (Wl ++ [⟨e.ref, other⟩])).set watched.code (kept ++ rest) := by
      simp only [PropState.virt, List.set_set]
      rw [List.set_comm _ _ hcne]
    rw [hBeq] at hmove
    refine ⟨⟨⟨[], by simp⟩, rfl, rfl, rfl, rfl, rfl⟩, ?_,
      modS S' e.ref (fun e => { e with lits := l :: other :: tail.set q watched }), ?_, ?_⟩
    · rw [List.getElem?_set_ne hcne]; exact hempty
    · refine e2.trans (SSim.mod ?_)
      intro x hx hr
      have := uq' x hx _ hmem hr
      subst this
      exact ⟨rfl, hperm, rfl, rfl⟩
    · have hnr : ∀ s ∈ p.trail.steps, ∀ rest, e.lits ≠ s.lit :: rest := by
        intro s hs rest' hc
        have hv : p.values.val s.lit = some true := (hvt _).2 ⟨s, hs, rfl⟩
        have : s.lit ∈ e.lits.take 2 := by rw [hc]; simp
        have := htwo.mem_iff.1 this
        simp only [List.mem_cons, List.not_mem_nil, or_false] at this
        rcases this with c | c
        · rw [c, hwfalse] at hv; simp at hv
        · rw [c] at hv; exact ho1 hv
      refine ⟨⟨h.sized.values, h.sized.tix, h.sized.bin, ?_, h.sized.n_le⟩, h.trail, ?_, f2, ?_,
        hmove, ?_, ?_, h.bs, h.bsat, h.enabled, h.small⟩
      · have := h.sized.wat; simpa [PropState.virt] using this
      · refine e4.reasons.mod ?_
        intro x hx hr
        have := uq' x hx _ hmem hr
        subst this
        exact ⟨rfl, .inr hnr⟩
      · refine e4.long.mod ?_
        intro x hx hr
        have := uq' x hx _ hmem hr
        subst this
        refine ⟨hperm, fun _ => ?_⟩
        have := (e4.long.len _ hmem hlive).2
        exact this
      · show BlkOK n ((p.watches.byLit.set l.code _).set watched.code _)
        rw [← hBeq]
        refine (e4.blk.set ?_ _).set ?_ _
        · intro x hx
          refine h.blk.get hB x ?_
          rcases List.mem_append.1 hx with hx | hx <;> simp [hx]
        · intro x hx
          rcases List.mem_append.1 hx with hx | hx
          · refine h.blk.get (i := l.code) (ws := Wl) ?_ x hx
            simp only [PropState.virt]
            rw [List.getElem?_set_ne (fun c => hcne c.symm)]; exact hWl
          · simp only [List.mem_singleton] at hx; subst hx; exact hoi
      · intro x' hx' hxl y hy i s hi hs hsy
        obtain ⟨x, hx, rfl⟩ := mem_modS.1 hx'
        by_cases hr : x.ref = e.ref
        · have := uq' x hx _ hmem hr
          subst this
          simp only [if_true] at hy ⊢
          simp only [List.take_succ_cons, List.take_zero, List.mem_cons, List.not_mem_nil,
            or_false] at hy
          have hym : y = other := by
            rcases hy with rfl | hy
            · exfalso
              have := (hvf y).2 ⟨s, List.mem_iff_getElem?.2 ⟨i, hs⟩, hsy⟩
              rw [hl2] at this; simp at this
            · exact hy
          subst hym
          obtain ⟨t, t1, t2, t3⟩ := e4.wsat _ hmem hlive y (htwo.mem_iff.2 (by simp)) i s hi hs hsy
          exact ⟨t, t1, hperm.mem_iff.2 t2, t3⟩
        · rw [if_neg hr] at hxl hy ⊢
          exact e4.wsat x hx hxl y hy i s hi hs hsy
  | none q =>
    obtain ⟨hq, hall⟩ := hr
    have htf : ∀ y ∈ tail, p.values.val y = some false := by
      intro y hy
      obtain ⟨i, hi⟩ := List.mem_iff_getElem?.1 hy
      have hit : i < tail.length := (List.getElem?_eq_some_iff.1 hi).1
      obtain ⟨j, hj, hje⟩ := cyc_cover (L := e.lits.length - 2) (pos := e.hdr.searchPos) (q := i)
        (by omega) (by omega)
      obtain ⟨x, hx, hxf⟩ := hall j hj
      rw [hje, hls, show 2 + i = i + 1 + 1 by omega] at hx
      simp only [List.getElem?_cons_succ] at hx
      rw [hi] at hx
      injection hx with hx
      subst hx; exact hxf
    obtain ⟨a', e1, S', e2, e3, e4⟩ := hdr q hq
    have hmem := hes q
    rw [← e3] at hmem
    simp only [e1, bind_ok, hF hoi]
    have uq' : ∀ x ∈ S', ∀ y ∈ S', x.ref = y.ref → x = y :=
      fun x hx y hy hr => e4.rep.unique hx hy hr
    by_cases ho2 : p.values.val other = some false
    · simp only [ho2, beq_self_eq_true, if_true, wp_pure]
      refine ⟨⟨⟨[], by simp⟩, rfl, rfl, rfl, rfl, rfl⟩, hempty, S', e2, e4, ?_⟩
      refine ⟨_, hmem, her, hlive, ?_, ?_⟩
      · intro y hy
        refine (hvf y).1 ?_
        have hy : y ∈ e.lits := hy
        have hp : ([watched, other] ++ tail).Perm e.lits := by
          rw [hls]
          have := htwo.symm
          rw [hls] at this
          exact this.append_right tail
        have := hp.mem_iff.2 hy
        simp only [List.mem_append, List.mem_cons, List.not_mem_nil, or_false] at this
        rcases this with (rfl | rfl) | hy
        · exact hwfalse
        · exact ho2
        · exact htf y hy
      · exact ⟨watched, List.mem_of_mem_take (htwo.mem_iff.2 (by simp)), m, hmm, hmw, hmlev⟩
    · simp only [beqf ho2, Bool.false_eq_true, if_false]
      have ho3 : p.values.val other = none := by
        cases hv : p.values.val other with
        | none => rfl
        | some v =>
          rw [hv] at ho1 ho2
          cases v
          · exact absurd rfl ho2
          · exact absurd rfl ho1
      have hu : ∀ {i : Nat} {xs : List Lit} (y : Lit), i < xs.length →
          upd xs i y = .ok (xs.set i y) := fun _ hi => upd_ok hi
      rw [hu other (by omega), bind_ok, hu watched (by simp; omega), bind_ok]
      have hls' : (e.lits.set 0 other).set 1 watched = other :: watched :: tail := by
        rw [hls]; rfl
      rw [hls']
      have hp2 : [other, watched].Perm (e.lits.take 2) := (List.Perm.swap _ _ _).trans htwo.symm
      have hperm : (other :: watched :: tail).Perm e.lits := by
        have p3 : ([watched, other] ++ tail).Perm e.lits := by
          rw [hls]
          have := htwo.symm
          rw [hls] at this
          exact this.append_right tail
        exact (List.Perm.swap _ _ _).trans p3
      obtain ⟨a2, f1, f2, _, _⟩ := e4.rep.setLits_ok (ls := other :: watched :: tail) hmem
        hperm.length_eq (fun x hx => hrep.valid he x (hperm.mem_iff.1 hx))
      have f1' : Long.setLits a' e.ref (other :: watched :: tail) = .ok a2 := f1
      simp only [f1', bind_ok]
      have hws : ∀ x ∈ S', x.ref = e.ref →
          LC.WSim x { x with lits := other :: watched :: tail } := by
        intro x hx hr
        have := uq' x hx _ hmem hr
        subst this
        exact ⟨rfl, hperm, hp2⟩
      have hnr : ∀ s ∈ p.trail.steps, ∀ rest, e.lits ≠ s.lit :: rest := by
        intro s hs rest' hc
        have hv : p.values.val s.lit = some true := (hvt _).2 ⟨s, hs, rfl⟩
        have : s.lit ∈ e.lits.take 2 := by rw [hc]; simp
        have := htwo.mem_iff.1 this
        simp only [List.mem_cons, List.not_mem_nil, or_false] at this
        rcases this with c | c
        · rw [c, hwfalse] at hv; simp at hv
        · rw [c] at hv; exact ho1 hv
      have hinv : PInv n (modS S' e.ref (fun e => { e with lits := other :: watched :: tail }))
          (({ p with long := a2 } : PropState).virt watched (kept ++ ⟨e.ref, wb⟩ :: rest)) := by
        refine PInv.setLong (p := ({ p with long := a' } : PropState).virt watched
          (kept ++ ⟨e.ref, wb⟩ :: rest)) e4 f2 ?_ ?_ (e4.ws.mod hws) (e4.wsat.mod hws)
        · refine e4.reasons.mod ?_
          intro x hx hr
          have := uq' x hx _ hmem hr
          subst this
          exact ⟨rfl, .inr hnr⟩
        · refine e4.long.mod ?_
          intro x hx hr
          have := uq' x hx _ hmem hr
          subst this
          refine ⟨hperm, fun _ => ?_⟩
          exact (e4.long.len _ hmem hlive).2
      have hne : (⟨e.ref, e.hdr.setSearchPos q, other :: watched :: tail⟩ : LC) ∈
          modS S' e.ref (fun e => { e with lits := other :: watched :: tail }) :=
        mem_modS.2 ⟨_, hmem, by simp⟩
      have hass := hinv.assign (s := ⟨other, p.trail.decisionLevel, .long e.ref⟩) hoi rfl ho3 (by simp) (by
        refine ⟨_, hne, rfl, watched :: tail, rfl, ?_⟩
        intro o ho
        have hof : p.values.val o = some false := by
          rcases List.mem_cons.1 ho with rfl | ho
          · exact hwfalse
          · exact htf o ho
        obtain ⟨s, hs, hsl⟩ := (hvf o).1 hof
        obtain ⟨j, hj⟩ := List.mem_iff_getElem?.1 hs
        exact ⟨j, s, (List.getElem?_eq_some_iff.1 hj).1, getElem?_snoc.2 (.inl hj), hsl⟩)
      have hsz : Sized n ({ p with long := a2 } : PropState) :=
        ⟨h.sized.values, h.sized.tix, h.sized.bin, by
          have := h.sized.wat; simpa [PropState.virt] using this, h.sized.n_le⟩
      rw [assign_eq (s := ⟨other, p.trail.decisionLevel, .long e.ref⟩) hinv.sized hoi hinv.trail.vwf ho3] at hass
      rw [wp_bind, assign_eq (s := ⟨other, p.trail.decisionLevel, .long e.ref⟩) hsz hoi hinv.trail.vwf ho3]
      by_cases hl32 : p.trail.steps.length < UNASSIGNED
      · rw [if_pos (by exact hl32), wp_ok] at hass
        rw [if_pos (by exact hl32), wp_ok, wp_pure]
        obtain ⟨_, hP, hE⟩ := hass
        refine ⟨⟨hE.steps, hE.decisions, hE.prop, hE.binary, hE.unsat, hE.free⟩, hempty, _,
          e2.trans (SSim.mod ?_), rfl, hP, ?_⟩
        · intro x hx hr
          have := uq' x hx _ hmem hr
          subst this
          exact ⟨rfl, hperm, rfl, rfl⟩
        · intro x hx hr hl
          have := hP.rep.unique hx hne (hr.trans her.symm)
          subst this
          exact ⟨⟨other, p.trail.decisionLevel, .long e.ref⟩, by simp [Trail.push], by simp⟩
      · rw [if_neg hl32]; simp

end Starlit
