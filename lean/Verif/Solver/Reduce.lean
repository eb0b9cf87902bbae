import Verif.Solver.Gc
import Verif.Solver.Search

/-!
# Clause database reduction
-/

namespace Starlit

namespace LongHeader

theorem setProt_setProt (h : LongHeader) (b c : Bool) : (h.setProt b).setProt c = h.setProt c := by
  unfold setProt
  simp only [LongHeader.mk.injEq, and_true]
  apply BitVec.eq_of_getLsbD_eq
  intro i _
  rw [HeaderWord.getLsbD_setBit (by decide), HeaderWord.getLsbD_setBit (by decide),
    HeaderWord.getLsbD_setBit (by decide)]
  split <;> rfl

theorem setProt_self (h : LongHeader) : h.setProt h.prot = h := by
  have : h = ⟨h.w0, h.w1⟩ := rfl
  unfold setProt prot
  conv => rhs; rw [this]
  simp only [LongHeader.mk.injEq, and_true]
  apply BitVec.eq_of_getLsbD_eq
  intro i _
  rw [HeaderWord.getLsbD_setBit (by decide), HeaderWord.bit_eq]
  split
  · rename_i e; rw [e]
  · rfl

theorem glue_setUsed (h : LongHeader) (g : Nat) : (h.setUsed g).glue = h.glue := by
  unfold glue setUsed
  congr 1
  refine HeaderWord.field_congr (by decide) ?_
  intro i hi
  intro hi2
  rw [HeaderWord.getLsbD_setField (by decide), if_neg]
  simp only [GLUE_START, GLUE_WIDTH, USED_START, USED_WIDTH, PROTECTED_BIT, REDUNDANT_BIT] at *
  omega

theorem used_lt (h : LongHeader) : h.used < 4 := by
  unfold used
  rw [HeaderWord.field_toNat (by decide)]
  exact Nat.mod_lt _ (by decide)

end LongHeader

/-- The clause is the reason of a step. -/
def isReason (steps : List Step) (r : Nat) : Bool := steps.any (fun s => s.reason == .long r)

/-- The effect of `protect_clauses`. -/
def protE (steps : List Step) (b : Bool) (e : LC) : LC :=
  if isReason steps e.ref then { e with hdr := e.hdr.setProt b } else e

/-- Clauses inspected more closely by a reduction. -/
def visited (e : LC) : Bool := e.live && !e.hdr.prot && e.hdr.redundant && decide (2 < e.hdr.glue)

/-- The effect of the candidate loop on a clause. -/
def visitE (e : LC) : LC :=
  if visited e && decide (0 < e.hdr.used) then { e with hdr := e.hdr.setUsed (e.hdr.used - 1) } else e

/-- The candidate made of a clause, with its score. -/
def candE (e : LC) : Option (Nat × Nat) :=
  if visited e && !(decide (0 < e.hdr.used) && decide (e.hdr.glue ≤ 5)) then
    some ((Score.ofClause (e.hdr.used - 1) e.hdr.glue e.lits.length).toNat, e.ref)
  else none

/-- The effect of deleting clauses. -/
def delE (D : List Nat) (e : LC) : LC := if e.ref ∈ D then { e with lits := [] } else e

theorem modS_eq_map (S : List LC) (r : Nat) (f : LC → LC) :
    modS S r f = S.map (fun e => if e.ref = r then f e else e) := rfl

section
variable {n : Nat} {S : List LC} {p : PropState} {F L : DB}

theorem protectLoop_spec (b : Bool) (steps : List Step) : ∀ {a : Arena} {S : List LC}, LRep a S →
    (∀ s ∈ steps, ∀ c, s.reason = .long c → ∃ e ∈ S, e.ref = c) →
    ∃ a', protectLoop b steps a = .ok a' ∧ LRep a' (S.map (protE steps b)) ∧
      a'.buffer.length = a.buffer.length := by
  induction steps with
  | nil =>
    intro a S h _
    refine ⟨a, rfl, ?_, rfl⟩
    rw [List.map_congr_left (g := id) (by intro e _; simp [protE, isReason]), List.map_id]
    exact h
  | cons s ss ih =>
    intro a S h hr
    have skip : (∀ c, s.reason ≠ .long c) →
        S.map (protE (s :: ss) b) = S.map (protE ss b) := by
      intro hn
      apply List.map_congr_left
      intro e _
      unfold protE isReason
      simp [hn]
    unfold protectLoop
    cases hs : s.reason with
    | long c =>
      obtain ⟨e, he, rfl⟩ := hr s (by simp) c hs
      obtain ⟨a1, e1, r1, b1, _⟩ := h.modHeader_ok he (f := fun x => x.setProt b)
        ((h.hdrWF he).setProt b)
      obtain ⟨a2, e2, r2, b2⟩ := ih r1 (by
        intro x hx c hc
        obtain ⟨y, hy, rfl⟩ := hr x (by simp [hx]) c hc
        exact ⟨_, mem_modS.2 ⟨y, hy, rfl⟩, by split <;> rfl⟩)
      refine ⟨a2, ?_, ?_, b2.trans b1⟩
      · simp only [e1, bind_ok]; exact e2
      · rw [modS_eq_map, List.map_map] at r2
        rw [List.map_congr_left (g := (protE ss b) ∘ _)]
        · exact r2
        intro x _
        simp only [Function.comp]
        by_cases hx : x.ref = e.ref
        · rw [if_pos hx]
          unfold protE isReason
          simp only [List.any_cons, hs, hx, beq_self_eq_true, Bool.true_or, if_true]
          by_cases hz : (ss.any fun s => s.reason == Reason.long e.ref) = true
          · simp [hz, LongHeader.setProt_setProt]
          · simp [hz]
        · have hb : (Reason.long e.ref == Reason.long x.ref) = false := by
            simp; exact fun h => hx h.symm
          rw [if_neg hx]
          unfold protE isReason
          simp only [List.any_cons, hs, hb, Bool.false_or]
    | decision =>
      rw [skip (by simp [hs])]
      exact ih h (fun x hx => hr x (by simp [hx]))
    | unit =>
      rw [skip (by simp [hs])]
      exact ih h (fun x hx => hr x (by simp [hx]))
    | binary o =>
      rw [skip (by simp [hs])]
      exact ih h (fun x hx => hr x (by simp [hx]))

theorem reduceVisit_spec {a : Arena} (h : LRep a S) {e : LC} (he : e ∈ S) (hl : e.live) :
    ∃ a', reduceVisit a e.ref = .ok (a', candE e) ∧
      LRep a' (modS S e.ref visitE) ∧ a'.buffer.length = a.buffer.length := by
  have uq : ∀ x ∈ S, x.ref = e.ref → x = e := fun x hx hr => h.unique hx he hr
  have hlen : Long.len a e.ref = .ok e.lits.length := h.clauseLen_ok he
  have keep : visitE e = e → modS S e.ref visitE = S := fun hv =>
    modS_id (fun x hx hr => by rw [uq x hx hr]; exact hv)
  unfold reduceVisit
  rw [hlen, bind_ok, h.header_ok he, bind_ok]
  by_cases h1 : e.hdr.prot = true
  · rw [if_pos h1, keep (by simp [visitE, visited, h1])]
    exact ⟨a, by simp [candE, visited, h1]; rfl, h, rfl⟩
  rw [if_neg h1]
  by_cases h2 : e.hdr.redundant = true
  swap
  · rw [if_pos (by simp [h2]), keep (by simp [visitE, visited, h2])]
    exact ⟨a, by simp [candE, visited, h2]; rfl, h, rfl⟩
  rw [if_neg (by simp [h2])]
  by_cases h3 : e.hdr.glue ≤ 2
  · rw [if_pos h3, keep (by simp [visitE, visited]; omega)]
    refine ⟨a, ?_, h, rfl⟩
    unfold candE visited
    rw [if_neg (by simp; omega)]; rfl
  rw [if_neg h3]
  have hv : visited e = true := by
    simp only [visited, hl, h1, h2]; simp; omega
  by_cases h4 : e.hdr.used > 0
  · rw [if_pos h4]
    simp only
    obtain ⟨a', e1, r1, b1, _⟩ := h.modHeader_ok he
      (f := fun _ => e.hdr.setUsed (e.hdr.used - 1)) ((h.hdrWF he).setUsed _)
    have hm : modS S e.ref (fun x => { x with hdr := e.hdr.setUsed (e.hdr.used - 1) }) =
        modS S e.ref visitE := by
      refine modS_congr ?_
      intro x hx hr
      rw [uq x hx hr]
      simp [visitE, hv, h4]
    rw [hm] at r1
    rw [e1, bind_ok]
    refine ⟨a', ?_, r1, b1⟩
    have hu : (e.hdr.setUsed (e.hdr.used - 1)).used = e.hdr.used - 1 := by
      have := congrArg HeaderView.used ((C21_header_fields e.hdr).2.2.2.1 (e.hdr.used - 1)
        (by have := e.hdr.used_lt; omega))
      have h3 := e.hdr.used_lt
      simp only [LongHeader.view] at this
      rw [this]; simp; omega
    rw [LongHeader.glue_setUsed, hu]
    by_cases h5 : e.hdr.glue ≤ 5
    · rw [if_pos h5]
      simp [candE, h4, h5]; rfl
    · rw [if_neg h5]
      simp [candE, h5, hv]; rfl
  · rw [if_neg h4, keep (by simp [visitE]; omega)]
    refine ⟨a, ?_, h, rfl⟩
    have : e.hdr.used = 0 := by omega
    simp [candE, hv, this]; rfl

theorem visitE_ref (e : LC) : (visitE e).ref = e.ref := by unfold visitE; split <;> rfl
theorem visitE_lits (e : LC) : (visitE e).lits = e.lits := by unfold visitE; split <;> rfl
theorem protE_ref (steps : List Step) (b : Bool) (e : LC) : (protE steps b e).ref = e.ref := by
  unfold protE; split <;> rfl
theorem protE_lits (steps : List Step) (b : Bool) (e : LC) : (protE steps b e).lits = e.lits := by
  unfold protE; split <;> rfl

theorem visitE_dead {e : LC} (h : e.live = false) : visitE e = e := by
  simp [visitE, visited, h]

theorem candE_dead {e : LC} (h : e.live = false) : candE e = none := by
  simp [candE, visited, h]

/-- The clauses after the next live one. -/
theorem firstRef_split {post : List LC} {r : Nat} (h : LRep.firstRef post = some r) :
    ∃ d e rest, post = d ++ e :: rest ∧ (∀ x ∈ d, x.live = false) ∧ e.live = true ∧ e.ref = r := by
  induction post with
  | nil => simp [LRep.firstRef] at h
  | cons x post ih =>
    cases hx : x.live with
    | true =>
      simp [LRep.firstRef, List.find?_cons, hx] at h
      exact ⟨[], x, post, rfl, by simp, hx, h⟩
    | false =>
      simp only [LRep.firstRef, List.find?_cons, hx] at h
      obtain ⟨d, e, rest, rfl, h1, h2, h3⟩ := ih h
      refine ⟨x :: d, e, rest, rfl, ?_, h2, h3⟩
      intro y hy
      rcases List.mem_cons.1 hy with rfl | hy
      · exact hx
      · exact h1 y hy

theorem firstRef_none {post : List LC} (h : LRep.firstRef post = none) : ∀ x ∈ post, x.live = false := by
  unfold LRep.firstRef at h
  rw [Option.map_eq_none_iff, List.find?_eq_none] at h
  intro x hx
  simpa using h x hx

theorem candidateLoop_spec : ∀ (fuel : Nat) {a : Arena} {pre post : List LC} {it : Option Nat}
    {cands : List (Nat × Nat)}, LRep a (pre ++ post) → Long.next a it = .ok (LRep.firstRef post) →
    post.length < fuel →
    ∃ a', candidateLoop fuel a it cands = .ok (a', cands ++ post.filterMap candE) ∧
      LRep a' (pre ++ post.map visitE) ∧ a'.buffer.length = a.buffer.length := by
  intro fuel
  induction fuel with
  | zero => intros; omega
  | succ fuel ih =>
    intro a pre post it cands h hn hf
    unfold candidateLoop
    rw [hn, bind_ok]
    have dead : ∀ d : List LC, (∀ x ∈ d, x.live = false) →
        d.filterMap candE = [] ∧ d.map visitE = d := by
      intro d hd
      constructor
      · rw [List.filterMap_eq_nil_iff]
        exact fun x hx => candE_dead (hd x hx)
      · rw [List.map_congr_left (f := visitE) (g := id) (fun x hx => visitE_dead (hd x hx)), List.map_id]
    cases hr : LRep.firstRef post with
    | none =>
      obtain ⟨d1, d2⟩ := dead post (firstRef_none hr)
      rw [d1, d2, List.append_nil]
      exact ⟨a, rfl, h, rfl⟩
    | some r =>
      obtain ⟨d, e, rest, rfl, hd, hl, rfl⟩ := firstRef_split hr
      obtain ⟨a1, e1, r1, b1⟩ := reduceVisit_spec h (e := e) (by simp) hl
      have hmod : modS (pre ++ (d ++ e :: rest)) e.ref visitE =
          (pre ++ d ++ [visitE e]) ++ rest := by
        have hnd := h.nodup
        rw [show pre ++ (d ++ e :: rest) = (pre ++ d) ++ e :: rest by simp] at hnd ⊢
        rw [List.map_append, List.map_cons, List.nodup_append] at hnd
        rw [modS_eq_map, List.map_append, List.map_cons, if_pos rfl]
        have m1 : (pre ++ d).map (fun x => if x.ref = e.ref then visitE x else x) = pre ++ d := by
          rw [List.map_congr_left (g := id), List.map_id]
          intro x hx
          rw [if_neg]; rfl
          intro hxe
          exact hnd.2.2 x.ref (List.mem_map.2 ⟨x, hx, rfl⟩) e.ref (by simp) hxe
        have m2 : rest.map (fun x => if x.ref = e.ref then visitE x else x) = rest := by
          rw [List.map_congr_left (g := id), List.map_id]
          intro x hx
          rw [if_neg]; rfl
          intro hxe
          have := (List.nodup_cons.1 hnd.2.1).1
          exact this (List.mem_map.2 ⟨x, hx, hxe⟩)
        rw [m1, m2]; simp
      rw [hmod] at r1
      have hn1 : Long.next a1 (some e.ref) = .ok (LRep.firstRef rest) := by
        have := r1.next_some (pre := pre ++ d) (post := rest) (e := visitE e) (by simp)
        rwa [visitE_ref] at this
      obtain ⟨a2, e2, r2, b2⟩ := ih (cands := cands ++ (candE e).toList) r1 hn1
        (by simp at hf; omega)
      obtain ⟨d1, d2⟩ := dead d hd
      refine ⟨a2, ?_, ?_, b2.trans b1⟩
      · simp only [e1, bind_ok]
        rw [e2, List.filterMap_append, d1, List.nil_append, List.filterMap_cons]
        cases candE e <;> simp
      · rw [List.map_append, d2, List.map_cons]
        simpa using r2


/-! ## Deletion -/

theorem modS_split {pre post : List LC} {e : LC} {f : LC → LC}
    (hnd : ((pre ++ e :: post).map LC.ref).Nodup) :
    modS (pre ++ e :: post) e.ref f = pre ++ f e :: post := by
  rw [List.map_append, List.map_cons, List.nodup_append] at hnd
  rw [modS_eq_map, List.map_append, List.map_cons, if_pos rfl]
  have m1 : pre.map (fun x => if x.ref = e.ref then f x else x) = pre := by
    rw [List.map_congr_left (g := id), List.map_id]
    intro x hx
    rw [if_neg]; rfl
    intro hxe
    exact hnd.2.2 x.ref (List.mem_map.2 ⟨x, hx, rfl⟩) e.ref (by simp) hxe
  have m2 : post.map (fun x => if x.ref = e.ref then f x else x) = post := by
    rw [List.map_congr_left (g := id), List.map_id]
    intro x hx
    rw [if_neg]; rfl
    intro hxe
    exact (List.nodup_cons.1 hnd.2.1).1 (List.mem_map.2 ⟨x, hx, hxe⟩)
  rw [m1, m2]

theorem liveRed_delete (hnd : (S.map LC.ref).Nodup) {e : LC} (he : e ∈ S) (hl : e.live = true)
    (hr : e.hdr.redundant = true) :
    liveRed S = e.cl ::ₘ liveRed (modS S e.ref (fun x => { x with lits := [] })) := by
  obtain ⟨pre, post, rfl⟩ := List.append_of_mem he
  rw [modS_split hnd]
  unfold liveRed
  rw [List.filter_append, List.filter_append, List.filter_cons, List.filter_cons, if_pos (by simp [hl, hr]),
    if_neg (by simp [LC.live]), List.map_append, List.map_append, List.map_cons, Multiset.cons_coe,
    Multiset.coe_eq_coe]
  exact List.perm_middle

theorem liveIrr_delete (hnd : (S.map LC.ref).Nodup) {e : LC} (he : e ∈ S)
    (hr : e.hdr.redundant = true) :
    liveIrr (modS S e.ref (fun x => { x with lits := [] })) = liveIrr S := by
  obtain ⟨pre, post, rfl⟩ := List.append_of_mem he
  rw [modS_split hnd]
  unfold liveIrr
  rw [List.filter_append, List.filter_append, List.filter_cons, List.filter_cons, if_neg (by simp [hr]),
    if_neg (by simp [hr])]

theorem ProofInv.delete {ctx : Ctx} {u : Bool} {c : List Lit}
    (h : ProofInv F ((c : Multiset Lit) ::ₘ L) ctx.proof u) (hc : 3 ≤ c.length) :
    ProofInv F L (ctx.logProof (.delete c)).proof u := by
  obtain ⟨log, h1, h2, h3⟩ := h
  refine ⟨log ++ [.delete c], h1.delete hc, ?_, ?_⟩
  · unfold Ctx.logProof
    rcases h2 with e | e <;> simp [e]
  · intro hu
    obtain ⟨log0, L0, h4, h5⟩ := h3 hu
    exact ⟨log0, L0, h4.trans (List.prefix_append _ _), h5⟩

/-- What remains of the learned clauses `L` after deleting clauses with at least three literals. -/
structure DelPost (F L L' : DB) (u : Bool) (ctx ctx' : Ctx) (S S' : List LC) : Prop where
  red : liveRed S' = L'.filter (fun c => 3 ≤ c.card)
  irr : liveIrr S' = liveIrr S
  split : ∃ K : DB, L = L' + K ∧ ∀ c ∈ K, 3 ≤ c.card
  proof : ProofInv F L' ctx'.proof u
  formula : ctx'.formula = { ctx.formula with
    redundant := (L'.filter (fun c => 3 ≤ c.card)).card }
  search : ctx'.search = ctx.search
  prop : ctx'.prop = ctx.prop

theorem logDelete_ok {ctx : Ctx} {a : Arena} {c : Nat} {ls : List Lit}
    (h : Long.lits a c = .ok ls) : logDelete ctx a c = .ok (ctx.logProof (.delete ls)) := by
  unfold logDelete
  split
  · rw [h, bind_ok]; rfl
  · next hn =>
    unfold Ctx.logProof
    rw [hn]
    cases ctx
    simp only at hn
    subst hn
    rfl

theorem deleteLoop_spec {u : Bool} (ds : List (Nat × Nat)) : ∀ {ctx : Ctx} {a : Arena} {S : List LC}
    {L : DB}, LRep a S → (ds.map Prod.snd).Nodup →
    (∀ d ∈ ds, ∃ e ∈ S, e.ref = d.2 ∧ e.live = true ∧ e.hdr.redundant = true) →
    liveRed S = L.filter (fun c => 3 ≤ c.card) →
    ctx.formula.redundant = (L.filter (fun c => 3 ≤ c.card)).card → ProofInv F L ctx.proof u →
    ∃ ctx' a' L', deleteLoop ds ctx a = .ok (ctx', a') ∧ LRep a' (S.map (delE (ds.map Prod.snd))) ∧
      DelPost F L L' u ctx ctx' S (S.map (delE (ds.map Prod.snd))) := by
  induction ds with
  | nil =>
    intro ctx a S L h _ _ hred hst hp
    have hid : S.map (delE ([] : List (Nat × Nat)).unzip.2) = S := by
      rw [List.map_congr_left (g := id), List.map_id]
      intro x _; simp [delE]
    refine ⟨ctx, a, L, rfl, ?_, ?_⟩
    · show LRep a (S.map (delE []))
      rw [show S.map (delE []) = S from hid]; exact h
    · show DelPost F L L u ctx ctx S (S.map (delE []))
      rw [show S.map (delE []) = S from hid]
      exact ⟨hred, rfl, ⟨0, by simp, by simp⟩, hp, by rw [← hst], rfl, rfl⟩
  | cons d ds ih =>
    intro ctx a S L h hnd hd hred hst hp
    obtain ⟨sc, r⟩ := d
    obtain ⟨e, he, rfl, hl, hr⟩ := hd (sc, r) (by simp)
    have hdel := liveRed_delete h.nodup he hl hr
    have hmem : e.cl ∈ L.filter (fun c => 3 ≤ c.card) := by rw [← hred, hdel]; simp
    obtain ⟨hmem, h3⟩ := Multiset.mem_filter.1 hmem
    obtain ⟨L1, rfl⟩ := Multiset.exists_cons_of_mem hmem
    have h3' : 3 ≤ e.lits.length := by simpa [LC.cl] using h3
    rw [Multiset.filter_cons_of_pos (p := fun c : Multiset Lit => 3 ≤ c.card) _ h3] at hred hst
    have hred1 : liveRed (modS S e.ref (fun x => { x with lits := [] })) =
        L1.filter (fun c => 3 ≤ c.card) := by
      rw [hdel] at hred
      exact (Multiset.cons_inj_right _).1 hred
    obtain ⟨a1, e1, r1, b1⟩ := h.delete_ok he hl
    simp only [List.map_cons, List.nodup_cons] at hnd
    have hne : ∀ x ∈ ds, x.2 ≠ e.ref := fun x hx hc => hnd.1 (List.mem_map.2 ⟨x, hx, hc⟩)
    obtain ⟨ctx', a', L', e2, r2, q⟩ := ih (L := L1) (ctx := ({ ctx with
        formula := { ctx.formula with redundant := ctx.formula.redundant - 1 } } : Ctx).logProof
          (.delete e.lits)) r1 hnd.2 (by
        intro x hx
        obtain ⟨y, hy, h1, h2⟩ := hd x (by simp [hx])
        refine ⟨y, mem_modS.2 ⟨y, hy, ?_⟩, h1, h2⟩
        rw [if_neg]
        rw [h1]; exact hne x hx) hred1 (by
        show ctx.formula.redundant - 1 = _
        rw [hst]; simp) (by
        refine ProofInv.delete (ctx := ({ ctx with
          formula := { ctx.formula with redundant := ctx.formula.redundant - 1 } } : Ctx)) ?_ h3'
        exact hp)
    have hmap : (modS S e.ref (fun x => { x with lits := [] })).map (delE (ds.map Prod.snd)) =
        S.map (delE (((sc, e.ref) :: ds).map Prod.snd)) := by
      rw [modS_eq_map, List.map_map]
      apply List.map_congr_left
      intro x _
      simp only [Function.comp]
      by_cases hx : x.ref = e.ref
      · rw [if_pos hx]
        unfold delE
        simp [hx]
      · rw [if_neg hx]
        have hiff : x.ref ∈ ((sc, e.ref) :: ds).map Prod.snd ↔ x.ref ∈ ds.map Prod.snd := by
          rw [List.map_cons, List.mem_cons]
          exact ⟨fun h => h.resolve_left hx, .inr⟩
        unfold delE
        by_cases hy : x.ref ∈ ds.map Prod.snd
        · rw [if_pos hy, if_pos (hiff.2 hy)]
        · rw [if_neg hy, if_neg (fun h => hy (hiff.1 h))]
    rw [hmap] at r2 q
    refine ⟨ctx', a', L', ?_, r2, ?_⟩
    · unfold deleteLoop
      rw [if_neg (by rw [hst]; simp)]
      simp only
      rw [logDelete_ok (h.lits_ok he), bind_ok, e1, bind_ok]
      exact e2
    · obtain ⟨K, hK, hK3⟩ := q.split
      refine ⟨q.red, ?_, ⟨e.cl ::ₘ K, ?_, ?_⟩, q.proof, q.formula, q.search, q.prop⟩
      · rw [q.irr, liveIrr_delete h.nodup he hr]
      · rw [hK, Multiset.add_cons]
      · intro c hc
        rcases Multiset.mem_cons.1 hc with rfl | hc
        · exact h3
        · exact hK3 c hc


/-! ## The candidates to be deleted -/

theorem candLe_total (x y : Nat × Nat) : candLe x y = true ∨ candLe y x = true := by
  simp only [candLe, decide_eq_true_eq]; omega

theorem candLe_trans {x y z : Nat × Nat} (h1 : candLe x y = true) (h2 : candLe y z = true) :
    candLe x z = true := by
  simp only [candLe, decide_eq_true_eq] at *; omega

theorem insertCand_perm (x : Nat × Nat) (l : List (Nat × Nat)) : (insertCand x l).Perm (x :: l) := by
  induction l with
  | nil => exact .refl _
  | cons y l ih =>
    unfold insertCand
    split
    · exact .refl _
    · exact (ih.cons y).trans (.swap _ _ _)

theorem sortCands_perm (l : List (Nat × Nat)) : (sortCands l).Perm l := by
  induction l with
  | nil => exact .refl _
  | cons x l ih => exact (insertCand_perm x _).trans (ih.cons x)

theorem insertCand_sorted (x : Nat × Nat) {l : List (Nat × Nat)}
    (h : l.Pairwise (fun a b => candLe a b = true)) :
    (insertCand x l).Pairwise (fun a b => candLe a b = true) := by
  induction l with
  | nil => simp [insertCand]
  | cons y l ih =>
    unfold insertCand
    rw [List.pairwise_cons] at h
    split
    · rename_i hxy
      refine List.pairwise_cons.2 ⟨?_, List.pairwise_cons.2 h⟩
      intro z hz
      rcases List.mem_cons.1 hz with rfl | hz
      · exact hxy
      · exact candLe_trans hxy (h.1 z hz)
    · rename_i hxy
      refine List.pairwise_cons.2 ⟨?_, ih h.2⟩
      intro z hz
      rcases List.mem_cons.1 ((insertCand_perm x l).mem_iff.1 hz) with rfl | hz
      · exact (candLe_total z y).resolve_left hxy
      · exact h.1 z hz

theorem sortCands_sorted (l : List (Nat × Nat)) :
    (sortCands l).Pairwise (fun a b => candLe a b = true) := by
  induction l with
  | nil => exact .nil
  | cons x l ih => exact insertCand_sorted x ih

/-- The candidates above the middle one: how many, and that they have the largest scores. -/
theorem higher_spec (env : Env) (cands : List (Nat × Nat)) :
    ∃ low, (low ++ higher env cands).Perm cands ∧
      (higher env cands).length = cands.length - (cands.length / 2 + 1) ∧
      ∀ x ∈ low, ∀ d ∈ higher env cands, candLe x d = true := by
  have hp := env.order_perm ((sortCands cands).drop (cands.length / 2 + 1))
  have hl : (sortCands cands).length = cands.length := (sortCands_perm cands).length_eq
  refine ⟨(sortCands cands).take (cands.length / 2 + 1), ?_, ?_, ?_⟩
  · refine ((List.Perm.refl _).append hp).trans ?_
    rw [List.take_append_drop]
    exact sortCands_perm cands
  · unfold higher
    rw [hp.length_eq, List.length_drop, hl]
  · intro x hx d hd
    have hd := hp.mem_iff.1 hd
    have := sortCands_sorted cands
    rw [← List.take_append_drop (cands.length / 2 + 1) (sortCands cands), List.pairwise_append] at this
    exact this.2.2 x hx d hd

/-! ## The whole reduction -/

/-- The candidate made of a clause that is not a reason. -/
def candOf (steps : List Step) (e : LC) : Option (Nat × Nat) :=
  if isReason steps e.ref then none else candE e

/-- The effect of a reduction on a clause. -/
def reduceE (steps : List Step) (D : List Nat) (e : LC) : LC :=
  if isReason steps e.ref then e else delE D (visitE e)

/-- No clause is protected. -/
def NoProt (S : List LC) : Prop := ∀ e ∈ S, e.hdr.prot = false

theorem SSim.noProt {S S' : List LC} (h : SSim S S') (hn : NoProt S) : NoProt S' := by
  intro e he
  obtain ⟨x, hx, hs⟩ := h.mem he
  rw [hs.prot]; exact hn x hx

theorem visitE_hdr (e : LC) : (visitE e).hdr.redundant = e.hdr.redundant ∧
    (visitE e).hdr.searchPos = e.hdr.searchPos ∧ (visitE e).hdr.prot = e.hdr.prot := by
  unfold visitE
  split
  · exact ⟨LongHeader.redundant_setUsed _ _, LongHeader.searchPos_setUsed _ _,
      LongHeader.prot_setUsed _ _⟩
  · exact ⟨rfl, rfl, rfl⟩

theorem delE_spec (D : List Nat) (e : LC) : (delE D e).ref = e.ref ∧ (delE D e).hdr = e.hdr ∧
    ((delE D e).lits = e.lits ∨ (delE D e).lits = []) := by
  unfold delE
  split
  · exact ⟨rfl, rfl, .inr rfl⟩
  · exact ⟨rfl, rfl, .inl rfl⟩

theorem reduceE_spec (steps : List Step) (D : List Nat) (e : LC) :
    (reduceE steps D e).ref = e.ref ∧ ((reduceE steps D e).lits = e.lits ∨
      (reduceE steps D e).lits = []) ∧
    (reduceE steps D e).hdr.redundant = e.hdr.redundant ∧
    (reduceE steps D e).hdr.searchPos = e.hdr.searchPos ∧
    (reduceE steps D e).hdr.prot = e.hdr.prot := by
  unfold reduceE
  split
  · exact ⟨rfl, .inl rfl, rfl, rfl, rfl⟩
  · obtain ⟨h1, h2, h3⟩ := delE_spec D (visitE e)
    obtain ⟨v1, v2, v3⟩ := visitE_hdr e
    rw [visitE_lits] at h3
    refine ⟨h1.trans (visitE_ref e), h3, ?_, ?_, ?_⟩
    · rw [h2, v1]
    · rw [h2, v2]
    · rw [h2, v3]

theorem reduceE_live {steps : List Step} {D : List Nat} {e : LC}
    (h : (reduceE steps D e).live = true) : (reduceE steps D e).lits = e.lits ∧ e.live = true := by
  rcases (reduceE_spec steps D e).2.1 with h1 | h1
  · refine ⟨h1, ?_⟩
    unfold LC.live at *
    rwa [h1] at h
  · unfold LC.live at h
    rw [h1] at h
    simp at h

theorem reduceE_reason {steps : List Step} {D : List Nat} {e : LC} {s : Step} (hs : s ∈ steps)
    (hr : s.reason = .long e.ref) : reduceE steps D e = e := by
  unfold reduceE isReason
  rw [if_pos]
  rw [List.any_eq_true]
  exact ⟨s, hs, by simp [hr]⟩

/-- The state after a reduction that deleted the clauses `D`. -/
structure ReducePost (env : Env) (n : Nat) (F L L' : DB) (ctx : Ctx) (S : List LC) (p : PropState)
    (D : List (Nat × Nat)) (S' : List LC) (ctx' : Ctx) (p' : PropState) : Prop where
  inv : PInv n S' p'
  eq : ∃ a, p' = { p with long := a }
  deleted : D = higher env (S.filterMap (candOf p.trail.steps))
  clauses : S' = S.map (reduceE p.trail.steps (D.map Prod.snd))
  del : DelPost F L L' p.unsat
    { ctx with search := { ctx.search with reductions := ctx.search.reductions + 1 } } ctx' S S'
  db : DBInv F L' S' p.binary p.trail.steps p.unsat
  stats : StatsInv F L' n p.binary ctx'.formula

theorem candOf_some {steps : List Step} {e : LC} {d : Nat × Nat} (h : candOf steps e = some d) :
    isReason steps e.ref = false ∧ d.2 = e.ref ∧ e.live = true ∧ e.hdr.redundant = true ∧
      2 < e.hdr.glue ∧ (e.hdr.glue ≤ 5 → e.hdr.used = 0) ∧
      d.1 = (Score.ofClause (e.hdr.used - 1) e.hdr.glue e.lits.length).toNat := by
  unfold candOf at h
  by_cases hr : isReason steps e.ref = true
  · rw [if_pos hr] at h; simp at h
  rw [if_neg hr] at h
  unfold candE at h
  split at h
  · rename_i hc
    injection h with h
    subst h
    simp [visited] at hc
    refine ⟨by simpa using hr, rfl, hc.1.1.1.1, hc.1.1.2, hc.1.2, ?_, rfl⟩
    intro h5
    rcases hc.2 with h0 | h0
    · exact h0
    · omega
  · simp at h

theorem reduce_spec {env : Env} {ctx : Ctx} {s : Search} (h : PInv n S s.prop) (hn : NoProt S)
    (d : DBInv F L S s.prop.binary s.prop.trail.steps s.prop.unsat)
    (st : StatsInv F L n s.prop.binary ctx.formula)
    (hp : ProofInv F L ctx.proof s.prop.unsat) :
    ∃ ctx' p' L' D S', reduce env ctx s = .ok (ctx', { s with prop := p' }) ∧
      ReducePost env n F L L' ctx S s.prop D S' ctx' p' := by
  generalize hsteps : s.prop.trail.steps = steps at *
  have hreas : ∀ x ∈ steps, ∀ c, x.reason = .long c → ∃ e ∈ S, e.ref = c := by
    intro x hx c hc
    rw [← hsteps] at hx
    obtain ⟨i, hi⟩ := List.mem_iff_getElem?.1 hx
    have := h.reasons i x hi
    unfold ReasonOK at this
    rw [hc] at this
    obtain ⟨e, he, hr, _⟩ := this
    exact ⟨e, he, hr⟩
  obtain ⟨a1, e1, r1, b1⟩ := protectLoop_spec true steps h.rep hreas
  obtain ⟨a2, e2, r2, b2⟩ := candidateLoop_spec (a1.buffer.length + 1) (pre := [])
    (post := S.map (protE steps true)) (it := none) (cands := []) (by simpa using r1)
    r1.next_none (by have := r1.length_le_buffer; omega)
  simp only [List.nil_append] at e2 r2
  have hcands : (S.map (protE steps true)).filterMap candE = S.filterMap (candOf steps) := by
    rw [List.filterMap_map]
    apply List.filterMap_congr
    intro e _
    simp only [Function.comp, candOf, protE]
    by_cases hr : isReason steps e.ref = true
    · rw [if_pos hr, if_pos hr]
      simp [candE, visited, LongHeader.prot_setProt]
    · rw [if_neg hr, if_neg hr]
  rw [hcands] at e2
  rw [List.map_map] at r2
  -- the deleted candidates
  generalize hD : higher env (S.filterMap (candOf steps)) = D
  have hDsub : ∀ x ∈ D, x ∈ S.filterMap (candOf steps) := by
    intro x hx
    obtain ⟨low, hl, _⟩ := higher_spec env (S.filterMap (candOf steps))
    exact hl.mem_iff.1 (by rw [hD]; simp [hx])
  have hDnd : (D.map Prod.snd).Nodup := by
    obtain ⟨low, hl, _⟩ := higher_spec env (S.filterMap (candOf steps))
    rw [hD] at hl
    have hc : ((S.filterMap (candOf steps)).map Prod.snd).Nodup := by
      have hS := h.rep.nodup
      have key : ∀ T : List LC, (T.map LC.ref).Nodup →
          ((T.filterMap (candOf steps)).map Prod.snd).Nodup ∧
          ∀ x ∈ T.filterMap (candOf steps), x.2 ∈ T.map LC.ref := by
        intro T hT
        induction T with
        | nil => simp
        | cons e T ih =>
          simp only [List.map_cons, List.nodup_cons] at hT
          obtain ⟨i1, i2⟩ := ih hT.2
          rw [List.filterMap_cons]
          cases hc : candOf steps e with
          | none => exact ⟨i1, fun x hx => by simp only [List.map_cons]; exact List.mem_cons_of_mem _ (i2 x hx)⟩
          | some y =>
            have := (candOf_some hc).2.1
            simp only [List.map_cons, List.nodup_cons]
            refine ⟨⟨?_, i1⟩, ?_⟩
            · rw [this]
              intro hm
              obtain ⟨z, hz, hzr⟩ := List.mem_map.1 hm
              exact hT.1 (hzr ▸ i2 z hz)
            · intro x hx
              rcases List.mem_cons.1 hx with rfl | hx
              · rw [this]; simp
              · exact List.mem_cons_of_mem _ (i2 x hx)
      exact (key S hS).1
    have := (hl.map Prod.snd).nodup_iff.2 hc
    rw [List.map_append, List.nodup_append] at this
    exact this.2.1
  have hlive2 : SSim S S := .refl S
  have hlits2 : ∀ e : LC, ((visitE ∘ protE steps true) e).lits = e.lits := by
    intro e; simp only [Function.comp]; rw [visitE_lits, protE_lits]
  have href2 : ∀ e : LC, ((visitE ∘ protE steps true) e).ref = e.ref := by
    intro e; simp only [Function.comp]; rw [visitE_ref, protE_ref]
  have hred2 : ∀ e : LC, ((visitE ∘ protE steps true) e).hdr.redundant = e.hdr.redundant := by
    intro e; simp only [Function.comp]; rw [(visitE_hdr _).1]
    unfold protE; split
    · exact LongHeader.redundant_setProt _ _
    · rfl
  have liveEq : ∀ f : LC → LC, (∀ e, (f e).lits = e.lits) →
      (∀ e, (f e).hdr.redundant = e.hdr.redundant) → ∀ T : List LC,
      liveRed (T.map f) = liveRed T ∧ liveIrr (T.map f) = liveIrr T := by
    intro f h1 h2 T
    induction T with
    | nil => exact ⟨rfl, rfl⟩
    | cons e T ih =>
      unfold liveRed liveIrr at *
      simp only [List.map_cons, List.filter_cons, LC.live, h1, h2]
      constructor
      · split
        · simp only [List.map_cons, ← Multiset.cons_coe, LC.cl, h1]
          exact congrArg _ ih.1
        · exact ih.1
      · split
        · simp only [List.map_cons, ← Multiset.cons_coe, LC.cl, h1]
          exact congrArg _ ih.2
        · exact ih.2
  obtain ⟨lr2, li2⟩ := liveEq _ hlits2 hred2 S
  obtain ⟨ctx', a3, L', e3, r3, q⟩ := deleteLoop_spec (F := F) (u := s.prop.unsat) D
    (ctx := { ctx with search := { ctx.search with reductions := ctx.search.reductions + 1 } })
    (L := L) r2 hDnd (by
      intro x hx
      obtain ⟨e, he, hc⟩ := List.mem_filterMap.1 (hDsub x hx)
      obtain ⟨c1, c2, c3, c4, _⟩ := candOf_some hc
      refine ⟨_, List.mem_map.2 ⟨e, he, rfl⟩, ?_, ?_, ?_⟩
      · rw [href2, c2]
      · unfold LC.live at *; rw [hlits2]; exact c3
      · rw [hred2]; exact c4) (by rw [lr2]; exact d.red) st.redundant hp
  obtain ⟨a4, e4, r4, b4⟩ := protectLoop_spec false steps r3 (by
    intro x hx c hc
    obtain ⟨e, he, rfl⟩ := hreas x hx c hc
    refine ⟨_, List.mem_map.2 ⟨_, List.mem_map.2 ⟨e, he, rfl⟩, rfl⟩, ?_⟩
    rw [(delE_spec _ _).1, href2])
  have hnotD : ∀ e : LC, isReason steps e.ref = true → e.ref ∉ D.map Prod.snd := by
    intro e hr hm
    obtain ⟨x, hx, hxr⟩ := List.mem_map.1 hm
    obtain ⟨y, hy, hc⟩ := List.mem_filterMap.1 (hDsub x hx)
    obtain ⟨c1, c2, _⟩ := candOf_some hc
    rw [← hxr, c2, c1] at hr
    simp at hr
  have hS' : ((S.map (visitE ∘ protE steps true)).map (delE (D.map Prod.snd))).map
      (protE steps false) = S.map (reduceE steps (D.map Prod.snd)) := by
    rw [List.map_map, List.map_map]
    apply List.map_congr_left
    intro e he
    simp only [Function.comp]
    by_cases hr : isReason steps e.ref = true
    · have p1 : protE steps true e = { e with hdr := e.hdr.setProt true } := by
        unfold protE; rw [if_pos hr]
      have p2 : visitE { e with hdr := e.hdr.setProt true } =
          { e with hdr := e.hdr.setProt true } := by
        unfold visitE visited
        simp [LongHeader.prot_setProt]
      have p3 : delE (D.map Prod.snd) { e with hdr := e.hdr.setProt true } =
          { e with hdr := e.hdr.setProt true } := by
        unfold delE
        rw [if_neg (hnotD e hr)]
      rw [p1, p2, p3]
      unfold reduceE protE
      simp only [hr, if_true]
      rw [LongHeader.setProt_setProt]
      have := LongHeader.setProt_self e.hdr
      rw [hn e he] at this
      rw [this]
    · have p1 : protE steps true e = e := by unfold protE; rw [if_neg hr]
      rw [p1]
      unfold reduceE
      rw [if_neg hr]
      unfold protE
      rw [if_neg]
      rw [(delE_spec _ _).1, visitE_ref]; exact hr
  rw [hS'] at r4
  have hlast : liveRed (S.map (reduceE steps (D.map Prod.snd))) =
        liveRed ((S.map (visitE ∘ protE steps true)).map (delE (D.map Prod.snd))) ∧
      liveIrr (S.map (reduceE steps (D.map Prod.snd))) =
        liveIrr ((S.map (visitE ∘ protE steps true)).map (delE (D.map Prod.snd))) := by
    rw [← hS']
    refine liveEq _ (protE_lits steps false) ?_ _
    intro e
    unfold protE; split
    · exact LongHeader.redundant_setProt _ _
    · rfl
  have q' : DelPost F L L' s.prop.unsat { ctx with
      search := { ctx.search with reductions := ctx.search.reductions + 1 } } ctx' S
      (S.map (reduceE steps (D.map Prod.snd))) :=
    ⟨hlast.1.trans q.red, by rw [hlast.2, q.irr, li2], q.split, q.proof, q.formula, q.search, q.prop⟩
  obtain ⟨K, hK, hK3⟩ := q'.split
  have hsmall : ∀ c : Multiset Lit, c.card < 3 → c ∈ F + L → c ∈ F + L' := by
    intro c hc hm
    rw [hK, Multiset.mem_add, Multiset.mem_add] at hm
    rw [Multiset.mem_add]
    rcases hm with hm | hm | hm
    · exact .inl hm
    · exact .inr hm
    · have := hK3 c hm; omega
  refine ⟨ctx', { s.prop with long := a4 }, L', D, _, ?_, ?_, ⟨a4, rfl⟩, by rw [hsteps, hD],
    by rw [hsteps], q', ?_, ?_⟩
  · unfold reduce
    simp only [hsteps]
    rw [e1, bind_ok, e2, bind_ok]
    simp only
    rw [hD, e3, bind_ok]
    simp only
    rw [e4, bind_ok]; rfl
  · refine h.setLong r4 ?_ ?_ ?_ ?_
    · intro i x hx
      have := h.reasons i x hx
      unfold ReasonOK at this ⊢
      cases hr : x.reason with
      | decision => rw [hr] at this; exact this
      | unit => rw [hr] at this; exact this
      | binary o => rw [hr] at this; exact this
      | long c =>
        rw [hr] at this
        obtain ⟨e, he, rfl, hrest⟩ := this
        have hm : x ∈ steps := by rw [← hsteps]; exact List.mem_iff_getElem?.2 ⟨i, hx⟩
        exact ⟨e, List.mem_map.2 ⟨e, he, reduceE_reason hm hr⟩, rfl, hrest⟩
    · constructor
      · intro e' he' hl
        obtain ⟨e, he, rfl⟩ := List.mem_map.1 he'
        obtain ⟨l1, l2⟩ := reduceE_live hl
        rw [l1, (reduceE_spec _ _ e).2.2.2.1]
        exact h.long.len e he l2
      · intro e' he' l hl
        obtain ⟨e, he, rfl⟩ := List.mem_map.1 he'
        rcases (reduceE_spec steps (D.map Prod.snd) e).2.1 with h1 | h1
        · rw [h1] at hl; exact h.long.idx e he l hl
        · rw [h1] at hl; simp at hl
    · constructor
      · intro l ws hl w hw
        obtain ⟨e, he, hr, h1⟩ := h.ws.mem l ws hl w hw
        refine ⟨_, List.mem_map.2 ⟨e, he, rfl⟩, ?_, ?_⟩
        · rw [(reduceE_spec _ _ e).1, hr]
        · intro hlv
          obtain ⟨l1, l2⟩ := reduceE_live hlv
          rw [l1]; exact h1 l2
      · intro l ws hl e' he' hlv
        obtain ⟨e, he, rfl⟩ := List.mem_map.1 he'
        obtain ⟨l1, l2⟩ := reduceE_live hlv
        rw [l1, (reduceE_spec _ _ e).1]
        exact h.ws.count l ws hl e he l2
    · intro e' he' hlv
      obtain ⟨e, he, rfl⟩ := List.mem_map.1 he'
      obtain ⟨l1, l2⟩ := reduceE_live hlv
      rw [l1]
      exact h.wsat e he l2
  · refine ⟨q'.red, by rw [q'.irr]; exact d.irr, ?_, d.fbin, ?_, ?_, d.fempty⟩
    · intro a b bs h1 h2
      exact hsmall _ (by simp) (d.bin a b bs h1 h2)
    · intro x hx hr
      rw [hsteps] at hx
      exact hsmall _ (by simp) (d.unit x hx hr)
    · rw [hsteps]; exact d.funit
  · have hb : (F + L).filter (fun c => c.card = 2) = (F + L').filter (fun c => c.card = 2) := by
      rw [hK, Multiset.filter_add, Multiset.filter_add, Multiset.filter_add]
      have : K.filter (fun c => c.card = 2) = 0 := by
        rw [Multiset.filter_eq_nil]
        intro c hc h2
        have := hK3 c hc
        omega
      rw [this]; simp
    rw [q'.formula]
    exact ⟨st.vars, by rw [← hb]; exact st.binary, st.stored, st.irredundant, rfl⟩

end

end Starlit
