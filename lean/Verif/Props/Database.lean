import Verif.Props.Analysis
import Verif.Props.Score

/-!
# C28, C29, C33, C35: reduction, garbage collection, watch lists and statistics
-/

namespace Starlit

section
variable {env : Env} {F : List (List Lit)} {s : Solver} {p p' : PropState} {cb : Callbacks}
  {n : Nat} {S : List LC}

/-! ## C28 -/

/-- The clauses that a reduction may delete, for the assignment of `p`: learned clauses that are not a
reason, with glue above 2, and not used since the last reduction unless the glue is above 5. -/
structure Expendable (p : PropState) (r : Nat) (h : LongHeader) (ls : List Lit) : Prop where
  stored : StoredAt p r h ls
  learned : h.redundant = true
  noReason : ∀ st ∈ p.trail.steps, st.reason ≠ .long r
  glue : 2 < h.glue
  unused : h.glue ≤ 5 → h.used = 0

theorem isReason_false {steps : List Step} {r : Nat} :
    isReason steps r = false ↔ ∀ st ∈ steps, st.reason ≠ .long r := by
  unfold isReason
  rw [List.any_eq_false]
  constructor
  · intro h st hs e; exact h st hs (by simp [e])
  · intro h st hs; simpa using h st hs

theorem candOf_of_expendable {steps : List Step} {e : LC} (hn : e.hdr.prot = false) (hl : e.live = true)
    (h1 : e.hdr.redundant = true) (h2 : isReason steps e.ref = false) (h3 : 2 < e.hdr.glue)
    (h4 : e.hdr.glue ≤ 5 → e.hdr.used = 0) : candOf steps e =
      some ((Score.ofClause (e.hdr.used - 1) e.hdr.glue e.lits.length).toNat, e.ref) := by
  unfold candOf candE visited
  rw [h2]
  simp only [Bool.false_eq_true, if_false]
  rw [if_pos]
  simp only [hl, hn, h1, Bool.not_false, Bool.and_true, Bool.true_and, Bool.and_eq_true,
    decide_eq_true_eq, Bool.not_eq_true', Bool.and_eq_false_iff, decide_eq_false_iff_not]
  refine ⟨h3, ?_⟩
  by_cases h5 : e.hdr.glue ≤ 5
  · left; rw [h4 h5]; omega
  · right; exact h5

theorem candOf_nodup {steps : List Step} (T : List LC) (hT : (T.map LC.ref).Nodup) :
    ((T.filterMap (candOf steps)).map Prod.snd).Nodup := by
  have key : ∀ T : List LC, (T.map LC.ref).Nodup →
      ((T.filterMap (candOf steps)).map Prod.snd).Nodup ∧
      ∀ x ∈ T.filterMap (candOf steps), x.2 ∈ T.map LC.ref := by
    intro T hT
    induction T with
    | nil => simp
    | cons e T ih =>
      simp only [List.map_cons, List.nodup_cons] at hT
      obtain ⟨i1, i2⟩ := ih hT.2
      rw [List.filterMap_cons]
      cases hc : candOf steps e with
      | none =>
        exact ⟨i1, fun x hx => by simp only [List.map_cons]; exact List.mem_cons_of_mem _ (i2 x hx)⟩
      | some y =>
        have := (candOf_some hc).2.1
        simp only [List.map_cons, List.nodup_cons]
        refine ⟨⟨?_, i1⟩, ?_⟩
        · rw [this]
          intro hm
          obtain ⟨z, hz, hzr⟩ := List.mem_map.1 hm
          exact hT.1 (hzr ▸ i2 z hz)
        · intro x hx
          rcases List.mem_cons.1 hx with rfl | hx
          · rw [this]; simp
          · exact List.mem_cons_of_mem _ (i2 x hx)
  exact (key T hT).1

theorem LongHeader.glue_lt (h : LongHeader) : h.glue < 64 := by
  unfold glue
  rw [HeaderWord.field_toNat (by decide)]
  exact Nat.mod_lt _ (by decide)

/-- C28: of the `k` expendable clauses a reduction deletes `k - 1 - k / 2`, none of which is less
expendable (by usage, glue and length) than a kept one.  All other clauses stay as they are, up to the
usage counter of clauses considered for deletion; none is protected afterwards.  Nothing else changes. -/
theorem C28_reduce (h : Solver.Reachable env F s) :
    ∃ ctx' s', reduce env s.ctx s.search = .ok (ctx', s') ∧
    ∃ cands del : List Nat, cands.Nodup ∧ del.Nodup ∧
      (∀ r, r ∈ cands ↔ ∃ hd ls, Expendable s.search.prop r hd ls) ∧
      (∀ r ∈ del, r ∈ cands) ∧ del.length = cands.length - 1 - cands.length / 2 ∧
      (∀ r hd ls, Expendable s.search.prop r hd ls → r ∉ del →
        ∀ r' hd' ls', Expendable s.search.prop r' hd' ls' → r' ∈ del →
          ¬ LessExpendable (hd'.used - 1, hd'.glue, ls'.length) (hd.used - 1, hd.glue, ls.length)) ∧
      (∀ r hd ls, StoredAt s.search.prop r hd ls → r ∉ del →
        StoredAt s'.prop r (if hd.redundant = true ∧ 2 < hd.glue ∧ 0 < hd.used ∧
          (∀ st ∈ s.search.prop.trail.steps, st.reason ≠ .long r) then hd.setUsed (hd.used - 1) else hd)
          ls) ∧
      (∀ r hd' ls, StoredAt s'.prop r hd' ls → r ∉ del ∧ hd'.prot = false ∧
        ∃ hd, StoredAt s.search.prop r hd ls) ∧
      s'.prop = { s.search.prop with long := s'.prop.long } ∧ s'.cb = s.search.cb := by
  obtain ⟨L, S, hi⟩ := h.inv
  obtain ⟨ctx', s', L', D, S', e, hi', q, hcb, _⟩ := reduce_inv hi
  refine ⟨ctx', s', e, ?_⟩
  have rep := hi.prop.rep
  have rep' := hi'.prop.rep
  generalize hsteps : s.search.prop.trail.steps = steps at *
  have qd : D = higher env (S.filterMap (candOf steps)) := by rw [← hsteps]; exact q.deleted
  have qc : S' = S.map (reduceE steps (D.map Prod.snd)) := by rw [← hsteps]; exact q.clauses
  obtain ⟨low, hperm, hlen, hle⟩ := higher_spec env (S.filterMap (candOf steps))
  rw [← qd] at hperm hlen hle
  have cand : ∀ x ∈ S.filterMap (candOf steps), ∃ e ∈ S, e.live = true ∧ e.ref = x.2 ∧
      x.1 = (Score.ofClause (e.hdr.used - 1) e.hdr.glue e.lits.length).toNat ∧
      Expendable s.search.prop x.2 e.hdr e.lits := by
    intro x hx
    obtain ⟨e, he, hc⟩ := List.mem_filterMap.1 hx
    obtain ⟨c1, c2, c3, c4, c5, c6, c7⟩ := candOf_some hc
    refine ⟨e, he, c3, c2.symm, c7, ?_, c4, ?_, c5, c6⟩
    · exact rep.storedAt_iff.2 ⟨e, he, c3, c2.symm, rfl, rfl⟩
    · rw [c2, hsteps]; exact isReason_false.1 c1
  have cand' : ∀ r hd ls, Expendable s.search.prop r hd ls →
      ((Score.ofClause (hd.used - 1) hd.glue ls.length).toNat, r) ∈ S.filterMap (candOf steps) := by
    intro r hd ls hx
    obtain ⟨e, he, hl, rfl, rfl, rfl⟩ := rep.storedAt_iff.1 hx.stored
    refine List.mem_filterMap.2 ⟨e, he, candOf_of_expendable (hi.noprot e he) hl hx.learned ?_ hx.glue
      hx.unused⟩
    rw [isReason_false, ← hsteps]; exact hx.noReason
  have hnd := candOf_nodup (steps := steps) S rep.nodup
  have hnd2 := ((hperm.map Prod.snd).nodup_iff.2 hnd)
  rw [List.map_append, List.nodup_append] at hnd2
  have hDc : ∀ x ∈ D, x ∈ S.filterMap (candOf steps) := fun x hx => hperm.mem_iff.1 (by simp [hx])
  -- the score found for a reference is the score of the clause
  have score : ∀ r hd ls, Expendable s.search.prop r hd ls → ∀ x ∈ S.filterMap (candOf steps), x.2 = r →
      x.1 = (Score.ofClause (hd.used - 1) hd.glue ls.length).toNat := by
    intro r hd ls hx x hxm hxr
    obtain ⟨e, he, _, h1, h2, _⟩ := cand x hxm
    obtain ⟨e', he', _, h1', rfl, rfl⟩ := rep.storedAt_iff.1 hx.stored
    rw [rep.unique he he' (by rw [h1, hxr, h1'])] at h2
    exact h2
  refine ⟨(S.filterMap (candOf steps)).map Prod.snd, D.map Prod.snd, hnd, hnd2.2.1, ?_, ?_, ?_, ?_, ?_,
    ?_, ?_, hcb⟩
  · intro r
    constructor
    · intro hr
      obtain ⟨x, hx, rfl⟩ := List.mem_map.1 hr
      obtain ⟨e, _, _, _, _, h3⟩ := cand x hx
      exact ⟨_, _, h3⟩
    · rintro ⟨hd, ls, hx⟩
      exact List.mem_map.2 ⟨_, cand' r hd ls hx, rfl⟩
  · intro r hr
    obtain ⟨x, hx, rfl⟩ := List.mem_map.1 hr
    exact List.mem_map.2 ⟨x, hDc x hx, rfl⟩
  · simp only [List.length_map]; omega
  · intro r hd ls hx hr r' hd' ls' hx' hr'
    obtain ⟨y, hy, rfl⟩ := List.mem_map.1 hr'
    have hlow : ((Score.ofClause (hd.used - 1) hd.glue ls.length).toNat, r) ∈ low := by
      have := hperm.mem_iff.2 (cand' r hd ls hx)
      rcases List.mem_append.1 this with h1 | h1
      · exact h1
      · exact absurd (List.mem_map.2 ⟨_, h1, rfl⟩) hr
    have hcmp := hle _ hlow y hy
    have hys := score _ _ _ hx' y (hDc y hy) rfl
    rw [candLe, decide_eq_true_eq, hys] at hcmp
    have u1 := hd.used_lt
    have u2 := hd'.used_lt
    rw [← (C30_score_order _ _ _ _ _ _ (by omega) hd'.glue_lt (by omega) hd.glue_lt).1, BitVec.lt_def]
    omega
  · intro r hd ls hx hr
    obtain ⟨e, he, hl, rfl, rfl, rfl⟩ := rep.storedAt_iff.1 hx
    refine rep'.storedAt_iff.2 ⟨reduceE steps (D.map Prod.snd) e, ?_, ?_⟩
    · rw [qc]; exact List.mem_map.2 ⟨e, he, rfl⟩
    unfold reduceE
    by_cases hreas : isReason steps e.ref = true
    · rw [if_pos hreas, if_neg (by rw [← isReason_false, hreas]; simp)]
      exact ⟨hl, rfl, rfl, rfl⟩
    · rw [if_neg hreas]
      have hdel : delE (D.map Prod.snd) (visitE e) = visitE e := by
        unfold delE
        rw [if_neg (by rw [visitE_ref]; exact hr)]
      rw [hdel]
      have hlits := visitE_lits e
      refine ⟨by unfold LC.live; rw [hlits]; exact hl, visitE_ref e, ?_, hlits⟩
      unfold visitE visited
      have hnp := hi.noprot e he
      have hreas : isReason steps e.ref = false := by simpa using hreas
      by_cases hc : e.hdr.redundant = true ∧ 2 < e.hdr.glue ∧ 0 < e.hdr.used
      · rw [if_pos (by simp [hl, hnp, hc]), if_pos ⟨hc.1, hc.2.1, hc.2.2, isReason_false.1 hreas⟩]
      · rw [if_neg, if_neg (fun h => hc ⟨h.1, h.2.1, h.2.2.1⟩)]
        intro h
        simp only [Bool.and_eq_true, decide_eq_true_eq] at h
        exact hc ⟨h.1.1.2, h.1.2, h.2⟩
  · intro r hd' ls hx
    obtain ⟨e', he', hl, rfl, rfl, rfl⟩ := rep'.storedAt_iff.1 hx
    have hp' := hi'.noprot e' he'
    rw [qc] at he'
    obtain ⟨e, he, rfl⟩ := List.mem_map.1 he'
    obtain ⟨h1, h2⟩ := reduceE_live hl
    have hr := (reduceE_spec steps (D.map Prod.snd) e).1
    refine ⟨?_, hp', e.hdr, rep.storedAt_iff.2 ⟨e, he, h2, hr.symm, rfl, h1.symm⟩⟩
    rw [hr]
    intro hm
    obtain ⟨y, hy, hye⟩ := List.mem_map.1 hm
    obtain ⟨e2, he2, _, h3, _, h4⟩ := cand y (hDc y hy)
    have hnr : isReason steps e.ref = false := by
      rw [isReason_false, ← hsteps, ← hye]; exact h4.noReason
    unfold reduceE at hl
    rw [hnr] at hl
    simp only [Bool.false_eq_true, if_false] at hl
    unfold delE at hl
    rw [if_pos (by rw [visitE_ref]; exact hm)] at hl
    simp [LC.live] at hl
  · obtain ⟨a, ha⟩ := q.eq
    rw [ha]

/-! ## C33 -/

/-- Each long clause has one watch at each of its first two literals, and no others; blocking literals
are other literals of the clause (at another position, when a literal is repeated). -/
def WatchesMirror (p : PropState) : Prop :=
  ∀ r h ls, StoredAt p r h ls → ∃ a b rest, ls = a :: b :: rest ∧
    ∀ (l : Lit) ws, p.watches.byLit[l.code]? = some ws →
      (ws.filter (fun w => decide (w.clause = r))).length = [a, b].count l ∧
      ∀ w ∈ ws, w.clause = r → w.blocking ∈ ls.erase l

theorem watchesMirror_of (rep : LRep p.long S) (lok : LongOK n S)
    (ws : WatchStruct S p.watches.byLit) : WatchesMirror p := by
  intro r h ls hx
  obtain ⟨e, he, hl, rfl, rfl, rfl⟩ := rep.storedAt_iff.1 hx
  obtain ⟨h3, _⟩ := lok.len e he hl
  match hls : e.lits, h3 with
  | a :: b :: rest, _ =>
    refine ⟨a, b, rest, rfl, ?_⟩
    intro l v hv
    have := ws.count l v hv e he hl
    rw [hls] at this
    refine ⟨?_, ?_⟩
    · rw [← List.countP_eq_length_filter]; exact this
    · intro w hw hwr
      obtain ⟨e', he', hr', hm⟩ := ws.mem l v hv w hw
      have : e' = e := rep.unique he' he (hr'.trans hwr)
      subst this
      have := (hm hl).2
      rwa [hls] at this

/-- C33: the watch lists mirror the clauses in all visited states, and after garbage collection. -/
theorem C33_watch_lists (h : Solver.Visited env F p cb) : WatchesMirror p ∧
    ∀ p', collectGarbage p = .ok p' → WatchesMirror p' := by
  obtain ⟨S, hi, _⟩ := h.inv
  refine ⟨watchesMirror_of hi.rep hi.long hi.ws, ?_⟩
  intro p' e
  rcases (collectGarbage_spec hi).ok_elim e with rfl | ⟨ρ, hg⟩
  · exact watchesMirror_of hi.rep hi.long hi.ws
  · exact watchesMirror_of hg.inv.rep hg.inv.long hg.inv.ws

theorem WatchStruct.dead {B : List (List Watch)} {d : List LC} (hd : ∀ x ∈ d, x.live = false)
    {pre : List LC} (h : WatchStruct pre B) : WatchStruct (pre ++ d) B := by
  constructor
  · intro l ws hw w hm
    obtain ⟨e, he, h1⟩ := h.mem l ws hw w hm
    exact ⟨e, by simp [he], h1⟩
  · intro l ws hw e he hl
    rcases List.mem_append.1 he with he | he
    · exact h.count l ws hw e he hl
    · rw [hd e he] at hl; simp at hl

theorem rebuildLoop_spec {a : Arena} (h : LRep a S) (lok : LongOK n S) : ∀ (fuel : Nat)
    {pre post : List LC} {it : Option Nat} {w : Watches}, S = pre ++ post →
    Long.next a it = .ok (LRep.firstRef post) → post.length < fuel → w.enabled = true →
    w.byLit.length = n * 2 → WatchStruct pre w.byLit → BlkOK n w.byLit →
    ∃ w', rebuildLoop a fuel w it = .ok w' ∧ w'.enabled = true ∧ w'.byLit.length = n * 2 ∧
      WatchStruct S w'.byLit ∧ BlkOK n w'.byLit := by
  intro fuel
  induction fuel with
  | zero => intros; omega
  | succ fuel ih =>
    intro pre post it w hS hn hf hen hlen hws hblk
    unfold rebuildLoop
    rw [hn, bind_ok]
    cases hr : LRep.firstRef post with
    | none =>
      refine ⟨w, rfl, hen, hlen, ?_, hblk⟩
      rw [hS]; exact hws.dead (firstRef_none hr)
    | some r =>
      obtain ⟨d, e, rest, rfl, hd, hl, rfl⟩ := firstRef_split hr
      have hS' : S = (pre ++ d) ++ e :: rest := by rw [hS]; simp
      have he : e ∈ S := by rw [hS']; simp
      obtain ⟨h3, _⟩ := lok.len e he hl
      have hidx := lok.idx e he
      match hls : e.lits, h3 with
      | x :: y :: tl, _ =>
        rw [hls] at hidx
        have hne : ∀ z ∈ pre ++ d, z.ref ≠ e.ref := by
          intro z hz hze
          have := h.nodup
          rw [hS', List.map_append, List.nodup_append] at this
          exact this.2.2 z.ref (List.mem_map.2 ⟨z, hz, rfl⟩) e.ref (by simp) hze
        obtain ⟨w', e1, e2, e3, e4, e5⟩ := watchClause_spec hen hlen (hws.dead hd) hblk hls
          (hidx x (by simp)) (hidx y (by simp)) hne
        obtain ⟨w2, e6, e7⟩ := ih (pre := pre ++ d ++ [e]) (post := rest) (it := some e.ref) (w := w')
          (by rw [hS']; simp) (h.next_some hS') (by simp at hf; omega) e2 e3 e4 e5
        refine ⟨w2, ?_, e7⟩
        have i0 : idx (x :: y :: tl) 0 = .ok x := idx_ok (by simp)
        have i1 : idx (x :: y :: tl) 1 = .ok y := idx_ok (by simp)
        simp only [h.lits_ok he, hls, bind_ok, i0, i1, e1]
        exact e6

/-- C33, rebuilding: disabling the watch lists clears them, enabling them again makes them mirror the
clauses and changes nothing else. -/
theorem C33_rebuild (h : Solver.Visited env F p cb) : ∃ p1 p2,
    enableWatchLists p false = .ok p1 ∧ (∀ ws ∈ p1.watches.byLit, ws = []) ∧
    enableWatchLists p1 true = .ok p2 ∧ WatchesMirror p2 ∧
    p2 = { p with watches := p2.watches } ∧ p2.watches.enabled = true := by
  obtain ⟨S, hi, _⟩ := h.inv
  refine ⟨{ p with watches := ⟨p.watches.byLit.map (fun _ => []), false⟩ }, ?_⟩
  have hempty : ∀ ws ∈ p.watches.byLit.map (fun _ => ([] : List Watch)), ws = [] := by
    intro ws hw
    obtain ⟨_, _, rfl⟩ := List.mem_map.1 hw
    rfl
  obtain ⟨w', e, h1, h2, h3, _⟩ := rebuildLoop_spec hi.rep hi.long (p.long.buffer.length + 1) (pre := [])
    (post := S) (it := none) (w := ⟨p.watches.byLit.map (fun _ => []), true⟩) rfl hi.rep.next_none
    (by have := hi.rep.length_le_buffer; omega) rfl (by simp [hi.sized.wat]) ⟨by
      intro l ws hws w hw
      rw [hempty ws (List.mem_iff_getElem?.2 ⟨_, hws⟩)] at hw
      simp at hw, by intro l ws hws e he; simp at he⟩ (by
      intro ws hws w hw
      rw [hempty ws hws] at hw
      simp at hw)
  refine ⟨{ p with watches := w' }, ?_, hempty, ?_, watchesMirror_of hi.rep hi.long h3, rfl, h1⟩
  · simp [enableWatchLists, hi.enabled, Watches.clear]
    rfl
  · simp only [enableWatchLists, Bool.false_eq_true, if_false, if_true]
    rw [e, bind_ok]
    rfl

/-! ## C29 -/

/-- C29: garbage collection renames references to clauses.  The clauses with their headers, the order of
their literals, the assignment, the trail with its levels and the binary clauses stay the same; each
reason clause is kept, and the watch lists only contain references to stored clauses afterwards. -/
theorem C29_garbage_collection (h : Solver.Visited env F p cb) (e : collectGarbageNow p = .ok p') :
    ∃ ρ : Nat → Option Nat,
      (∀ r hd ls, StoredAt p r hd ls → ∃ r', ρ r = some r' ∧ StoredAt p' r' hd ls) ∧
      (∀ r' hd ls, StoredAt p' r' hd ls → ∃ r, ρ r = some r' ∧ StoredAt p r hd ls) ∧
      (∀ (i : Nat) (st : Step), p.trail.steps[i]? = some st → ∃ st' : Step, p'.trail.steps[i]? = some st' ∧
        st'.lit = st.lit ∧ st'.level = st.level ∧ p'.reasonLits st'.reason = p.reasonLits st.reason ∧
        ((∀ c, st.reason ≠ .long c) → st'.reason = st.reason) ∧
        (∀ c, st.reason = .long c → ∃ c', ρ c = some c' ∧ st'.reason = .long c')) ∧
      p'.trail = { p.trail with steps := p'.trail.steps } ∧
      p'.trail.steps.length = p.trail.steps.length ∧
      p'.values = p.values ∧ p'.binary = p.binary ∧ p'.unsat = p.unsat ∧ WatchesMirror p' ∧
      ∀ ws ∈ p'.watches.byLit, ∀ w ∈ ws, ∃ hd ls, StoredAt p' w.clause hd ls := by
  obtain ⟨S, hi, _⟩ := h.inv
  obtain ⟨ρ, hg⟩ := (collectGarbageNow_spec hi).ok_elim e
  obtain ⟨a, he⟩ := hg.eq
  have hst : p'.trail.steps = p.trail.steps.map (Step.ren ρ) := by rw [he]
  refine ⟨ρ, ?_, ?_, ?_, by rw [he], by rw [hst]; simp, by rw [he], by rw [he], by rw [he],
    watchesMirror_of hg.inv.rep hg.inv.long hg.inv.ws, ?_⟩
  · intro r hd ls hst
    obtain ⟨x, hx, hl, rfl, rfl, rfl⟩ := hi.rep.storedAt_iff.1 hst
    have hs := hg.live x hx
    rw [hl, Option.isSome_iff_exists] at hs
    obtain ⟨r', hr⟩ := hs
    refine ⟨r', hr, hg.inv.rep.storedAt_iff.2 ⟨_, mem_renS.2 ⟨x, hx, r', hr, rfl⟩, ?_, rfl, rfl, rfl⟩⟩
    exact hl
  · intro r' hd ls hst
    obtain ⟨y, hy, hl, rfl, rfl, rfl⟩ := hg.inv.rep.storedAt_iff.1 hst
    obtain ⟨x, hx, r, hr, rfl⟩ := mem_renS.1 hy
    exact ⟨x.ref, hr, hi.rep.storedAt_iff.2 ⟨x, hx, hl, rfl, rfl, rfl⟩⟩
  · intro i st hs
    refine ⟨st.ren ρ, by rw [hst, List.getElem?_map, hs]; rfl, rfl, rfl, ?_⟩
    have ok := hi.reasons i st hs
    unfold ReasonOK at ok
    show p'.reasonLits (st.reason.ren ρ) = _ ∧ (_ → st.reason.ren ρ = _) ∧
      ∀ c, _ → ∃ c', _ ∧ st.reason.ren ρ = _
    cases hr : st.reason with
    | decision => exact ⟨rfl, fun _ => rfl, by simp⟩
    | unit => exact ⟨rfl, fun _ => rfl, by simp⟩
    | binary o => exact ⟨rfl, fun _ => rfl, by simp⟩
    | long c =>
      rw [hr] at ok
      obtain ⟨x, hx, rfl, rest, hl, _⟩ := ok
      have hs := hg.live x hx
      rw [show x.live = true from LC.live_iff.2 (by rw [hl]; simp), Option.isSome_iff_exists] at hs
      obtain ⟨r', hr'⟩ := hs
      have e1 : Reason.ren ρ (.long x.ref) = .long r' := by simp [Reason.ren, hr']
      have l1 := hi.rep.lits_ok hx
      have l2 := hg.inv.rep.lits_ok (mem_renS.2 ⟨x, hx, r', hr', rfl⟩)
      refine ⟨?_, ?_, ?_⟩
      · rw [e1]
        simp only at l2
        simp only [PropState.reasonLits, l1, l2]
      · intro hn; exact absurd rfl (hn x.ref)
      · intro c hc
        cases hc
        exact ⟨r', hr', e1⟩
  · intro ws hws w hw
    obtain ⟨i, hi'⟩ := List.mem_iff_getElem?.1 hws
    have hlt := (List.getElem?_eq_some_iff.1 hi').1
    rw [hg.inv.sized.wat] at hlt
    have hn := hg.inv.sized.n_le
    rw [MAX_INDEX_eq] at hn
    obtain ⟨l, rfl⟩ := Lit.exists_code (c := i) (by omega)
    obtain ⟨y, hy, hr, _⟩ := hg.inv.ws.mem l ws hi' w hw
    obtain ⟨x, hx, r, hr', rfl⟩ := mem_renS.1 hy
    have hl := hg.live x hx
    rw [hr'] at hl
    exact ⟨_, _, hg.inv.rep.storedAt_iff.2 ⟨_, hy, hl.symm, hr, rfl, rfl⟩⟩

/-- C29: `collect_garbage` does this or nothing; it can only fail for arenas of `2^32` words. -/
theorem C29_collect_garbage (h : Solver.Visited env F p cb) :
    (∃ p', collectGarbage p = .ok p' ∧ (p' = p ∨ collectGarbageNow p = .ok p')) ∨
    2 ^ 32 ≤ p.long.buffer.length := by
  obtain ⟨S, hi, _⟩ := h.inv
  unfold collectGarbage
  split
  · by_cases hb : p.long.buffer.length < 2 ^ 32
    · left
      have w := collectGarbageNow_spec hi
      have : ∃ p', collectGarbageNow p = .ok p' := by
        obtain ⟨a', gaps, e1, ρ, hg, hl, _⟩ := hi.rep.gc_ok hb
        cases hx : collectGarbageNow p with
        | ok p' => exact ⟨p', rfl⟩
        | error er =>
          exfalso
          have e2 := updateSteps_spec hg hl p.trail.steps (by
            intro st hs c hc
            obtain ⟨i, hi'⟩ := List.mem_iff_getElem?.1 hs
            have := hi.reasons i st hi'
            unfold ReasonOK at this
            rw [hc] at this
            obtain ⟨x, hx, hr, rest, hl, _⟩ := this
            exact ⟨x, hx, hr, LC.live_iff.2 (by rw [hl]; simp)⟩)
          have e3 := updateAll_spec hg p.watches.byLit (by
            intro ws hws v hv
            obtain ⟨i, hi'⟩ := List.mem_iff_getElem?.1 hws
            have hlt := (List.getElem?_eq_some_iff.1 hi').1
            rw [hi.sized.wat] at hlt
            have hn := hi.sized.n_le
            rw [MAX_INDEX_eq] at hn
            obtain ⟨l, rfl⟩ := Lit.exists_code (c := i) (by omega)
            obtain ⟨y, hy, hr, _⟩ := hi.ws.mem l ws hi' v hv
            exact ⟨y, hy, hr⟩)
          unfold collectGarbageNow at hx
          rw [if_pos hb, e1, bind_ok] at hx
          simp only [e2, e3, debugM_ok hi.enabled, bind_ok] at hx
          cases hx
      obtain ⟨p', hp⟩ := this
      exact ⟨p', hp, .inr hp⟩
    · right; omega
  · exact .inl ⟨p, rfl, .inl rfl⟩

/-- The hypotheses of C28, C29, C33 and C35 are met by a run with clause deletions: the next reduction
deletes the clause at 91, and a collection moves the reason at 131 to 114. -/
theorem C29_example : ∃ s ctx' s' p', Solver.Reachable Example.envReduce
      (Example.cnf (Example.php 5 4)) s ∧
    Long.refs s.search.prop.long = .ok [0, 7, 14, 21, 28, 35, 43, 50, 58, 67, 75, 83, 91, 116, 124, 131] ∧
    reduce Example.envReduce s.ctx s.search = .ok (ctx', s') ∧
    Long.refs s'.prop.long = .ok [0, 7, 14, 21, 28, 35, 43, 50, 58, 67, 75, 83, 116, 124, 131] ∧
    collectGarbageNow s.search.prop = .ok p' ∧
    Long.refs p'.long = .ok [0, 7, 14, 21, 28, 35, 43, 50, 58, 67, 75, 83, 91, 99, 107, 114] ∧
    s.search.prop.trail.steps.map Step.reason = [.decision, .binary (Example.lit 1), .decision,
      .long 131, .binary (Example.lit (-3)), .binary (Example.lit (-3)), .binary (Example.lit (-3)), .decision] ∧
    p'.trail.steps.map Step.reason = [.decision, .binary (Example.lit 1), .decision,
      .long 114, .binary (Example.lit (-3)), .binary (Example.lit (-3)), .binary (Example.lit (-3)), .decision] := by
  have h : (do
      let (s, _) ← Example.runReduce (Example.php 5 4) 34
      let p ← collectGarbageNow s.search.prop
      let r ← reduce Example.envReduce s.ctx s.search
      pure ((Long.refs s.search.prop.long, Long.refs r.2.prop.long, Long.refs p.long),
        s.search.prop.trail.steps.map Step.reason, p.trail.steps.map Step.reason) :
        M ((M (List Nat) × M (List Nat) × M (List Nat)) × List Reason × List Reason)) =
      .ok ((.ok [0, 7, 14, 21, 28, 35, 43, 50, 58, 67, 75, 83, 91, 116, 124, 131],
        .ok [0, 7, 14, 21, 28, 35, 43, 50, 58, 67, 75, 83, 116, 124, 131],
        .ok [0, 7, 14, 21, 28, 35, 43, 50, 58, 67, 75, 83, 91, 99, 107, 114]),
        [.decision, .binary (Example.lit 1), .decision, .long 131, .binary (Example.lit (-3)),
          .binary (Example.lit (-3)), .binary (Example.lit (-3)), .decision],
        [.decision, .binary (Example.lit 1), .decision, .long 114, .binary (Example.lit (-3)),
          .binary (Example.lit (-3)), .binary (Example.lit (-3)), .decision]) := by
    set_option synthInstance.maxSize 1000 in decide +kernel
  obtain ⟨⟨s, r⟩, h1, h2⟩ := bind_eq_ok.1 h
  obtain ⟨p', h3, h2⟩ := bind_eq_ok.1 h2
  obtain ⟨⟨ctx', s'⟩, h4, h2⟩ := bind_eq_ok.1 h2
  have h2 := Except.ok.inj h2
  simp only [Prod.mk.injEq] at h2
  obtain ⟨⟨h5, h6, h7⟩, h8, h9⟩ := h2
  exact ⟨s, ctx', s', p', Example.runReduce_reachable (by decide +kernel) h1, h5, h4, h6, h3, h7, h8, h9⟩

/-! ## C35 -/

theorem card_liveRed (S : List LC) : (liveRed S).card =
    (S.filter (fun e => e.live && e.hdr.redundant)).length := by simp [liveRed]

theorem card_liveIrr (S : List LC) : (liveIrr S).card =
    (S.filter (fun e => e.live && !e.hdr.redundant)).length := by simp [liveIrr]

/-- C35: the statistics of the formula are exact.  Each binary clause is stored in two lists. -/
theorem C35_formula_stats (h : Solver.Reachable env F s) :
    s.ctx.formula.vars = formulaVars F ∧
    (s.search.prop.binary.map List.length).sum = 2 * s.ctx.formula.binary ∧
    s.ctx.formula.irredundant = (F.filter (fun c => decide (3 ≤ c.length))).length ∧
    ∃ rs irr red : List Nat, Long.refs s.search.prop.long = .ok rs ∧ (irr ++ red).Perm rs ∧
      irr.length = s.ctx.formula.irredundant ∧ red.length = s.ctx.formula.redundant ∧
      (∀ r ∈ irr, ∃ hd, Long.header s.search.prop.long r = .ok hd ∧ hd.redundant = false) ∧
      (∀ r ∈ red, ∃ hd, Long.header s.search.prop.long r = .ok hd ∧ hd.redundant = true) := by
  obtain ⟨L, S, hi⟩ := h.inv
  refine ⟨hi.stats.vars, hi.stats.stored, ?_, _, (S.filter (fun e => e.live && !e.hdr.redundant)).map
    LC.ref, (S.filter (fun e => e.live && e.hdr.redundant)).map LC.ref, hi.prop.rep.refs, ?_, ?_, ?_, ?_,
    ?_⟩
  · rw [hi.stats.irredundant]
    unfold toDB
    rw [Multiset.filter_coe, Multiset.coe_card, List.filter_map, List.length_map]
    congr 1
  · rw [← List.map_append]
    apply List.Perm.map
    have := List.filter_append_perm (fun e : LC => !e.hdr.redundant) (S.filter LC.live)
    rw [List.filter_filter, List.filter_filter] at this
    convert this using 3 <;> (funext e; simp [Bool.and_comm])
  · rw [List.length_map, ← card_liveIrr, hi.db.irr, hi.stats.irredundant]
  · rw [List.length_map, ← card_liveRed, hi.db.red, hi.stats.redundant]
  · intro r hr
    obtain ⟨e, he, rfl⟩ := List.mem_map.1 hr
    obtain ⟨he, h1⟩ := List.mem_filter.1 he
    refine ⟨e.hdr, hi.prop.rep.header_ok he, ?_⟩
    simp only [Bool.and_eq_true, Bool.not_eq_true'] at h1
    exact h1.2
  · intro r hr
    obtain ⟨e, he, rfl⟩ := List.mem_map.1 hr
    obtain ⟨he, h1⟩ := List.mem_filter.1 he
    refine ⟨e.hdr, hi.prop.rep.header_ok he, ?_⟩
    simp only [Bool.and_eq_true] at h1
    exact h1.2

end

end Starlit
