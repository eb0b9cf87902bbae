import Verif.Props.Activity

/-!
# C51: what conflicts do to clause headers
-/

namespace Starlit

theorem numLevels_le (steps : List Step) (ls : List Lit) : numLevels steps ls ≤ ls.length := by
  unfold numLevels
  exact (List.toFinset_card_le _).trans (by simp)

theorem used_le (hd : LongHeader) : hd.used ≤ 3 := by
  unfold LongHeader.used HeaderWord.field USED_WIDTH
  rw [BitVec.toNat_and]
  exact Nat.and_le_right

theorem bumped_view {hd : LongHeader} {g : Nat} (hg : g < 2 ^ 32) :
    (hd.bumped g).view = { hd.view with glue := min g 63, used := min (hd.view.used + 1) 3 } := by
  have h1 := (C21_header_fields hd).2.2.1 g hg
  have hu : (hd.setGlue g).used = hd.view.used := by
    have := congrArg HeaderView.used h1
    exact this
  have hlt : (hd.setGlue g).used + 1 < 2 ^ 32 := by
    have h2 : (hd.setGlue g).used ≤ 3 := used_le _
    omega
  have h2 := (C21_header_fields (hd.setGlue g)).2.2.2.1 _ hlt
  unfold LongHeader.bumped
  rw [h2, h1, hu]

section
variable {env : Env} {F : List (List Lit)} {s : Solver} {p1 p : PropState} {ctx1 ctx : Ctx}
  {c : ConflictClause} {search : Search} {r : Option Bool}

/-- C51: a conflict above the top level updates the headers of the long clauses it was derived from — the
falsified clause and the reasons resolved with — once each: the glue becomes the number of different
levels of their literals, and the usage counter is incremented, up to the largest value the fields can
hold.  No other clause changes, and the learned clause gets the number of levels of its literals after
backtracking as glue and 1 as usage counter. -/
theorem C51_headers (h : Solver.Propagating env F s p1 ctx1 p (some c))
    (h0 : p.trail.decisionLevel ≠ 0) (e : searchStep env s.ctx s.search = .ok (ctx, search, r)) :
    ∃ (conf : List Lit) (xs used : List Nat) (u : Nat) (st : Step), c.lits p = .ok conf ∧
      p.trail.steps[u]? = some st ∧ search.analysis.derivedClause.head? = some st.lit.neg ∧
      Involved p conf (u + 1) xs ∧
      (∀ r, r ∈ used ↔ c = .long r ∨ ∃ (i : Nat) (s : Step), u < i ∧ p.trail.steps[i]? = some s ∧
        s.lit.index ∈ xs ∧ s.reason = .long r) ∧
      (∀ r hd ls, StoredAt p r hd ls → ∃ hd', StoredAt search.prop r hd' ls ∧
        hd'.view = if r ∈ used then { hd.view with
          glue := min (numLevels p.trail.steps ls) 63
          used := min (hd.view.used + 1) 3 } else hd.view) ∧
      ∃ learned, (∀ r hd' ls, StoredAt search.prop r hd' ls → (∃ hd, StoredAt p r hd ls) ∨
          2 < search.analysis.derivedClause.length ∧ r = learned) ∧
        (2 < search.analysis.derivedClause.length → (∀ hd ls, ¬ StoredAt p learned hd ls) ∧
          ∃ hd', StoredAt search.prop learned hd' search.analysis.derivedClause ∧
            hd'.view = ⟨true, false, min (numLevels p.trail.steps search.analysis.derivedClause.tail) 63,
              1, 0⟩) := by
  obtain ⟨ctx', an, p', cb, ea, rfl⟩ := searchStep_conflict h h0 e
  obtain ⟨L, S, S2, hi, q⟩ := h.phase
  obtain ⟨conf, xs, h1, _, _, _, _, u, st, h6, h7, h8, ⟨B, S', h9, h10, h11⟩, _⟩ :=
    analyzeConflict_act q.inv q.inv.storedInv hi.an hi.min hi.cb (q.conflict _ rfl) h0 ea
  have hp : PInv _ S2 p := q.inv
  have hst : ∀ {r : Nat} {hd : LongHeader} {ls : List Lit}, StoredAt p r hd ls ↔
      ∃ e ∈ S2, e.live = true ∧ e.ref = r ∧ e.hdr = hd ∧ e.lits = ls := hp.rep.storedAt_iff
  have hst' : ∀ {r : Nat} {hd : LongHeader} {ls : List Lit}, StoredAt p' r hd ls ↔
      ∃ e ∈ S', e.live = true ∧ e.ref = r ∧ e.hdr = hd ∧ e.lits = ls := h10.rep.storedAt_iff
  have hold : ∀ e ∈ bumpS p.trail.steps S2 B, e ∈ S' := by
    intro e he
    rcases h11 with ⟨_, h⟩ | ⟨_, r, h⟩
    · rw [h]; exact he
    · rw [h]; simp [he]
  refine ⟨conf, xs, B, u, st, h1, h6, h7, h8, ?_, ?_, ?_⟩
  · intro r
    rw [h9 r]
    refine or_congr ?_ (exists_congr fun i => exists_congr fun y => ?_)
    · cases c with
      | binary a b => simp [ConflictClause.refs]
      | long c => simp [ConflictClause.refs, eq_comm]
    · refine and_congr Iff.rfl (and_congr_right fun _ => and_congr_right fun _ => ?_)
      cases y.reason <;> simp [Reason.refs, eq_comm]
  · intro r hd ls hs
    obtain ⟨e, he, hl, rfl, rfl, rfl⟩ := hst.1 hs
    have hlen := hp.rep.len_lt he
    have hm : (if e.ref ∈ B then { e with hdr := e.hdr.bumped (numLevels p.trail.steps e.lits) } else e) ∈
        bumpS p.trail.steps S2 B := List.mem_map_of_mem he
    by_cases hB : e.ref ∈ B
    · rw [if_pos hB] at hm
      refine ⟨_, hst'.2 ⟨_, hold _ hm, hl, rfl, rfl, rfl⟩, ?_⟩
      rw [if_pos hB, bumped_view]
      have := numLevels_le p.trail.steps e.lits
      omega
    · rw [if_neg hB] at hm
      exact ⟨_, hst'.2 ⟨_, hold _ hm, hl, rfl, rfl, rfl⟩, by rw [if_neg hB]⟩
  · have hback : ∀ e ∈ bumpS p.trail.steps S2 B, e.live = true →
        ∃ hd, StoredAt p e.ref hd e.lits := by
      intro e he hl
      obtain ⟨x, hx, rfl⟩ := List.mem_map.1 he
      refine ⟨x.hdr, hst.2 ⟨x, hx, ?_, ?_, rfl, ?_⟩⟩
      · revert hl; split <;> exact id
      · split <;> rfl
      · split <;> rfl
    rcases h11 with ⟨hlen, h⟩ | ⟨hlen, r, h⟩
    · refine ⟨0, ?_, fun h => by simp only at h; omega⟩
      intro r hd' ls hs
      obtain ⟨e, he, hl, rfl, rfl, rfl⟩ := hst'.1 hs
      rw [h] at he
      exact .inl (hback e he hl)
    · refine ⟨r, ?_, fun _ => ⟨?_, ?_⟩⟩
      · intro r' hd' ls hs
        obtain ⟨e, he, hl, rfl, rfl, rfl⟩ := hst'.1 hs
        rw [h] at he
        rcases List.mem_append.1 he with he | he
        · exact .inl (hback e he hl)
        · simp only [List.mem_singleton] at he
          exact .inr ⟨hlen, by rw [he]⟩
      · intro hd ls hs
        obtain ⟨e, he, hl, e1, _, _⟩ := hst.1 hs
        have hn := h10.rep.nodup
        rw [h, List.map_append, List.nodup_append] at hn
        have hm : (if e.ref ∈ B then { e with hdr := e.hdr.bumped (numLevels p.trail.steps e.lits) } else e) ∈
            bumpS p.trail.steps S2 B := List.mem_map_of_mem he
        refine hn.2.2 _ (List.mem_map_of_mem hm) r (by simp) ?_
        rw [← e1]
        split <;> rfl
      · have hm : (⟨r, LongHeader.newLearnedClause.setGlue (numLevels p.trail.steps an.derivedClause.tail),
            an.derivedClause⟩ : LC) ∈ S' := by rw [h]; simp
        have hl31 := h10.rep.len_lt hm
        refine ⟨_, hst'.2 ⟨_, hm, ?_, rfl, rfl, rfl⟩, ?_⟩
        · unfold LC.live
          simp only
          cases hd : an.derivedClause with
          | nil => rw [hd] at hlen; simp at hlen
          | cons => rfl
        · have hle := numLevels_le p.trail.steps an.derivedClause.tail
          rw [List.length_tail] at hle
          simp only at hl31
          rw [(C21_header_fields _).2.2.1 _ (by omega), C21_new_headers.2.1]

end

set_option synthInstance.maxSize 2000 in
set_option synthInstance.maxHeartbeats 200000 in
/-- A conflict for C51: three long clauses were used, one of them for the first time, and the glue of one
decreases; then a conflict that learns a long clause of three literals on two levels. -/
theorem C51_example :
    (∃ s p1 ctx1 p c ctx search r,
      Solver.Propagating Example.env (Example.cnf (Example.php 4 3)) s p1 ctx1 p (some c) ∧
      p.trail.decisionLevel = 3 ∧ searchStep Example.env s.ctx s.search = .ok (ctx, search, r) ∧
      ([0, 6, 12, 18, 24].mapM (Long.header p.long)).map (List.map (fun h => (h.glue, h.used))) =
        .ok [(2, 1), (2, 1), (0, 0), (0, 0), (2, 1)] ∧
      ([0, 6, 12, 18, 24].mapM (Long.header search.prop.long)).map
        (List.map (fun h => (h.glue, h.used))) = .ok [(2, 2), (1, 2), (1, 1), (0, 0), (2, 2)]) ∧
    (∃ s p1 ctx1 p c ctx search r,
      Solver.Propagating Example.env (Example.cnf (Example.php 4 3)) s p1 ctx1 p (some c) ∧
      p.trail.decisionLevel = 4 ∧ searchStep Example.env s.ctx s.search = .ok (ctx, search, r) ∧
      search.analysis.derivedClause.length = 3 ∧
      (Long.header search.prop.long 24).map LongHeader.view = .ok ⟨true, false, 2, 1, 0⟩) := by
  constructor
  · have h : (do
        let (s, _, _, p, r) ← Example.mid (Example.php 4 3) 5
        let (_, search, _) ← searchStep Example.env s.ctx s.search
        pure (r.isSome, p.trail.decisionLevel,
          ([0, 6, 12, 18, 24].mapM (Long.header p.long)).map (List.map (fun h => (h.glue, h.used))),
          ([0, 6, 12, 18, 24].mapM (Long.header search.prop.long)).map
            (List.map (fun h => (h.glue, h.used)))) :
        M (Bool × Nat × M (List (Nat × Nat)) × M (List (Nat × Nat)))) =
        .ok (true, 3, .ok [(2, 1), (2, 1), (0, 0), (0, 0), (2, 1)],
          .ok [(2, 2), (1, 2), (1, 1), (0, 0), (2, 2)]) := by
      decide +kernel
    obtain ⟨⟨s, p1, ctx1, p, r⟩, h1, h2⟩ := bind_eq_ok.1 h
    obtain ⟨⟨ctx, search, r'⟩, h3, h2⟩ := bind_eq_ok.1 h2
    have h2 := Except.ok.inj h2
    simp only [Prod.mk.injEq] at h2
    obtain ⟨c, rfl⟩ := Option.isSome_iff_exists.1 h2.1
    exact ⟨s, p1, ctx1, p, c, ctx, search, r', Example.mid_propagating (by decide +kernel) h1, h2.2.1, h3,
      h2.2.2⟩
  · have h : (do
        let (s, _, _, p, r) ← Example.mid (Example.php 4 3) 4
        let (_, search, _) ← searchStep Example.env s.ctx s.search
        pure (r.isSome, p.trail.decisionLevel, search.analysis.derivedClause.length,
          (Long.header search.prop.long 24).map LongHeader.view) : M (Bool × Nat × Nat × M HeaderView)) =
        .ok (true, 4, 3, .ok ⟨true, false, 2, 1, 0⟩) := by
      decide +kernel
    obtain ⟨⟨s, p1, ctx1, p, r⟩, h1, h2⟩ := bind_eq_ok.1 h
    obtain ⟨⟨ctx, search, r'⟩, h3, h2⟩ := bind_eq_ok.1 h2
    have h2 := Except.ok.inj h2
    simp only [Prod.mk.injEq] at h2
    obtain ⟨c, rfl⟩ := Option.isSome_iff_exists.1 h2.1
    exact ⟨s, p1, ctx1, p, c, ctx, search, r', Example.mid_propagating (by decide +kernel) h1, h2.2.1, h3,
      h2.2.2⟩

end Starlit
