import Verif.Solver.AddClause

/-!
# Learning a clause; the whole conflict analysis
-/

namespace Starlit

/-- The statistics about the formula (`F` input clauses, `L` learned clauses). -/
structure StatsInv (F L : DB) (n : Nat) (B : List (List Lit)) (f : FormulaStats) : Prop where
  vars : f.vars = n
  binary : f.binary = ((F + L).filter (fun c => c.card = 2)).card
  stored : (B.map List.length).sum = 2 * f.binary
  irredundant : f.irredundant = (F.filter (fun c => 3 ≤ c.card)).card
  redundant : f.redundant = (L.filter (fun c => 3 ≤ c.card)).card

/-- The proof written so far: the log is accepted, and when the solver has found the formula
unsatisfiable, the database after some prefix of it is refuted by unit propagation. -/
def ProofInv (F L : DB) (proof : Option (List ProofStep)) (u : Bool) : Prop :=
  ∃ log, Accepted F log L ∧ (proof = none ∨ proof = some log) ∧
    (u = true → ∃ log0 L0, log0 <+: log ∧ Accepted F log0 L0 ∧
      UpConflict (F + L0) (fun _ => False))

theorem ProofInv.add {F L : DB} {ctx : Ctx} {u : Bool} (h : ProofInv F L ctx.proof u) {c : List Lit}
    (hc : RUP (F + L) (c : Multiset Lit)) (hv : ∀ l ∈ c, l.Valid) :
    ProofInv F ((c : Multiset Lit) ::ₘ L) (ctx.logProof (.add c)).proof u := by
  obtain ⟨log, h1, h2, h3⟩ := h
  refine ⟨log ++ [.add c], h1.add hc hv, ?_, ?_⟩
  · unfold Ctx.logProof
    rcases h2 with e | e <;> simp [e]
  · intro hu
    obtain ⟨log0, L0, h4, h5⟩ := h3 hu
    exact ⟨log0, L0, h4.trans (List.prefix_append _ _), h5⟩

theorem binaryAdd_sum {bin bin' : List (List Lit)} {a b : Lit} (h : binaryAdd bin a b = .ok bin') :
    (bin'.map List.length).sum = (bin.map List.length).sum + 2 := by
  have key : ∀ (l : List (List Lit)) (i : Nat) (x : List Lit) (y : Lit), l[i]? = some x →
      ((l.set i (x ++ [y])).map List.length).sum = (l.map List.length).sum + 1 := by
    intro l
    induction l with
    | nil => intro i x y hx; simp at hx
    | cons z l ih =>
      intro i x y hx
      cases i with
      | zero => simp at hx; subst hx; simp; omega
      | succ i =>
        simp only [List.getElem?_cons_succ] at hx
        have := ih i x y hx
        simp only [List.set_cons_succ, List.map_cons, List.sum_cons]; omega
  unfold binaryAdd at h
  obtain ⟨la, h1, h⟩ := bind_eq_ok.1 h
  obtain ⟨b1, h2, h⟩ := bind_eq_ok.1 h
  obtain ⟨lb, h3, h⟩ := bind_eq_ok.1 h
  rw [idx_eq_ok] at h1 h3
  rw [upd_eq_ok] at h2 h
  have e1 := key _ _ _ b h1
  obtain ⟨_, rfl⟩ := h2
  have e2 := key _ _ _ a h3
  obtain ⟨_, rfl⟩ := h
  omega

section
variable {n : Nat} {S : List LC} {p : PropState} {F L : DB}

/-- The database after learning a clause that is not stored in the arena. -/
theorem DBInv.learnShort {B B' : List (List Lit)} {steps steps' : List Step} {u : Bool}
    (h : DBInv F L S B steps u) {c : Multiset Lit} (hc : c.card < 3)
    (hB : ∀ x y, HasBin B' x y ↔ HasBin B x y ∨ (x ::ₘ {y} : Multiset Lit) = c)
    {s : Step} (hs : steps' = steps ++ [s])
    (hu : s.reason = .unit → ({s.lit} : Multiset Lit) = c) :
    DBInv F (c ::ₘ L) S B' steps' u := by
  subst hs
  have hmono : ∀ x ∈ F + L, x ∈ F + c ::ₘ L := by
    intro x hx
    rw [Multiset.mem_add] at hx ⊢
    rcases hx with hx | hx
    · exact .inl hx
    · exact .inr (Multiset.mem_cons_of_mem hx)
  have hcm : c ∈ F + c ::ₘ L := Multiset.mem_add.2 (.inr (Multiset.mem_cons_self c L))
  refine ⟨?_, h.irr, ?_, ?_, ?_, ?_, h.fempty⟩
  · rw [h.red, Multiset.filter_cons_of_neg _ (by omega)]
  · intro a b bs h1 h2
    rcases (hB a b).1 ⟨bs, h1, h2⟩ with ⟨bs, h1, h2⟩ | e
    · exact hmono _ (h.bin a b bs h1 h2)
    · rw [e]; exact hcm
  · intro a b hab
    exact (hB a b).2 (.inl (h.fbin a b hab))
  · intro x hx hr
    rcases List.mem_append.1 hx with hx | hx
    · exact hmono _ (h.unit x hx hr)
    · simp at hx; subst hx; rw [hu hr]; exact hcm
  · intro a ha
    rcases h.funit a ha with e | ⟨x, h1, h2⟩
    · exact .inl e
    · exact .inr ⟨x, by simp [h1], h2⟩

/-- The database after learning a long clause. -/
theorem DBInv.learnLong {B : List (List Lit)} {steps : List Step} {u : Bool}
    (h : DBInv F L S B steps u) {e : LC} (he : 3 ≤ e.lits.length) (hr : e.hdr.redundant = true)
    {s : Step} (hs : s.reason ≠ .unit) :
    DBInv F (e.cl ::ₘ L) (S ++ [e]) B (steps ++ [s]) u := by
  have hl : e.live = true := LC.live_iff.2 (by intro h0; rw [h0] at he; simp at he)
  have hcard : 3 ≤ e.cl.card := by unfold LC.cl; simpa using he
  have hmono : ∀ x ∈ F + L, x ∈ F + e.cl ::ₘ L := by
    intro x hx
    rw [Multiset.mem_add] at hx ⊢
    rcases hx with hx | hx
    · exact .inl hx
    · exact .inr (Multiset.mem_cons_of_mem hx)
  refine ⟨?_, ?_, ?_, h.fbin, ?_, ?_, h.fempty⟩
  · rw [liveRed_append _ _ hl, if_pos hr, h.red, Multiset.filter_cons_of_pos (p := fun c : Multiset Lit => 3 ≤ c.card) _ hcard]
  · rw [liveIrr_append _ _ hl, if_pos hr, h.irr]
  · intro a b bs h1 h2; exact hmono _ (h.bin a b bs h1 h2)
  · intro x hx hxr
    rcases List.mem_append.1 hx with hx | hx
    · exact hmono _ (h.unit x hx hxr)
    · simp at hx; subst hx; exact absurd hxr hs
  · intro a ha
    rcases h.funit a ha with e | ⟨x, h1, h2⟩
    · exact .inl e
    · exact .inr ⟨x, by simp [h1], h2⟩

/-- A clause about to be learned: the first literal is unassigned, the others are false, the second
one at the current level. -/
structure Learnable (n : Nat) (p : PropState) (a : Lit) (ls : List Lit) : Prop where
  idx : a.index < n
  val : p.values.val a = none
  rest : ∀ l ∈ ls, ∃ s ∈ p.trail.steps, s.lit = l.neg
  second : ∀ l : Lit, ls[0]? = some l → ∃ s ∈ p.trail.steps, s.lit = l.neg ∧
    s.level = p.trail.decisionLevel
  single : ls = [] → p.trail.decisionLevel = 0

/-- The stored long clauses after learning. -/
def LearnedS (steps : List Step) (c : List Lit) (S S' : List LC) : Prop :=
  (c.length ≤ 2 ∧ S' = S) ∨ (2 < c.length ∧ ∃ r, S' = S ++
    [⟨r, LongHeader.newLearnedClause.setGlue (numLevels steps c.tail), c⟩])

/-- The state after learning. -/
structure LearnPost (n : Nat) (F L : DB) (S : List LC) (ctx : Ctx) (an : Analysis) (p : PropState)
    (a : Lit) (S' : List LC) (ctx' : Ctx) (an' : Analysis) (p' : PropState) : Prop where
  inv : PInv n S' p'
  db : DBInv F ((an.derivedClause : Multiset Lit) ::ₘ L) S' p'.binary p'.trail.steps p'.unsat
  stats : StatsInv F L n p.binary ctx.formula →
    StatsInv F ((an.derivedClause : Multiset Lit) ::ₘ L) n p'.binary ctx'.formula
  proof : ctx'.proof = (ctx.logProof (.add an.derivedClause)).proof
  search : ctx'.search = ctx.search
  prop : ctx'.prop = ctx.prop
  trail : ∃ r, r ≠ .decision ∧
    p'.trail = p.trail.push ⟨a, p.trail.decisionLevel, r⟩ ∧
    p'.reasonLits r = .ok an.derivedClause.tail
  values : p'.values = p.values.push a
  unsat : p'.unsat = p.unsat
  clauses : LearnedS p.trail.steps an.derivedClause S S'
  an : ∃ tmp, an' = { an with glueLevelFlags := tmp } ∧ AllFalse tmp ∧
    tmp.length = an.glueLevelFlags.length
  old : ∀ e ∈ S, e ∈ S'
  noprot : ∀ e ∈ S', e ∈ S ∨ e.hdr.prot = false

theorem learnedHeader_spec (h : PInv n S p) {an : Analysis} (hg : AllFalse an.glueLevelFlags)
    (hgl : p.trail.decisionLevel < an.glueLevelFlags.length)
    (hc : ∀ l ∈ an.derivedClause.tail, ∃ s ∈ p.trail.steps, s.lit = l.neg) :
    ∃ tmp hd, an.learnedHeader p = .ok ({ an with glueLevelFlags := tmp }, hd) ∧ AllFalse tmp ∧
      tmp.length = an.glueLevelFlags.length ∧ hd.WF ∧ hd.redundant = true ∧ hd.searchPos = 0 ∧
      hd.prot = false ∧ (2 < an.derivedClause.length →
        hd = LongHeader.newLearnedClause.setGlue (numLevels p.trail.steps an.derivedClause.tail)) := by
  have w : LongHeader.newLearnedClause.WF := by
    unfold LongHeader.WF; decide +kernel
  unfold Analysis.learnedHeader
  split
  · obtain ⟨tmp, e, h1, h2⟩ := h.trail.computeGlue hg hgl (ls := an.derivedClause.tail) (by
      intro l hl
      obtain ⟨s, hs, e⟩ := hc l hl
      exact ⟨s, hs, by rw [e, Lit.index_neg]⟩)
    rw [e, bind_ok]
    refine ⟨tmp, LongHeader.newLearnedClause.setGlue _, rfl, h2, h1, w.setGlue _, ?_, ?_, ?_,
      fun _ => rfl⟩
    · rw [LongHeader.redundant_setGlue]; decide +kernel
    · rw [LongHeader.searchPos_setGlue]; decide +kernel
    · rw [LongHeader.prot_setGlue]; decide +kernel
  · exact ⟨an.glueLevelFlags, _, rfl, hg, rfl, w, by decide +kernel, by decide +kernel,
      by decide +kernel, fun h => by omega⟩

/-- The invariant after assigning the first literal of the learned clause. -/
theorem PInv.assignLearned (h : PInv n S p) {S' : List LC} {p' : PropState} {a : Lit} {r : Reason}
    {rest : List Lit} (hl : Learnable n p a rest) (hsz : Sized n p') (hv : p'.values = p.values)
    (ht : p'.trail = p.trail)
    (hreas : ReasonInv p'.binary S' p.trail)
    (hr : ReasonOK p'.binary S' (p.trail.push ⟨a, p.trail.decisionLevel, r⟩) p.trail.steps.length
      ⟨a, p.trail.decisionLevel, r⟩)
    (hrep : LRep p'.long S') (hlong : LongOK n S') (hws : WatchStruct S' p'.watches.byLit)
    (hbk : BlkOK n p'.watches.byLit) (hbs : BinStruct n p'.binary)
    (hwsat : ∀ e ∈ S', e.live → e ∈ S ∨ ∃ b ls, e.lits = a :: b :: ls ∧
      ∃ s ∈ p.trail.steps, s.lit = b.neg ∧ s.level = p.trail.decisionLevel)
    (hbsat : ∀ x y, HasBin p'.binary x y → HasBin p.binary x y ∨ ∃ b,
      ((x = a ∧ y = b) ∨ (x = b ∧ y = a)) ∧
      ∃ s ∈ p.trail.steps, s.lit = b.neg ∧ s.level = p.trail.decisionLevel)
    (hen : p'.watches.enabled = true) :
    Wp (p'.assign ⟨a, p'.trail.decisionLevel, r⟩) (fun q =>
      q = { p' with values := p'.values.push a
                    trail := p'.trail.push ⟨a, p'.trail.decisionLevel, r⟩ } ∧ PInv n S' q) := by
  rw [assign_eq hsz hl.idx (by rw [hv]; exact h.trail.vwf) (by rw [hv]; exact hl.val)]
  have hk := h.trail.prop_le
  rw [ht]
  split
  · rename_i hlen
    rw [wp_ok]
    refine ⟨rfl, ?_⟩
    have hnone : ∀ s ∈ p.trail.steps, s.lit ≠ a.neg := by
      intro s hs e
      have := (h.trail.val_false_iff a).2 ⟨s, hs, e⟩
      rw [hl.val] at this; simp at this
    have hsz' := hsz.push ⟨a, p.trail.decisionLevel, r⟩
    rw [ht] at hsz'
    refine ⟨hsz', ?_, hreas.push hr, hrep, hlong, hws, hbk, ?_, hbs, ?_, hen, ?_⟩
    · have := h.trail.push (s := ⟨a, p.trail.decisionLevel, r⟩) h.sized.values h.sized.tix hl.idx
        rfl (.inl hl.val)
      rw [hv]; exact this
    · intro e he hlv w hw i s hi hs hsw
      rcases hwsat e he hlv with hS | ⟨b, ls, hel, sb, hsb, hb1, hb2⟩
      · exact (h.wsat.snoc hk _) e hS hlv w hw i s hi hs hsw
      · simp only [Trail.push] at hi hs
        rw [getElem?_snoc] at hs
        rcases hs with hs | ⟨e1, _⟩
        · rw [hel] at hw
          simp at hw
          have hsm : s ∈ p.trail.steps := List.mem_iff_getElem?.2 ⟨i, hs⟩
          rcases hw with rfl | rfl
          · exact absurd hsw (hnone s hsm)
          · refine ⟨⟨a, p.trail.decisionLevel, r⟩, by simp [Trail.push], by simp [hel], ?_⟩
            have := h.trail.level_unique hsm hsb (hsw.trans hb1.symm)
            simp only; omega
        · omega
    · intro x bs hx y hy i s hi hs hsw
      rcases hbsat x y ⟨bs, hx, hy⟩ with ⟨bs', hx', hy'⟩ | ⟨b, hab, sb, hsb, hb1, hb2⟩
      · exact (h.bsat.snoc hk _) x bs' hx' y hy' i s hi hs hsw
      · simp only [Trail.push] at hi hs
        rw [getElem?_snoc] at hs
        rcases hs with hs | ⟨e1, _⟩
        · have hsm : s ∈ p.trail.steps := List.mem_iff_getElem?.2 ⟨i, hs⟩
          rcases hab with ⟨rfl, rfl⟩ | ⟨rfl, rfl⟩
          · exact absurd hsw (hnone s hsm)
          · refine ⟨⟨y, p.trail.decisionLevel, r⟩, by simp [Trail.push], rfl, ?_⟩
            have := h.trail.level_unique hsm hsb (hsw.trans hb1.symm)
            simp only; omega
        · omega
    · simp only [Trail.push, List.length_append, List.length_singleton]; omega
  · simp

theorem StatsInv.learn {B B' : List (List Lit)} {f f' : FormulaStats} {c : List Lit}
    (h : StatsInv F L n B f) (hv : f'.vars = f.vars) (hi : f'.irredundant = f.irredundant)
    (hb : f'.binary = f.binary + if c.length = 2 then 1 else 0)
    (hB : (B'.map List.length).sum = (B.map List.length).sum + if c.length = 2 then 2 else 0)
    (hr : f'.redundant = f.redundant + if 3 ≤ c.length then 1 else 0) :
    StatsInv F ((c : Multiset Lit) ::ₘ L) n B' f' := by
  refine ⟨hv.trans h.vars, ?_, ?_, hi.trans h.irredundant, ?_⟩
  · rw [hb, h.binary, Multiset.add_cons]
    by_cases h2 : c.length = 2
    · rw [Multiset.filter_cons_of_pos _ (by simpa using h2)]; simp [h2]
    · rw [Multiset.filter_cons_of_neg _ (by simpa using h2)]; simp [h2]
  · rw [hB, h.stored, hb]
    split <;> omega
  · rw [hr, h.redundant]
    by_cases h2 : 3 ≤ c.length
    · rw [Multiset.filter_cons_of_pos _ (by simpa using h2)]; simp [h2]
    · rw [Multiset.filter_cons_of_neg _ (by simpa using h2)]; simp [h2]

theorem assignUnit_of_assign {s : Step} {Q : PropState → Prop} (hp : PInv n S p)
    (hi : s.lit.index < n) (hun : p.values.val s.lit = none) (h : Wp (p.assign s) Q) :
    Wp (p.assignUnit s) Q := by
  rwa [assign_eq hp.sized hi hp.trail.vwf hun, ← assignUnit_eq hp.sized hi] at h

theorem debugFalse_ok (h : PInv n S p) : ∀ {ls : List Lit},
    (∀ l ∈ ls, ∃ s ∈ p.trail.steps, s.lit = l.neg) → Analysis.debugFalse p.values ls = .ok ()
  | [], _ => rfl
  | l :: ls, hf => by
    obtain ⟨s, hs, e⟩ := hf l (by simp)
    have hi := h.trail.idx_lt s hs
    rw [e, Lit.index_neg] at hi
    unfold Analysis.debugFalse
    rw [h.isFalse hi, bind_ok, (h.trail.val_false_iff l).2 ⟨s, hs, e⟩, debugM_ok (by simp), bind_ok]
    exact debugFalse_ok h (fun l hl => hf l (by simp [hl]))

/-- The debug assertions for the learned clause do not fail. -/
theorem debugLearned_ok {a : Lit} {rest : List Lit} (h : PInv n S p) (hl : Learnable n p a rest) :
    Analysis.debugLearned p.values (a :: rest) = .ok () := by
  cases rest with
  | nil =>
    simp only [Analysis.debugLearned]
    rw [PartialAssignment.isAssigned_eq h.trail.vwf (by rw [h.sized.values]; exact hl.idx), bind_ok]
    exact debugM_ok (by simp [hl.val])
  | cons b rest =>
    simp only [Analysis.debugLearned]
    exact debugFalse_ok h hl.rest

theorem learnAndAssign_spec {ctx : Ctx} {an : Analysis} {a : Lit} {rest : List Lit} (h : PInv n S p)
    (d : DBInv F L S p.binary p.trail.steps p.unsat)
    (hg : AllFalse an.glueLevelFlags) (hgl : p.trail.decisionLevel < an.glueLevelFlags.length)
    (ec : an.derivedClause = a :: rest) (hl : Learnable n p a rest) :
    Wp (an.learnAndAssign ctx p) (fun (ctx', an', p') =>
      ∃ S', LearnPost n F L S ctx an p a S' ctx' an' p') := by
  obtain ⟨tmp, hd, e1, t1, t2, hw, hr, hsp, hpr, hglue⟩ := learnedHeader_spec h hg hgl (by
    rw [ec]; exact hl.rest)
  have hidx : ∀ l ∈ a :: rest, l.index < n := by
    intro l hx
    rcases List.mem_cons.1 hx with rfl | hx
    · exact hl.idx
    · obtain ⟨s, hs, e⟩ := hl.rest l hx
      have := h.trail.idx_lt s hs
      rwa [e, Lit.index_neg] at this
  have hbefore : ∀ s : Step, ∀ l ∈ rest,
      Before (p.trail.push s).steps p.trail.steps.length l.neg := by
    intro x l hx
    obtain ⟨s, hs, e⟩ := hl.rest l hx
    obtain ⟨i, hi⟩ := List.mem_iff_getElem?.1 hs
    exact ⟨i, s, (List.getElem?_eq_some_iff.1 hi).1, getElem?_snoc.2 (.inl hi), e⟩
  unfold Analysis.learnAndAssign
  rw [ec, debugLearned_ok h hl, bind_ok, e1, bind_ok]
  simp only [ec]
  match rest, hl, hidx, hbefore, ec with
  | [], hl, hidx, hbefore, ec =>
    have h0 := hl.single rfl
    simp only [addClauseVerbatim]
    rw [h.isFalse hl.idx, bind_ok, hl.val]
    simp only [show ((none : Option Bool) == some false) = false from rfl, Bool.false_eq_true,
      if_false, wp_bind]
    have := h.assignLearned (S' := S) (p' := p) (r := .unit) hl h.sized rfl rfl h.reasons h0
      h.rep h.long h.ws h.blk h.bs (fun e he _ => .inl he) (fun x y hxy => .inl hxy) h.enabled
    rw [h0] at this
    refine (assignUnit_of_assign (s := ⟨a, 0, .unit⟩) h hl.idx hl.val this).mono ?_
    rintro q ⟨rfl, hq⟩
    simp only [wp_pure]
    refine ⟨S, hq, ?_, ?_, by rw [ec], rfl, rfl, ⟨.unit, by simp, by rw [h0], by rw [ec]; rfl⟩, rfl, rfl,
      .inl ⟨by rw [ec]; simp, rfl⟩, ⟨tmp, by rw [ec], t1, t2⟩, fun e he => he, fun e he => .inl he⟩
    · rw [ec]
      refine d.learnShort (by simp) ?_ rfl (fun _ => rfl)
      intro x y
      constructor
      · exact .inl
      · rintro (hxy | e)
        · exact hxy
        · exfalso
          have := congrArg Multiset.card e
          simp at this
    · intro hst
      rw [ec]
      exact hst.learn rfl rfl (by simp [Ctx.logProof]) (by simp) (by simp [Ctx.logProof])
  | [b], hl, hidx, hbefore, ec =>
    obtain ⟨bin', e2, b1, b2, b3⟩ := binaryAdd_spec h.sized.bin h.bs (hidx a (by simp))
      (hidx b (by simp))
    simp only [addClauseVerbatim]
    rw [e2, bind_ok, bind_pure_ok]
    simp only
    rw [idx_ok (x := a) rfl, bind_ok]
    simp only [wp_bind]
    refine (h.assignLearned (S' := S) (p' := { p with binary := bin' }) (r := .binary b) hl
      ⟨h.sized.values, h.sized.tix, b1, h.sized.wat, h.sized.n_le⟩ rfl rfl
      (h.reasons.mono (fun x y hxy => (b3 x y).2 (.inl hxy)) (fun e he => he))
      ⟨(b3 a b).2 (.inr (.inl ⟨rfl, rfl⟩)), hbefore _ b (by simp)⟩
      h.rep h.long h.ws h.blk b2 (fun e he _ => .inl he) ?_ h.enabled).mono ?_
    · intro x y hxy
      rcases (b3 x y).1 hxy with hxy | hxy
      · exact .inl hxy
      · exact .inr ⟨b, hxy, hl.second b rfl⟩
    rintro q ⟨rfl, hq⟩
    simp only [wp_pure]
    refine ⟨S, hq, ?_, ?_, by rw [ec], rfl, rfl, ⟨.binary b, by simp, rfl, by rw [ec]; rfl⟩, rfl, rfl,
      .inl ⟨by rw [ec]; simp, rfl⟩, ⟨tmp, by rw [ec], t1, t2⟩, fun e he => he, fun e he => .inl he⟩
    · rw [ec]
      refine d.learnShort (by simp) ?_ rfl (by simp)
      intro x y
      rw [b3]
      have hpair : (x ::ₘ {y} : Multiset Lit) = (([a, b] : List Lit) : Multiset Lit) ↔
          (x = a ∧ y = b) ∨ (x = b ∧ y = a) := by
        have hxy : (x ::ₘ {y} : Multiset Lit) = (([x, y] : List Lit) : Multiset Lit) := rfl
        rw [hxy, Multiset.coe_eq_coe]
        constructor
        · intro hp
          have hx : x ∈ [a, b] := hp.mem_iff.1 (by simp)
          simp at hx
          rcases hx with rfl | rfl
          · have := (List.perm_cons x).1 hp
            simp at this
            exact .inl ⟨rfl, this⟩
          · have := (List.perm_cons x).1 (hp.trans (List.Perm.swap x a []))
            simp at this
            exact .inr ⟨rfl, this⟩
        · rintro (⟨rfl, rfl⟩ | ⟨rfl, rfl⟩)
          · exact List.Perm.refl _
          · exact List.Perm.swap _ _ _
      rw [hpair]
    · intro hst
      rw [ec]
      exact hst.learn rfl rfl (by simp [Ctx.logProof]) (by simpa using binaryAdd_sum e2)
        (by simp [Ctx.logProof])
  | b :: c :: rest, hl, hidx, hbefore, ec =>
    simp only [addClauseVerbatim]
    rcases addLong_spec h hw hsp hidx with e2 | ⟨long', r, w', e2, e3, w1, w2, hrep, hws, hbk, hlong⟩
    · rw [e2]; simp
    rw [e2]
    simp only [bind_ok, e3, hr, if_true]
    rw [bind_pure_ok]
    simp only
    rw [idx_ok (x := a) rfl, bind_ok]
    simp only [wp_bind]
    refine (h.assignLearned (S' := S ++ [⟨r, hd, a :: b :: c :: rest⟩])
      (p' := { p with long := long', watches := w' }) (r := .long r) hl
      ⟨h.sized.values, h.sized.tix, h.sized.bin, w2, h.sized.n_le⟩ rfl rfl
      (h.reasons.mono (fun x y hxy => hxy) (fun e he => by simp [he]))
      ⟨⟨r, hd, a :: b :: c :: rest⟩, by simp, rfl, b :: c :: rest, rfl, hbefore _⟩
      hrep hlong hws hbk h.bs ?_ (fun x y hxy => .inl hxy) w1).mono ?_
    · intro e he hlv
      rcases List.mem_append.1 he with he | he
      · exact .inl he
      · simp at he
        subst he
        exact .inr ⟨b, c :: rest, rfl, hl.second b rfl⟩
    rintro q ⟨rfl, hq⟩
    simp only [wp_pure]
    refine ⟨S ++ [⟨r, hd, a :: b :: c :: rest⟩], hq, ?_, ?_, by rw [ec], rfl, rfl,
      ⟨.long r, by simp, rfl, ?_⟩, rfl, rfl, .inr ⟨by rw [ec]; simp, r, ?_⟩, ⟨tmp, by rw [ec], t1, t2⟩,
      fun e he => by simp [he], ?_⟩
    · rw [ec]
      exact d.learnLong (e := ⟨r, hd, a :: b :: c :: rest⟩) (by simp) hr (by simp)
    · intro hst
      rw [ec]
      exact hst.learn rfl rfl (by simp [Ctx.logProof]) (by simp) (by simp [Ctx.logProof])
    · rw [ec]
      simp only [PropState.reasonLits]
      rw [hrep.lits_ok (e := ⟨r, hd, a :: b :: c :: rest⟩) (by simp)]; rfl
    · rw [hglue (by rw [ec]; simp), ec]
    · intro e he
      rcases List.mem_append.1 he with he | he
      · exact .inl he
      · simp at he; subst he; exact .inr hpr

/-! ## The whole analysis -/

/-- The state after the analysis of a conflict in which `C` was learned, with a backtrack to the
level `lvl`, whose trail has length `target`. -/
structure AnalyzePost (env : Env) (n : Nat) (F L : DB) (S : List LC) (ctx : Ctx) (p : PropState)
    (cb : Callbacks) (S' : List LC) (C : List Lit) (lvl target : Nat) (ctx' : Ctx) (an' : Analysis)
    (p' : PropState) (cb' : Callbacks) : Prop where
  inv : PInv n S' p'
  asserting : Asserting (F + L) p.trail C lvl
  db : DBInv F ((C : Multiset Lit) ::ₘ L) S' p'.binary p'.trail.steps p'.unsat
  stats : StatsInv F L n p.binary ctx.formula →
    StatsInv F ((C : Multiset Lit) ::ₘ L) n p'.binary ctx'.formula
  proof : ctx'.proof = (ctx.logProof (.add C)).proof
  search : ctx'.search = ctx.search
  prop : ctx'.prop = ctx.prop
  cbinv : CbInv env n cb'
  covers : Covers n p.values cb → Covers n p'.values cb'
  phases : cb'.phases = savePhases cb.phases (p.trail.steps.drop target)
  an : AnIdle an'
  min : MinIdle an'.minimize
  clause : an'.derivedClause = C
  cutpos : p.trail.decisions[lvl + 1]? = some target
  trail : ∃ a rest r, C = a :: rest ∧ r ≠ .decision ∧
    p'.trail = (p.trail.cut lvl target).push ⟨a, lvl, r⟩ ∧ p'.reasonLits r = .ok rest
  unsat : p'.unsat = p.unsat
  noprot : (∀ e ∈ S, e.hdr.prot = false) → ∀ e ∈ S', e.hdr.prot = false

/-- Minimisation of the derived clause, also for unit clauses. -/
theorem minimizeDerived_spec (h : PInv n S p) (d : DBInv F L S p.binary p.trail.steps p.unsat)
    {an : Analysis} (hm : MinIdle an.minimize) (hc : UipClause (F + L) p.trail an.derivedClause)
    (h0 : p.trail.decisionLevel ≠ 0) :
    ∃ m' c' lvl, an.minimizeDerived p =
        .ok ({ an with minimize := m', derivedClause := c' }, lvl) ∧ MinIdle m' ∧
      Asserting (F + L) p.trail c' lvl ∧ (∀ l ∈ c', l ∈ an.derivedClause) ∧
      MinResult p an.derivedClause c' := by
  unfold Analysis.minimizeDerived
  split
  · rename_i hlen
    obtain ⟨m', c', lvl, e, h1, h2, h3, _, h4⟩ := minimize_spec h d hm hc hlen
    rw [e, bind_ok]
    exact ⟨m', c', lvl, rfl, h1, h2, h3, h4⟩
  · rename_i hlen
    refine ⟨an.minimize, an.derivedClause, 0, rfl, hm, ?_, fun _ h => h, ?_⟩
    swap
    · refine ⟨fun l hl => .asm ⟨l, hl, rfl⟩, ?_⟩
      obtain ⟨R, k, u, ec, hk, hu, _, _⟩ := hc.split
      have hR : R = [] := by
        rw [ec] at hlen; simp at hlen; exact hlen
      subst hR
      rw [ec]
      intro l hl hr
      simp at hl
      subst hl
      rw [Lit.neg_neg] at hr
      obtain ⟨_, x, _, _, ⟨y, hy, hyl, _⟩, _⟩ := h.recorded_level hr hk rfl (by omega)
      simp at hy
      exact hyl hy
    obtain ⟨R, k, u, ec, hk, hu, _, _⟩ := hc.split
    have hR : R = [] := by
      rw [ec] at hlen; simp at hlen; exact hlen
    subst hR
    simp at ec
    refine ⟨⟨k, u, [], ec, hk, hu, by simp⟩, ?_, fun _ => rfl, by omega, ?_, hc.rup⟩
    · rw [ec]; simp
    · rw [ec]; simp

/-- Backtracking and learning after a derivation. -/
theorem backtrackLearn_spec {env : Env} {ctx : Ctx} {an1 : Analysis} {cb cb1 : Callbacks} {a1 : Arena}
    {S1 : List LC} {C : List Lit} {lvl : Nat} {m' : Minimize} (h : PInv n S p)
    (d : DBInv F L S p.binary p.trail.steps p.unsat) (o1 : OnlyHeaders n S p S1 { p with long := a1 })
    (k2 : CbKeep env n cb cb1) (c1 : AnClean p.trail an1) (hm' : MinIdle m')
    (has : Asserting (F + L) p.trail C lvl) :
    Wp (do
      let (p, cb) ← backtrackToLevel { p with long := a1 } lvl cb1
      let (ctx, an, p) ← Analysis.learnAndAssign ctx { an1 with minimize := m', derivedClause := C } p
      pure (ctx, an, p, cb)) (fun (ctx', an', p', cb') =>
      ∃ S' target, AnalyzePost env n F L S ctx p cb S' C lvl target ctx' an' p' cb' ∧
        LearnedS p.trail.steps C S1 S') := by
  have d1 : DBInv F L S1 p.binary p.trail.steps p.unsat := d.sim o1.sim
  obtain ⟨target, p2, cb2, ht, e3, b⟩ := backtrack_spec o1.inv k2.inv has.lt
  rw [e3, bind_ok]
  simp only [wp_bind]
  have ht' : p.trail.decisions[lvl + 1]? = some target := ht
  have d2 : DBInv F L S1 p2.binary p2.trail.steps p2.unsat := by
    rw [b.binary, b.unsat, b.trail]
    refine ⟨d1.red, d1.irr, d1.bin, d1.fbin, ?_, ?_, d1.fempty⟩
    · intro s hs; exact d1.unit s (List.mem_of_mem_take hs)
    · intro a ha
      rcases d1.funit a ha with e | ⟨s, h1, h2, h3⟩
      · exact .inl e
      · obtain ⟨j, hj⟩ := List.mem_iff_getElem?.1 h1
        refine .inr ⟨s, mem_take_iff.2 ⟨j, ?_, hj⟩, h2, h3⟩
        exact (h.trail.kept_iff ht' hj).2 (by omega)
  obtain ⟨k, u, rest, ec, hk, hu, hrest⟩ := has.head
  have hkeep : ∀ l ∈ rest, ∃ s ∈ p2.trail.steps, s.lit = l.neg ∧
      ∃ i, At p.trail l i ∧ p.trail.steps[i]? = some s := by
    intro l hl
    obtain ⟨i, s, hat, hs, hle⟩ := hrest l hl
    have hs' : s.lit = l.neg := by
      obtain ⟨_, s', h1, h2, _⟩ := hat
      have : p.trail.steps[i]? = some s' := h1
      rw [hs] at this; cases this; exact h2
    refine ⟨s, ?_, hs', i, hat, hs⟩
    rw [b.trail]
    exact mem_take_iff.2 ⟨i, (h.trail.kept_iff ht' hs).2 hle, hs⟩
  have hlearn : Learnable n p2 u.lit.neg rest := by
    refine ⟨?_, ?_, ?_, ?_, ?_⟩
    · rw [Lit.index_neg]
      exact h.trail.idx_lt u (List.mem_iff_getElem?.2 ⟨k, hk⟩)
    · rw [b.val, if_pos]
      refine ⟨u, mem_drop_iff.2 ⟨k, ?_, hk⟩, by simp⟩
      have hlt := has.lt
      have := (h.trail.kept_iff ht' hk)
      have hu' : u.level = p.trail.decisionLevel := hu
      have hlt' : lvl < p.trail.decisionLevel := hlt
      omega
    · intro l hl
      obtain ⟨s, h1, h2, _⟩ := hkeep l hl
      exact ⟨s, h1, h2⟩
    · intro l hl
      obtain ⟨i, s, hat, hs, hlv⟩ := has.second l (by rw [ec]; simpa using hl)
      obtain ⟨s', h1, h2, j, hat', hs'⟩ := hkeep l (List.mem_iff_getElem?.2 ⟨0, hl⟩)
      have : j = i := At.unique hat' hat
      subst this
      have hs2 : p.trail.steps[j]? = some s := hs
      rw [hs2] at hs'; cases hs'
      exact ⟨s, h1, h2, by rw [b.level]; exact hlv⟩
    · intro e
      rw [b.level]
      exact has.single (by rw [ec, e]; rfl)
  have hgl : p2.trail.decisionLevel < an1.glueLevelFlags.length := by
    have h1 := c1.glen
    have h2 : lvl < p.trail.decisionLevel := has.lt
    rw [b.level]; omega
  refine (learnAndAssign_spec (ctx := ctx) (F := F) (L := L)
    (an := { an1 with minimize := m', derivedClause := C })
    b.inv d2 c1.glue hgl ec hlearn).mono ?_
  rintro ⟨ctx', an', p'⟩ ⟨S', q⟩
  simp only [wp_pure]
  obtain ⟨tmp, rfl, t1, t2⟩ := q.an
  obtain ⟨r, r1, r2, r3⟩ := q.trail
  have hls : LearnedS p.trail.steps C S1 S' := by
    have hlv : numLevels p2.trail.steps C.tail = numLevels p.trail.steps C.tail := by
      unfold numLevels
      congr 2
      apply List.map_congr_left
      intro l hl
      rw [ec] at hl
      obtain ⟨s, hs, e, i, _, hi⟩ := hkeep l hl
      have e' : s.lit.index = l.index := by rw [e, Lit.index_neg]
      obtain ⟨y, y1, y2, y3⟩ := levelIn_spec ⟨s, hs, e'⟩
      obtain ⟨z, z1, z2, z3⟩ := levelIn_spec ⟨s, List.mem_iff_getElem?.2 ⟨i, hi⟩, e'⟩
      rw [y3, z3]
      have : y ∈ p.trail.steps := by
        rw [b.trail] at y1; exact List.mem_of_mem_take y1
      have hyz : y.lit = z.lit := by
        rcases Lit.eq_or_eq_neg (y2.trans z2.symm) with h | h'
        · exact h
        · exact absurd h' (h.trail.not_both this z1)
      exact h.trail.level_unique this z1 hyz
    have := q.clauses
    unfold LearnedS at this ⊢
    simp only at this
    rwa [hlv] at this
  refine ⟨S', target, ⟨q.inv, has, q.db, ?_, q.proof, q.search, q.prop, ?_, ?_, ?_,
    ⟨c1.flags, t1, c1.count⟩, hm', rfl, ht', ⟨u.lit.neg, rest, r, ec, r1, ?_, ?_⟩, ?_, ?_⟩, hls⟩
  · intro hst
    have := q.stats
    rw [b.binary] at this
    exact this hst
  · exact b.cbinv
  · intro hcov
    have h2 := b.covers (k2.covers hcov)
    intro l hl hv
    refine h2 l hl ?_
    have hv' := hv
    rw [q.values] at hv'
    rw [PartialAssignment.push, PartialAssignment.val_assign (by
      rw [b.inv.sized.values]; exact hlearn.idx)] at hv'
    split at hv'
    · simp at hv'
    · split at hv'
      · simp at hv'
      · exact hv'
  · rw [b.phases, k2.phases]
  · rw [r2, b.level, b.trail]
  · rw [r3, ec]; rfl
  · rw [q.unsat, b.unsat]
  · intro hn e he
    rcases q.noprot e he with he | he
    · obtain ⟨x, hx, hs⟩ := o1.sim.mem he
      rw [hs.prot]; exact hn x hx
    · exact he

theorem analyzeConflict_spec {env : Env} {ctx : Ctx} {an : Analysis} {cb : Callbacks}
    {c : ConflictClause} (h : PInv n S p) (d : DBInv F L S p.binary p.trail.steps p.unsat)
    (ha : AnIdle an) (hm : MinIdle an.minimize) (hcb : CbInv env n cb) (hc : ConflictOK S p c)
    (h0 : p.trail.decisionLevel ≠ 0) :
    Wp (Analysis.analyzeConflict env ctx an p c cb) (fun (ctx', an', p', cb') =>
      ∃ S' C lvl target, AnalyzePost env n F L S ctx p cb S' C lvl target ctx' an' p' cb') := by
  unfold Analysis.analyzeConflict
  rw [show assertM (decide (p.trail.decisionLevel ≠ 0)) = .ok () by simp [assertM, h0]; rfl, bind_ok]
  obtain ⟨an1, p1, cb1, S1, e1, o1, k1, c1, m1, u1⟩ := derive1uip_spec h d ha hcb hc h0
  obtain ⟨a1, rfl⟩ := o1.eq
  have d1 : DBInv F L S1 p.binary p.trail.steps p.unsat := d.sim o1.sim
  rw [e1, bind_ok]
  simp only
  have k2 := k1.trans (doDecay_spec k1.inv)
  obtain ⟨m', C, lvl, e2, hm', has, _⟩ := minimizeDerived_spec o1.inv d1 (m1 ▸ hm) u1 h0
  rw [e2, bind_ok]
  simp only
  refine (backtrackLearn_spec h d o1 k2 c1 hm' has).mono ?_
  rintro ⟨ctx', an', p', cb'⟩ ⟨S', target, q, _⟩
  exact ⟨S', C, lvl, target, q⟩

end

end Starlit
