import Verif.Solver.Inv

/-!
# Unit propagation preserves the invariants
-/

namespace Starlit

/-! ## Small list facts -/

theorem Lit.code_inj {a b : Lit} : a.code = b.code ↔ a = b :=
  ⟨Lit.ext_code, fun h => by rw [h]⟩

theorem perm_set_cons {α : Type} {l : List α} {i : Nat} {a : α} (b : α) (h : l[i]? = some a) :
    (a :: l.set i b).Perm (b :: l) := by
  induction l generalizing i with
  | nil => simp at h
  | cons x l ih =>
    cases i with
    | zero => simp at h; subst h; simpa using List.Perm.swap _ _ _
    | succ i =>
      simp only [List.getElem?_cons_succ] at h
      simp only [List.set_cons_succ]
      exact (List.Perm.swap _ _ _).trans (((ih h).cons x).trans (List.Perm.swap _ _ _))

/-! ## Monotonicity -/

theorem Before.snoc {steps : List Step} {i : Nat} {l : Lit} (s : Step) (h : Before steps i l) :
    Before (steps ++ [s]) i l := by
  obtain ⟨j, t, h1, h2, h3⟩ := h
  exact ⟨j, t, h1, getElem?_snoc.2 (.inl h2), h3⟩

theorem ReasonOK.push {bin : List (List Lit)} {S : List LC} {t : Trail} {i : Nat} {s x : Step}
    (h : ReasonOK bin S t i x) : ReasonOK bin S (t.push s) i x := by
  unfold ReasonOK at *
  cases hx : x.reason with
  | decision => rw [hx] at h; exact h
  | unit => rw [hx] at h; exact h
  | binary o => rw [hx] at h; exact ⟨h.1, h.2.snoc s⟩
  | long c =>
    rw [hx] at h
    obtain ⟨e, he, hr, rest, h1, h2⟩ := h
    exact ⟨e, he, hr, rest, h1, fun o ho => (h2 o ho).snoc s⟩

theorem ReasonInv.push {bin : List (List Lit)} {S : List LC} {t : Trail} {s : Step}
    (h : ReasonInv bin S t) (hs : ReasonOK bin S (t.push s) t.steps.length s) :
    ReasonInv bin S (t.push s) := by
  intro i x hx
  simp only [Trail.push] at hx
  rw [getElem?_snoc] at hx
  rcases hx with hx | ⟨rfl, rfl⟩
  · exact (h i x hx).push
  · exact hs

theorem WatchSat.snoc {S : List LC} {steps : List Step} {k : Nat} (h : WatchSat S steps k)
    (hk : k ≤ steps.length) (s : Step) : WatchSat S (steps ++ [s]) k := by
  intro e he hl w hw i x hi hx hxl
  rw [getElem?_snoc] at hx
  rcases hx with hx | ⟨rfl, _⟩
  · obtain ⟨t, h1, h2⟩ := h e he hl w hw i x hi hx hxl
    exact ⟨t, by simp [h1], h2⟩
  · omega

theorem BinSat.snoc {bin : List (List Lit)} {steps : List Step} {k : Nat} (h : BinSat bin steps k)
    (hk : k ≤ steps.length) (s : Step) : BinSat bin (steps ++ [s]) k := by
  intro a bs ha b hb i x hi hx hxl
  rw [getElem?_snoc] at hx
  rcases hx with hx | ⟨rfl, _⟩
  · obtain ⟨t, h1, h2⟩ := h a bs ha b hb i x hi hx hxl
    exact ⟨t, by simp [h1], h2⟩
  · omega

/-- Number of variables without a step. -/
def freeCount (n : Nat) (steps : List Step) : Nat :=
  ((List.range n).filter (fun i => steps.all (fun s => s.lit.index != i))).length

theorem filter_length_remove {l : List Nat} (hn : l.Nodup) {a : Nat} (ha : a ∈ l) {P : Nat → Bool}
    (hP : P a = true) :
    (l.filter (fun i => P i && (a != i))).length + 1 = (l.filter P).length := by
  induction l with
  | nil => simp at ha
  | cons x l ih =>
    rw [List.nodup_cons] at hn
    by_cases hx : x = a
    · subst hx
      have : ∀ i ∈ l, (P i && (x != i)) = P i := by
        intro i hi
        have : x ≠ i := fun e => hn.1 (e ▸ hi)
        simp [this]
      simp [hP, List.filter_congr this]
    · have ha : a ∈ l := by
        rcases List.mem_cons.1 ha with e | h
        · exact absurd e.symm hx
        · exact h
      have := ih hn.2 ha
      have hne : (a != x) = true := by simpa using fun e => hx e.symm
      by_cases hp : P x = true
      · simp only [List.filter_cons, hp, hne, Bool.and_self, if_true, List.length_cons]; omega
      · have hp : P x = false := by simpa using hp
        simp only [List.filter_cons, hp, Bool.false_and, Bool.false_eq_true, if_false]; omega

theorem freeCount_snoc {n : Nat} {steps : List Step} {s : Step} (hl : s.lit.index < n)
    (hs : ∀ x ∈ steps, x.lit.index ≠ s.lit.index) :
    freeCount n (steps ++ [s]) + 1 = freeCount n steps := by
  unfold freeCount
  rw [← filter_length_remove (P := fun i => steps.all (fun s => s.lit.index != i))
    List.nodup_range (List.mem_range.2 hl) (by simpa using hs)]
  congr 3
  funext i
  simp [List.all_append]

theorem freeCount_le (n : Nat) (steps : List Step) : freeCount n steps ≤ n := by
  unfold freeCount
  have := List.length_filter_le (fun i => steps.all (fun s => s.lit.index != i)) (List.range n)
  simpa using this

/-- `p'` is `p` with more literals assigned at the current level. -/
structure Ext (n : Nat) (p p' : PropState) : Prop where
  steps : ∃ new, p'.trail.steps = p.trail.steps ++ new ∧
    ∀ s ∈ new, s.level = p.trail.decisionLevel ∧ s.reason ≠ .unit ∧ s.reason ≠ .decision
  decisions : p'.trail.decisions = p.trail.decisions
  prop : p'.trail.propagated = p.trail.propagated
  binary : p'.binary = p.binary
  unsat : p'.unsat = p.unsat
  free : p'.trail.steps.length + freeCount n p'.trail.steps =
    p.trail.steps.length + freeCount n p.trail.steps

theorem Ext.refl (n : Nat) (p : PropState) : Ext n p p :=
  ⟨⟨[], by simp⟩, rfl, rfl, rfl, rfl, rfl⟩

theorem Ext.level {n : Nat} {p q : PropState} (h : Ext n p q) :
    q.trail.decisionLevel = p.trail.decisionLevel := by
  unfold Trail.decisionLevel; rw [h.decisions]

theorem Ext.trans {n : Nat} {p q r : PropState} (h : Ext n p q) (h' : Ext n q r) : Ext n p r := by
  obtain ⟨a, a1, a2⟩ := h.steps
  obtain ⟨b, b1, b2⟩ := h'.steps
  refine ⟨⟨a ++ b, by rw [b1, a1, List.append_assoc], ?_⟩, h'.decisions.trans h.decisions,
    h'.prop.trans h.prop, h'.binary.trans h.binary, h'.unsat.trans h.unsat, h'.free.trans h.free⟩
  intro s hs
  rcases List.mem_append.1 hs with hs | hs
  · exact a2 s hs
  · rw [← h.level]; exact b2 s hs

theorem Ext.mem {n : Nat} {p q : PropState} (h : Ext n p q) {s : Step} (hs : s ∈ p.trail.steps) :
    s ∈ q.trail.steps := by
  obtain ⟨a, a1, _⟩ := h.steps
  rw [a1]; simp [hs]

theorem Ext.get {n : Nat} {p q : PropState} (h : Ext n p q) {i : Nat} {s : Step}
    (hs : p.trail.steps[i]? = some s) : q.trail.steps[i]? = some s := by
  obtain ⟨a, a1, _⟩ := h.steps
  rw [a1, List.getElem?_append_left (List.getElem?_eq_some_iff.1 hs).1]; exact hs

/-- The step literal is not assigned. -/
theorem TrailInv.not_index {n : Nat} {values : PartialAssignment} {t : Trail}
    (h : TrailInv n values t) {l : Lit} (hun : values.val l = none) :
    ∀ x ∈ t.steps, x.lit.index ≠ l.index := by
  intro x hx e
  rcases Lit.eq_or_eq_neg e with e | e
  · have := (h.val_iff l).2 ⟨x, hx, e⟩
    rw [hun] at this; simp at this
  · have := (h.val_false_iff l).2 ⟨x, hx, e⟩
    rw [hun] at this; simp at this

/-- Propagating an unassigned literal. -/
theorem PInv.assign {n : Nat} {S : List LC} {p : PropState} (h : PInv n S p) {s : Step}
    (hl : s.lit.index < n) (hlev : s.level = p.trail.decisionLevel)
    (hun : p.values.val s.lit = none) (hnu : s.reason ≠ .unit ∧ s.reason ≠ .decision)
    (hr : ReasonOK p.binary S (p.trail.push s) p.trail.steps.length s) :
    Wp (p.assign s) (fun p' =>
      p' = { p with values := p.values.push s.lit, trail := p.trail.push s } ∧
      PInv n S p' ∧ Ext n p p') := by
  rw [assign_eq h.sized hl h.trail.vwf hun]
  by_cases hlen : p.trail.steps.length < UNASSIGNED
  · rw [if_pos hlen, wp_ok]
    have hk := h.trail.prop_le
    refine ⟨rfl, ⟨h.sized.push s, h.trail.push h.sized.values h.sized.tix hl hlev (.inl hun),
      h.reasons.push hr, h.rep, h.long, h.ws, h.blk, h.wsat.snoc hk s, h.bs, h.bsat.snoc hk s,
      h.enabled, by simp [Trail.push]; omega⟩, ⟨[s], rfl, by simpa using ⟨hlev, hnu⟩⟩, rfl, rfl, rfl, rfl, ?_⟩
    have := freeCount_snoc hl (h.trail.not_index hun)
    simp only [Trail.push, List.length_append, List.length_singleton]
    omega
  · rw [if_neg hlen]; simp

theorem PInv.isTrue {n : Nat} {S : List LC} {p : PropState} (h : PInv n S p) {l : Lit}
    (hl : l.index < n) : p.values.isTrue l = .ok (p.values.val l == some true) :=
  PartialAssignment.isTrue_eq (by rw [h.sized.values]; exact hl)

theorem PInv.isFalse {n : Nat} {S : List LC} {p : PropState} (h : PInv n S p) {l : Lit}
    (hl : l.index < n) : p.values.isFalse l = .ok (p.values.val l == some false) :=
  PartialAssignment.isFalse_eq (by rw [h.sized.values]; exact hl)

/-- A falsified clause of the database with a literal of the current level. -/
def ConflictOK (S : List LC) (p : PropState) : ConflictClause → Prop
  | .binary a b => (∃ bs, p.binary[a.code]? = some bs ∧ b ∈ bs) ∧
      (∃ s ∈ p.trail.steps, s.lit = a.neg ∧ s.level = p.trail.decisionLevel) ∧
      (∃ s ∈ p.trail.steps, s.lit = b.neg)
  | .long c => ∃ e ∈ S, e.ref = c ∧ e.live ∧
      (∀ l ∈ e.lits, ∃ s ∈ p.trail.steps, s.lit = l.neg) ∧
      (∃ l ∈ e.lits, ∃ s ∈ p.trail.steps, s.lit = l.neg ∧ s.level = p.trail.decisionLevel)

/-! ## Binary clauses -/

theorem propagateBinary_spec {n : Nat} {S : List LC} (c : Lit) (rest : List Lit) :
    ∀ (p : PropState), PInv n S p →
    (∃ bs, p.binary[c.code]? = some bs ∧ ∀ b ∈ rest, b ∈ bs) →
    (∃ m, p.trail.steps[p.trail.propagated]? = some m ∧ m.lit = c.neg) →
    Wp (propagateBinary c rest p) (fun (p', r) => PInv n S p' ∧ Ext n p p' ∧
      p'.watches = p.watches ∧ p'.long = p.long ∧
      (r = none → ∀ b ∈ rest, ∃ t ∈ p'.trail.steps, t.lit = b) ∧
      (∀ x, r = some x → ConflictOK S p' x)) := by
  induction rest with
  | nil =>
    intro p h _ _
    simp only [propagateBinary, wp_pure]
    exact ⟨h, .refl n p, by trivial, by trivial, by simp, by simp⟩
  | cons b rest ih =>
    rintro p h ⟨bs, hbs, hin⟩ ⟨m, hm, hmc⟩
    have hbm : b ∈ bs := hin b (by simp)
    have hb : b.index < n := h.bs.idx c bs hbs b hbm
    have hmm : m ∈ p.trail.steps := List.mem_iff_getElem?.2 ⟨_, hm⟩
    have hmlev := h.trail.prop_level _ m (Nat.le_refl _) hm
    have hcn : c.index < n := by have := h.trail.idx_lt m hmm; rw [hmc] at this; simpa using this
    simp only [propagateBinary, h.isTrue hb, bind_ok]
    have hrest : ∃ bs, p.binary[c.code]? = some bs ∧ ∀ b ∈ rest, b ∈ bs :=
      ⟨bs, hbs, fun x hx => hin x (by simp [hx])⟩
    by_cases h1 : p.values.val b = some true
    · simp only [h1, beq_self_eq_true, if_true]
      refine (ih p h hrest ⟨m, hm, hmc⟩).mono ?_
      rintro ⟨p', r⟩ ⟨i1, i2, i3, i4, i5, i6⟩
      refine ⟨i1, i2, i3, i4, ?_, i6⟩
      intro hr x hx
      rcases List.mem_cons.1 hx with rfl | hx
      · obtain ⟨s, hs, e⟩ := (h.trail.val_iff x).1 h1
        exact ⟨s, i2.mem hs, e⟩
      · exact i5 hr x hx
    · have e1 : (p.values.val b == some true) = false := by simpa using h1
      simp only [e1, Bool.false_eq_true, if_false, h.isFalse hb, bind_ok]
      by_cases h2 : p.values.val b = some false
      · simp only [h2, beq_self_eq_true, if_true, wp_pure]
        refine ⟨h, .refl n p, by trivial, by trivial, by simp, ?_⟩
        intro x hx
        injection hx with hx; subst hx
        exact ⟨⟨bs, hbs, hbm⟩, ⟨m, hmm, hmc, hmlev⟩, (h.trail.val_false_iff b).1 h2⟩
      · have e2 : (p.values.val b == some false) = false := by simpa using h2
        simp only [e2, Bool.false_eq_true, if_false, wp_bind]
        have h3 : p.values.val b = none := by
          cases hv : p.values.val b with
          | none => rfl
          | some v => cases v <;> simp_all
        have hsym : ∃ as, p.binary[b.code]? = some as ∧ c ∈ as := by
          have hlt : b.code < p.binary.length := by
            rw [h.sized.bin]; exact Lit.code_lt_of_index_lt hb
          refine ⟨_, List.getElem?_eq_getElem hlt, ?_⟩
          have := h.bs.symm c b _ bs hbs (List.getElem?_eq_getElem hlt)
          have hpos : 0 < bs.count b := List.count_pos_iff.2 hbm
          rw [this] at hpos
          exact List.count_pos_iff.1 hpos
        have hmlen : p.trail.propagated < p.trail.steps.length :=
          (List.getElem?_eq_some_iff.1 hm).1
        refine (h.assign (s := ⟨b, p.trail.decisionLevel, .binary c⟩) hb rfl h3 (by simp)
          ⟨hsym, _, m, hmlen, getElem?_snoc.2 (.inl hm), hmc⟩).mono ?_
        rintro p' ⟨rfl, hp', hext⟩
        refine (ih _ hp' hrest ⟨m, ?_, hmc⟩).mono ?_
        · exact getElem?_snoc.2 (.inl hm)
        · rintro ⟨p', r⟩ ⟨i1, i2, i3, i4, i5, i6⟩
          refine ⟨i1, hext.trans i2, i3, i4, ?_, i6⟩
          intro hr x hx
          rcases List.mem_cons.1 hx with rfl | hx
          · exact ⟨⟨x, p.trail.decisionLevel, .binary c⟩, i2.mem (by simp [Trail.push]), rfl⟩
          · exact i5 hr x hx

/-! ## Long clauses -/

/-- Same clause, the same two watched literals. -/
structure LC.WSim (e e' : LC) : Prop where
  ref : e'.ref = e.ref
  lits : e'.lits.Perm e.lits
  two : (e'.lits.take 2).Perm (e.lits.take 2)

theorem LC.WSim.refl (e : LC) : LC.WSim e e := ⟨rfl, .refl _, .refl _⟩

theorem LC.WSim.live {a b : LC} (h : LC.WSim a b) : b.live = a.live := by
  have := h.lits.length_eq
  unfold LC.live
  cases ha : a.lits <;> cases hb : b.lits <;> simp_all

theorem WatchStruct.mod {S : List LC} {B : List (List Watch)} (h : WatchStruct S B) {r : Nat}
    {f : LC → LC} (hf : ∀ e ∈ S, e.ref = r → LC.WSim e (f e)) : WatchStruct (modS S r f) B := by
  have key : ∀ e ∈ S, LC.WSim e (if e.ref = r then f e else e) := by
    intro e he
    by_cases h : e.ref = r
    · rw [if_pos h]; exact hf e he h
    · rw [if_neg h]; exact .refl e
  constructor
  · intro l ws hws w hw
    obtain ⟨e, he, h1, h2⟩ := h.mem l ws hws w hw
    have hk := key e he
    refine ⟨_, mem_modS.2 ⟨e, he, rfl⟩, hk.ref.trans h1, ?_⟩
    intro hl
    rw [hk.live] at hl
    exact ⟨hk.two.mem_iff.2 (h2 hl).1, (hk.lits.erase l).mem_iff.2 (h2 hl).2⟩
  · intro l ws hws e' he' hl
    obtain ⟨e, he, rfl⟩ := mem_modS.1 he'
    have hk := key e he
    rw [hk.live] at hl
    rw [hk.ref, hk.two.count_eq]
    exact h.count l ws hws e he hl

theorem WatchSat.mod {S : List LC} {steps : List Step} {k : Nat} (h : WatchSat S steps k) {r : Nat}
    {f : LC → LC} (hf : ∀ e ∈ S, e.ref = r → LC.WSim e (f e)) : WatchSat (modS S r f) steps k := by
  intro e' he' hl w hw i s hi hs hsw
  obtain ⟨e, he, rfl⟩ := mem_modS.1 he'
  by_cases hr : e.ref = r
  · rw [if_pos hr] at hl hw ⊢
    have hk := hf e he hr
    rw [hk.live] at hl
    obtain ⟨t, h1, h2, h3⟩ := h e he hl w (hk.two.mem_iff.1 hw) i s hi hs hsw
    exact ⟨t, h1, hk.lits.mem_iff.2 h2, h3⟩
  · rw [if_neg hr] at hl hw ⊢
    exact h e he hl w hw i s hi hs hsw

theorem ReasonInv.mod {bin : List (List Lit)} {S : List LC} {t : Trail} (h : ReasonInv bin S t)
    {r : Nat} {f : LC → LC} (hf : ∀ e ∈ S, e.ref = r → (f e).ref = e.ref ∧
      ((f e).lits = e.lits ∨ ∀ s ∈ t.steps, ∀ rest, e.lits ≠ s.lit :: rest)) :
    ReasonInv bin (modS S r f) t := by
  intro i s hs
  have := h i s hs
  unfold ReasonOK at *
  cases hx : s.reason with
  | decision => rw [hx] at this; exact this
  | unit => rw [hx] at this; exact this
  | binary o => rw [hx] at this; exact this
  | long c =>
    rw [hx] at this
    obtain ⟨e, he, hr, rest, h1, h2⟩ := this
    refine ⟨_, mem_modS.2 ⟨e, he, rfl⟩, ?_⟩
    by_cases hr' : e.ref = r
    · rw [if_pos hr']
      obtain ⟨g1, g2⟩ := hf e he hr'
      refine ⟨g1.trans hr, rest, ?_, h2⟩
      rcases g2 with g2 | g2
      · rw [g2, h1]
      · exact absurd h1 (g2 s (List.mem_iff_getElem?.2 ⟨i, hs⟩) rest)
    · rw [if_neg hr']
      exact ⟨hr, rest, h1, h2⟩

theorem LongOK.mod {n : Nat} {S : List LC} (h : LongOK n S) {r : Nat} {f : LC → LC}
    (hf : ∀ e ∈ S, e.ref = r → (f e).lits.Perm e.lits ∧
      (e.live → (f e).hdr.searchPos + 2 < e.lits.length)) : LongOK n (modS S r f) := by
  constructor
  · intro e' he' hl
    obtain ⟨e, he, rfl⟩ := mem_modS.1 he'
    by_cases hr : e.ref = r
    · rw [if_pos hr] at hl ⊢
      obtain ⟨g1, g2⟩ := hf e he hr
      have hl' : e.live := by
        rw [LC.live_iff] at hl ⊢
        intro e0; rw [e0] at g1; exact hl g1.eq_nil
      rw [g1.length_eq]
      exact ⟨(h.len e he hl').1, g2 hl'⟩
    · rw [if_neg hr] at hl ⊢
      exact h.len e he hl
  · intro e' he' l hl
    obtain ⟨e, he, rfl⟩ := mem_modS.1 he'
    by_cases hr : e.ref = r
    · rw [if_pos hr] at hl
      exact h.idx e he l ((hf e he hr).1.mem_iff.1 hl)
    · rw [if_neg hr] at hl
      exact h.idx e he l hl

theorem mem_erase_of_take {ls : List Lit} {a b : Lit} (h : (ls.take 2).Perm [a, b]) : b ∈ ls.erase a := by
  have : ls.Perm (a :: b :: ls.drop 2) := by
    have := h.append_right (ls.drop 2)
    rwa [List.take_append_drop] at this
  rw [(this.erase a).mem_iff]
  simp

/-- Moving a watch to another literal. -/
theorem WatchStruct.move {S : List LC} {B : List (List Watch)} (h : WatchStruct S B)
    (uniq : ∀ e ∈ S, ∀ e' ∈ S, e.ref = e'.ref → e = e') {e : LC} (he : e ∈ S) (hlive : e.live)
    {watched other l : Lit} (h2 : (e.lits.take 2).Perm [watched, other]) {ls : List Lit}
    (hls : ls.Perm e.lits) (ht : ls.take 2 = [l, other]) (hne : l ≠ watched)
    {kept rest Wl : List Watch} {w : Watch} (hw : B[watched.code]? = some (kept ++ w :: rest))
    (hwc : w.clause = e.ref) (hWl : B[l.code]? = some Wl) :
    WatchStruct (modS S e.ref (fun e => { e with lits := ls }))
      ((B.set watched.code (kept ++ rest)).set l.code (Wl ++ [⟨w.clause, other⟩])) := by
  have hcl : l.code < B.length := (List.getElem?_eq_some_iff.1 hWl).1
  have hcw : watched.code < B.length := (List.getElem?_eq_some_iff.1 hw).1
  have hcne : l.code ≠ watched.code := fun x => hne (Lit.ext_code x)
  -- lookup in the new lists
  have look : ∀ (x : Lit) ws,
      ((B.set watched.code (kept ++ rest)).set l.code (Wl ++ [⟨w.clause, other⟩]))[x.code]? = some ws →
      (x = l ∧ ws = Wl ++ [⟨w.clause, other⟩]) ∨ (x = watched ∧ ws = kept ++ rest) ∨
      (x ≠ l ∧ x ≠ watched ∧ B[x.code]? = some ws) := by
    intro x ws hx
    by_cases h1 : x = l
    · subst h1
      rw [List.getElem?_set_self (by simpa using hcl)] at hx
      injection hx with hx
      exact .inl ⟨rfl, hx.symm⟩
    · rw [List.getElem?_set_ne (fun c => h1 (Lit.ext_code c.symm))] at hx
      by_cases h3 : x = watched
      · subst h3
        rw [List.getElem?_set_self hcw] at hx
        injection hx with hx
        exact .inr (.inl ⟨rfl, hx.symm⟩)
      · rw [List.getElem?_set_ne (fun c => h3 (Lit.ext_code c.symm))] at hx
        exact .inr (.inr ⟨h1, h3, hx⟩)
  -- an old entry
  have old : ∀ (x : Lit) ws (hx : B[x.code]? = some ws) (y : Watch) (hy : y ∈ ws)
      (hcond : y.clause = e.ref → x = other ∨ x = l), ∃ e' ∈
      modS S e.ref (fun e => { e with lits := ls }), e'.ref = y.clause ∧
      (e'.live → x ∈ e'.lits.take 2 ∧ y.blocking ∈ e'.lits.erase x) := by
    intro x ws hx y hy hcond
    obtain ⟨e', he', g1, g2⟩ := h.mem x ws hx y hy
    refine ⟨_, mem_modS.2 ⟨e', he', rfl⟩, ?_⟩
    by_cases hr : e'.ref = e.ref
    · rw [if_pos hr]
      have := uniq e' he' e he hr
      subst this
      refine ⟨g1, fun _ => ?_⟩
      obtain ⟨_, g3⟩ := g2 hlive
      refine ⟨?_, (hls.erase x).mem_iff.2 g3⟩
      simp only [ht]
      rcases hcond (g1.symm) with rfl | rfl <;> simp
    · rw [if_neg hr]; exact ⟨g1, g2⟩
  constructor
  · intro x ws hx y hy
    rcases look x ws hx with ⟨rfl, rfl⟩ | ⟨rfl, rfl⟩ | ⟨h1, h3, hx⟩
    · rcases List.mem_append.1 hy with hy | hy
      · exact old x Wl hWl y hy (fun _ => .inr rfl)
      · simp only [List.mem_singleton] at hy
        subst hy
        refine ⟨_, mem_modS.2 ⟨e, he, rfl⟩, ?_⟩
        rw [if_pos rfl]
        refine ⟨hwc.symm, fun _ => ⟨by simp [ht], ?_⟩⟩
        exact mem_erase_of_take (by rw [ht])
    · -- still in the list of the false literal
      have hy' : y ∈ kept ++ w :: rest := by
        rcases List.mem_append.1 hy with hy | hy
        · simp [hy]
        · simp [hy]
      refine old x _ hw y hy' ?_
      intro hc
      left
      -- two entries of the clause: the watched literal occurs twice
      have hc2 : 2 ≤ (kept ++ w :: rest).countP (fun z => z.clause = e.ref) := by
        rw [List.countP_append, List.countP_cons_of_pos (by simpa using hwc)]
        have : 1 ≤ (kept ++ rest).countP (fun z => z.clause = e.ref) :=
          List.countP_pos_iff.2 ⟨y, hy, by simpa using hc⟩
        rw [List.countP_append] at this
        omega
      rw [h.count x _ hw e he hlive, h2.count_eq] at hc2
      by_contra hxo
      have : List.count x [x, other] = 1 := by
        rw [List.count_cons_self, List.count_cons_of_ne (fun c => hxo c.symm)]; rfl
      omega
    · refine old x ws hx y hy ?_
      intro hc
      left
      obtain ⟨e', he', g1, g2⟩ := h.mem x ws hx y hy
      have := uniq e' he' e he (g1.trans hc)
      subst this
      have := h2.mem_iff.1 (g2 hlive).1
      simp only [List.mem_cons, List.not_mem_nil, or_false] at this
      rcases this with c | c
      · exact absurd c h3
      · exact c
  · intro x ws hx e' he' hl
    obtain ⟨e0, he0, rfl⟩ := mem_modS.1 he'
    by_cases hr : e0.ref = e.ref
    · rw [if_pos hr]
      have := uniq e0 he0 e he hr
      subst this
      simp only [ht]
      rcases look x ws hx with ⟨rfl, rfl⟩ | ⟨rfl, rfl⟩ | ⟨h1, h3, hx⟩
      · have hc := h.count x Wl hWl e0 he0 hlive
        rw [h2.count_eq, List.count_cons_of_ne (fun c => hne c.symm)] at hc
        rw [List.countP_append, hc, List.count_cons_self]
        simp [hwc]
      · have hc := h.count x _ hw e0 he0 hlive
        rw [h2.count_eq, List.countP_append, List.countP_cons_of_pos (by simpa using hwc),
          List.count_cons_self] at hc
        rw [List.countP_append, List.count_cons_of_ne hne]
        omega
      · have hc := h.count x ws hx e0 he0 hlive
        rw [h2.count_eq, List.count_cons_of_ne (fun c => h3 c.symm)] at hc
        rw [hc, List.count_cons_of_ne (fun c => h1 c.symm)]
    · rw [if_neg hr] at hl ⊢
      rcases look x ws hx with ⟨rfl, rfl⟩ | ⟨rfl, rfl⟩ | ⟨h1, h3, hx⟩
      · rw [List.countP_append, h.count x Wl hWl e0 he0 hl]
        have : ¬ w.clause = e0.ref := fun c => hr (c.symm.trans hwc)
        simp [this]
      · rw [← h.count x _ hw e0 he0 hl, List.countP_append, List.countP_append,
          List.countP_cons_of_neg]
        simpa using fun c : w.clause = e0.ref => hr (c.symm.trans hwc)
      · exact h.count x ws hx e0 he0 hl

/-- Replacing the blocking literal of a watch. -/
theorem WatchStruct.reblock {S : List LC} {B : List (List Watch)} (h : WatchStruct S B)
    (uniq : ∀ e ∈ S, ∀ e' ∈ S, e.ref = e'.ref → e = e') {e : LC} (he : e ∈ S)
    {watched b : Lit} {kept rest : List Watch} {w : Watch}
    (hw : B[watched.code]? = some (kept ++ w :: rest)) (hwc : w.clause = e.ref)
    (hb : b ∈ e.lits.erase watched) :
    WatchStruct S (B.set watched.code (kept ++ { w with blocking := b } :: rest)) := by
  have hcw : watched.code < B.length := (List.getElem?_eq_some_iff.1 hw).1
  have look : ∀ (x : Lit) ws,
      (B.set watched.code (kept ++ { w with blocking := b } :: rest))[x.code]? = some ws →
      (x = watched ∧ ws = kept ++ { w with blocking := b } :: rest) ∨ B[x.code]? = some ws := by
    intro x ws hx
    by_cases h3 : x = watched
    · subst h3
      rw [List.getElem?_set_self hcw] at hx
      injection hx with hx
      exact .inl ⟨rfl, hx.symm⟩
    · rw [List.getElem?_set_ne (fun c => h3 (Lit.ext_code c.symm))] at hx
      exact .inr hx
  constructor
  · intro x ws hx y hy
    rcases look x ws hx with ⟨rfl, rfl⟩ | hx
    · simp only [List.mem_append, List.mem_cons] at hy
      rcases hy with hy | rfl | hy
      · exact h.mem x _ hw y (by simp [hy])
      · obtain ⟨e', he', g1, g2⟩ := h.mem x _ hw w (by simp)
        have := uniq e' he' e he (g1.trans hwc)
        subst this
        exact ⟨e', he', g1, fun hl => ⟨(g2 hl).1, hb⟩⟩
      · exact h.mem x _ hw y (by simp [hy])
    · exact h.mem x ws hx y hy
  · intro x ws hx e' he' hl
    rcases look x ws hx with ⟨rfl, rfl⟩ | hx
    · rw [← h.count x _ hw e' he' hl]
      simp [List.countP_append, List.countP_cons]
    · exact h.count x ws hx e' he' hl

/-- Dropping a watch of a deleted clause. -/
theorem WatchStruct.drop {S : List LC} {B : List (List Watch)} (h : WatchStruct S B)
    (uniq : ∀ e ∈ S, ∀ e' ∈ S, e.ref = e'.ref → e = e') {e : LC} (he : e ∈ S) (hd : e.lits = [])
    {watched : Lit} {kept rest : List Watch} {w : Watch}
    (hw : B[watched.code]? = some (kept ++ w :: rest)) (hwc : w.clause = e.ref) :
    WatchStruct S (B.set watched.code (kept ++ rest)) := by
  have hcw : watched.code < B.length := (List.getElem?_eq_some_iff.1 hw).1
  have look : ∀ (x : Lit) ws, (B.set watched.code (kept ++ rest))[x.code]? = some ws →
      (x = watched ∧ ws = kept ++ rest) ∨ B[x.code]? = some ws := by
    intro x ws hx
    by_cases h3 : x = watched
    · subst h3
      rw [List.getElem?_set_self hcw] at hx
      injection hx with hx
      exact .inl ⟨rfl, hx.symm⟩
    · rw [List.getElem?_set_ne (fun c => h3 (Lit.ext_code c.symm))] at hx
      exact .inr hx
  constructor
  · intro x ws hx y hy
    rcases look x ws hx with ⟨rfl, rfl⟩ | hx
    · refine h.mem x _ hw y ?_
      rcases List.mem_append.1 hy with hy | hy <;> simp [hy]
    · exact h.mem x ws hx y hy
  · intro x ws hx e' he' hl
    rcases look x ws hx with ⟨rfl, rfl⟩ | hx
    · rw [← h.count x _ hw e' he' hl, List.countP_append, List.countP_append,
        List.countP_cons_of_neg]
      have : w.clause ≠ e'.ref := by
        intro c
        have := uniq e' he' e he (c.symm.trans hwc)
        subst this
        rw [LC.live_iff] at hl
        exact hl hd
      simpa using this
    · exact h.count x ws hx e' he' hl

end Starlit
