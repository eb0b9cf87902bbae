import Verif.Spec
import Verif.Solver.Backtrack

/-!
# The clause database of the proof and the stored clauses
-/

namespace Starlit

/-- A stored clause up to the order of its literals. -/
def LC.cl (e : LC) : Multiset Lit := (e.lits : Multiset Lit)

/-- The stored learned long clauses. -/
def liveRed (S : List LC) : DB :=
  Multiset.ofList ((S.filter (fun e => e.live && e.hdr.redundant)).map LC.cl)

/-- The stored input long clauses. -/
def liveIrr (S : List LC) : DB :=
  Multiset.ofList ((S.filter (fun e => e.live && !e.hdr.redundant)).map LC.cl)

/-- The stored clauses and the database `F + L`: `F` are the input clauses, `L` the learned
clauses. -/
structure DBInv (F L : DB) (S : List LC) (B : List (List Lit)) (steps : List Step)
    (u : Bool) : Prop where
  red : liveRed S = L.filter (fun c => 3 ≤ c.card)
  irr : liveIrr S = F.filter (fun c => 3 ≤ c.card)
  bin : ∀ (a b : Lit) bs, B[a.code]? = some bs → b ∈ bs → (a ::ₘ {b} : Multiset Lit) ∈ F + L
  fbin : ∀ a b : Lit, (a ::ₘ {b} : Multiset Lit) ∈ F → ∃ bs, B[a.code]? = some bs ∧ b ∈ bs
  unit : ∀ s ∈ steps, s.reason = .unit → ({s.lit} : Multiset Lit) ∈ F + L
  funit : ∀ a : Lit, ({a} : Multiset Lit) ∈ F → u = true ∨ ∃ s ∈ steps, s.lit = a ∧ s.level = 0
  fempty : (0 : Multiset Lit) ∈ F → u = true

theorem LC.Sim.cl {a b : LC} (h : LC.Sim a b) : b.cl = a.cl := Multiset.coe_eq_coe.2 h.lits

theorem SSim.liveRed {S S' : List LC} (h : SSim S S') : liveRed S' = liveRed S := by
  induction h with
  | nil => rfl
  | @cons a b S S' hab _ ih =>
    unfold Starlit.liveRed at *
    simp only [List.filter_cons, hab.live, hab.red]
    split
    · simp only [List.map_cons, ← Multiset.cons_coe, ih, hab.cl]
    · exact ih

theorem SSim.liveIrr {S S' : List LC} (h : SSim S S') : liveIrr S' = liveIrr S := by
  induction h with
  | nil => rfl
  | @cons a b S S' hab _ ih =>
    unfold Starlit.liveIrr at *
    simp only [List.filter_cons, hab.live, hab.red]
    split
    · simp only [List.map_cons, ← Multiset.cons_coe, ih, hab.cl]
    · exact ih

theorem DBInv.sim {F L : DB} {S S' : List LC} {bin : List (List Lit)} {steps : List Step}
    {u : Bool} (h : DBInv F L S bin steps u) (hs : SSim S S') : DBInv F L S' bin steps u :=
  ⟨by rw [hs.liveRed]; exact h.red, by rw [hs.liveIrr]; exact h.irr, h.bin, h.fbin, h.unit, h.funit,
    h.fempty⟩

/-- Every stored long clause is in the database. -/
theorem DBInv.mem {F L : DB} {S : List LC} {bin : List (List Lit)} {steps : List Step}
    {u : Bool} (h : DBInv F L S bin steps u) {e : LC} (he : e ∈ S) (hl : e.live) :
    e.cl ∈ F + L := by
  rw [Multiset.mem_add]
  cases hr : e.hdr.redundant with
  | true =>
    right
    have : e.cl ∈ liveRed S := by
      unfold liveRed
      rw [Multiset.mem_coe, List.mem_map]
      exact ⟨e, List.mem_filter.2 ⟨he, by simp [hl, hr]⟩, rfl⟩
    rw [h.red] at this
    exact (Multiset.mem_filter.1 this).1
  | false =>
    left
    have : e.cl ∈ liveIrr S := by
      unfold liveIrr
      rw [Multiset.mem_coe, List.mem_map]
      exact ⟨e, List.mem_filter.2 ⟨he, by simp [hl, hr]⟩, rfl⟩
    rw [h.irr] at this
    exact (Multiset.mem_filter.1 this).1

/-- Every long clause of the formula is stored. -/
theorem DBInv.stored {F L : DB} {S : List LC} {bin : List (List Lit)} {steps : List Step}
    {u : Bool} (h : DBInv F L S bin steps u) {c : Multiset Lit} (hc : c ∈ F) (h3 : 3 ≤ c.card) :
    ∃ e ∈ S, e.live ∧ e.cl = c := by
  have : c ∈ liveIrr S := by rw [h.irr]; exact Multiset.mem_filter.2 ⟨hc, h3⟩
  unfold liveIrr at this
  rw [Multiset.mem_coe, List.mem_map] at this
  obtain ⟨e, he, rfl⟩ := this
  obtain ⟨he, hp⟩ := List.mem_filter.1 he
  simp at hp
  exact ⟨e, he, hp.1, rfl⟩

section
variable {n : Nat} {S : List LC} {p : PropState} {F L : DB}

/-- The literals of a reason. -/
theorem PInv.reason (h : PInv n S p) {i : Nat} {s : Step} (hs : p.trail.steps[i]? = some s) :
    ∃ rs, p.reasonLits s.reason = .ok rs ∧ (∀ o ∈ rs, Before p.trail.steps i o.neg) ∧
      rs.length ≤ p.long.buffer.length + 1 := by
  have hr := h.reasons i s hs
  unfold ReasonOK at hr
  cases hx : s.reason with
  | decision => exact ⟨[], rfl, by simp, by simp⟩
  | unit => exact ⟨[], rfl, by simp, by simp⟩
  | binary o =>
    rw [hx] at hr
    exact ⟨[o], rfl, by simpa using hr.2, by simp⟩
  | long c =>
    rw [hx] at hr
    obtain ⟨e, he, rfl, rest, h1, h2⟩ := hr
    refine ⟨rest, ?_, h2, ?_⟩
    · simp only [PropState.reasonLits]
      rw [h.rep.lits_ok he, h1]; rfl
    · have := h.rep.len_le_buffer he
      rw [h1] at this; simp at this; omega

/-- The clause of a reason is in the database. -/
theorem PInv.reason_db (h : PInv n S p) (d : DBInv F L S p.binary p.trail.steps p.unsat) {i : Nat}
    {s : Step} (hs : p.trail.steps[i]? = some s) (hd : s.reason ≠ .decision) {rs : List Lit}
    (hrs : p.reasonLits s.reason = .ok rs) : (s.lit ::ₘ (rs : Multiset Lit)) ∈ F + L := by
  have hr := h.reasons i s hs
  unfold ReasonOK at hr
  cases hx : s.reason with
  | decision => exact absurd hx hd
  | unit =>
    rw [hx] at hrs
    cases hrs
    exact d.unit s (List.mem_iff_getElem?.2 ⟨i, hs⟩) hx
  | binary o =>
    rw [hx] at hrs hr
    cases hrs
    obtain ⟨⟨bs, h1, h2⟩, _⟩ := hr
    exact d.bin _ _ _ h1 h2
  | long c =>
    rw [hx] at hr hrs
    obtain ⟨e, he, rfl, rest, h1, h2⟩ := hr
    simp only [PropState.reasonLits] at hrs
    rw [h.rep.lits_ok he, h1] at hrs
    cases hrs
    have := d.mem he (LC.live_iff.2 (by rw [h1]; simp))
    unfold LC.cl at this
    rw [h1] at this
    exact this

theorem PInv.implied_step (h : PInv n S p) (d : DBInv F L S p.binary p.trail.steps p.unsat) {i : Nat}
    {s : Step} (hs : p.trail.steps[i]? = some s) (hd : s.reason ≠ .decision) {rs : List Lit}
    (hrs : p.reasonLits s.reason = .ok rs) {A : Lit → Prop}
    (hA : ∀ o ∈ rs, Implied (F + L) A o.neg) : Implied (F + L) A s.lit :=
  .unit (h.reason_db d hs hd hrs) (by simpa using hA)

/-- Every assigned literal follows by unit propagation from the decisions up to its level. -/
theorem PInv.implied (h : PInv n S p) (d : DBInv F L S p.binary p.trail.steps p.unsat) :
    ∀ (i : Nat) {s : Step}, p.trail.steps[i]? = some s →
      Implied (F + L) (fun l => ∃ s' ∈ p.trail.steps, s'.reason = .decision ∧ s'.level ≤ s.level ∧
        s'.lit = l) s.lit := by
  intro i
  induction i using Nat.strongRecOn with
  | ind i ih =>
    intro s hs
    by_cases hd : s.reason = .decision
    · exact .asm ⟨s, List.mem_iff_getElem?.2 ⟨i, hs⟩, hd, Nat.le_refl _, rfl⟩
    · obtain ⟨rs, h1, h2, _⟩ := h.reason hs
      refine h.implied_step d hs hd h1 ?_
      intro o ho
      obtain ⟨j, t, hj, ht, e⟩ := h2 o ho
      rw [← e]
      refine (ih j hj ht).mono (fun _ h => h) ?_
      rintro l ⟨s', h3, h4, h5, h6⟩
      have := h.trail.level_mono ht hs (by omega)
      exact .asm ⟨s', h3, h4, by omega, h6⟩

/-- Top-level literals follow by unit propagation. -/
theorem PInv.implied0 (h : PInv n S p) (d : DBInv F L S p.binary p.trail.steps p.unsat)
    {s : Step} (hs : s ∈ p.trail.steps) (h0 : s.level = 0) (A : Lit → Prop) :
    Implied (F + L) A s.lit := by
  obtain ⟨i, hi⟩ := List.mem_iff_getElem?.1 hs
  refine (h.implied d i hi).mono (fun _ h => h) ?_
  rintro l ⟨s', h3, h4, h5, _⟩
  obtain ⟨j, hj⟩ := List.mem_iff_getElem?.1 h3
  have := h.reasons j s' hj
  unfold ReasonOK at this
  rw [h4] at this
  omega

/-- The literals of a conflict. -/
theorem PInv.conflict (h : PInv n S p) (d : DBInv F L S p.binary p.trail.steps p.unsat)
    {c : ConflictClause} (hc : ConflictOK S p c) : ∃ ls, c.lits p = .ok ls ∧
      (∀ l ∈ ls, ∃ s ∈ p.trail.steps, s.lit = l.neg) ∧
      (∃ l ∈ ls, ∃ s ∈ p.trail.steps, s.lit = l.neg ∧ s.level = p.trail.decisionLevel) ∧
      (ls : Multiset Lit) ∈ F + L := by
  cases c with
  | binary a b =>
    obtain ⟨⟨bs, h1, h2⟩, ⟨s, h3, h4, h5⟩, ⟨s', h6, h7⟩⟩ := hc
    refine ⟨[a, b], rfl, ?_, ⟨a, by simp, s, h3, h4, h5⟩, d.bin _ _ _ h1 h2⟩
    intro l hl
    simp at hl
    rcases hl with rfl | rfl
    · exact ⟨s, h3, h4⟩
    · exact ⟨s', h6, h7⟩
  | long c =>
    obtain ⟨e, he, rfl, hl, h1, h2⟩ := hc
    exact ⟨e.lits, h.rep.lits_ok he, h1, h2, d.mem he hl⟩

end

end Starlit
