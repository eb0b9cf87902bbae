import Verif.Solver.Learn

/-!
# Garbage collection only renames clause references
-/

namespace Starlit

theorem Lit.exists_code {c : Nat} (h : c < 2 ^ 32) : ∃ l : Lit, l.code = c :=
  ⟨⟨BitVec.ofNat 32 c⟩, by simp only [Lit.code, BitVec.toNat_ofNat]; omega⟩

/-- Renaming the clause of a reason. -/
def Reason.ren (ρ : Nat → Option Nat) : Reason → Reason
  | .long c => .long ((ρ c).getD c)
  | r => r

/-- Renaming the clause of a step. -/
def Step.ren (ρ : Nat → Option Nat) (s : Step) : Step := { s with reason := s.reason.ren ρ }

/-- The clauses after a collection. -/
def renS (ρ : Nat → Option Nat) (S : List LC) : List LC :=
  S.filterMap (fun e => (ρ e.ref).map (fun r => { e with ref := r }))

theorem mem_renS {ρ : Nat → Option Nat} {S : List LC} {x : LC} :
    x ∈ renS ρ S ↔ ∃ e ∈ S, ∃ r, ρ e.ref = some r ∧ x = { e with ref := r } := by
  unfold renS
  simp only [List.mem_filterMap, Option.map_eq_some_iff]
  constructor
  · rintro ⟨e, he, r, hr, rfl⟩; exact ⟨e, he, r, hr, rfl⟩
  · rintro ⟨e, he, r, hr, rfl⟩; exact ⟨e, he, r, hr, rfl⟩

theorem renS_inj {ρ : Nat → Option Nat} {S : List LC} (h : ((renS ρ S).map LC.ref).Nodup)
    {e e' : LC} (he : e ∈ S) (he' : e' ∈ S) {r : Nat} (hr : ρ e.ref = some r)
    (hr' : ρ e'.ref = some r) : e = e' := by
  by_contra hne
  unfold renS at h
  rw [List.Nodup, List.pairwise_map, List.pairwise_filterMap] at h
  have key : ∀ (S : List LC), S.Pairwise (fun a b => ∀ x,
      Option.map (fun r => ({ a with ref := r } : LC)) (ρ a.ref) = some x →
      ∀ y, Option.map (fun r => ({ b with ref := r } : LC)) (ρ b.ref) = some y → x.ref ≠ y.ref) →
      e ∈ S → e' ∈ S → False := by
    intro S hp
    induction hp with
    | nil => intro h; simp at h
    | @cons a S h1 _ ih =>
      intro h2 h3
      rcases List.mem_cons.1 h2 with e1 | h4
      · rcases List.mem_cons.1 h3 with e2 | h5
        · exact hne (e1.trans e2.symm)
        · subst e1
          exact h1 e' h5 { e with ref := r } (by rw [hr]; rfl) { e' with ref := r }
            (by rw [hr']; rfl) rfl
      · rcases List.mem_cons.1 h3 with e2 | h5
        · subst e2
          exact h1 e h4 { e' with ref := r } (by rw [hr']; rfl) { e with ref := r }
            (by rw [hr]; rfl) rfl
        · exact ih h4 h5
  exact key S h he he'

section
variable {n : Nat} {S : List LC} {p : PropState} {F L : DB} {gaps : List Arena.Gap}
  {ρ : Nat → Option Nat}

theorem updateSteps_spec (hg : ∀ e ∈ S, Arena.gapsUpdate gaps e.ref = .ok (ρ e.ref))
    (hl : ∀ e ∈ S, (ρ e.ref).isSome = e.live) (ss : List Step) :
    (∀ s ∈ ss, ∀ c, s.reason = .long c → ∃ e ∈ S, e.ref = c ∧ e.live) →
    Trail.updateSteps gaps ss = .ok (ss.map (Step.ren ρ)) := by
  induction ss with
  | nil => intro _; rfl
  | cons s ss ih =>
    intro h
    have ih := ih (fun x hx => h x (by simp [hx]))
    unfold Trail.updateSteps
    cases hr : s.reason with
    | long c =>
      obtain ⟨e, he, rfl, hlv⟩ := h s (by simp) c hr
      have h1 := hl e he
      rw [hlv] at h1
      obtain ⟨c', hc'⟩ := Option.isSome_iff_exists.1 h1
      simp only [hg e he, hc', bind_ok]
      rw [bind_pure_ok, ih, bind_ok]
      simp [Step.ren, Reason.ren, hr, hc']; rfl
    | decision =>
      simp only
      rw [bind_pure_ok, ih, bind_ok]
      rw [List.map_cons, show Step.ren ρ s = s by cases s; simp_all [Step.ren, Reason.ren]]; rfl
    | unit =>
      simp only
      rw [bind_pure_ok, ih, bind_ok]
      rw [List.map_cons, show Step.ren ρ s = s by cases s; simp_all [Step.ren, Reason.ren]]; rfl
    | binary o =>
      simp only
      rw [bind_pure_ok, ih, bind_ok]
      rw [List.map_cons, show Step.ren ρ s = s by cases s; simp_all [Step.ren, Reason.ren]]; rfl

/-- A watch list after a collection. -/
def renW (ρ : Nat → Option Nat) (ws : List Watch) : List Watch :=
  ws.filterMap (fun w => (ρ w.clause).map (fun c => { w with clause := c }))

theorem updateList_spec (hg : ∀ e ∈ S, Arena.gapsUpdate gaps e.ref = .ok (ρ e.ref))
    (ws : List Watch) : (∀ w ∈ ws, ∃ e ∈ S, e.ref = w.clause) →
    Watches.updateList gaps ws = .ok (renW ρ ws) := by
  induction ws with
  | nil => intro _; rfl
  | cons w ws ih =>
    intro h
    have ih := ih (fun x hx => h x (by simp [hx]))
    obtain ⟨e, he, hr⟩ := h w (by simp)
    have := hg e he
    rw [hr] at this
    unfold Watches.updateList
    rw [this, bind_ok, ih, bind_ok]
    cases hc : ρ w.clause with
    | some c => simp [renW, hc]; rfl
    | none => simp [renW, hc]; rfl

theorem updateAll_spec (hg : ∀ e ∈ S, Arena.gapsUpdate gaps e.ref = .ok (ρ e.ref))
    (wss : List (List Watch)) : (∀ ws ∈ wss, ∀ w ∈ ws, ∃ e ∈ S, e.ref = w.clause) →
    Watches.updateAll gaps wss = .ok (wss.map (renW ρ)) := by
  induction wss with
  | nil => intro _; rfl
  | cons ws wss ih =>
    intro h
    unfold Watches.updateAll
    rw [updateList_spec hg ws (h ws (by simp)), bind_ok, ih (fun x hx => h x (by simp [hx])),
      bind_ok]; rfl

theorem getElem?_map_ren {steps : List Step} {i : Nat} {s : Step} :
    (steps.map (Step.ren ρ))[i]? = some s ↔ ∃ x, steps[i]? = some x ∧ s = x.ren ρ := by
  rw [List.getElem?_map, Option.map_eq_some_iff]
  constructor
  · rintro ⟨x, h1, h2⟩; exact ⟨x, h1, h2.symm⟩
  · rintro ⟨x, h1, h2⟩; exact ⟨x, h1, h2.symm⟩

theorem mem_map_ren {steps : List Step} {s : Step} :
    s ∈ steps.map (Step.ren ρ) ↔ ∃ x ∈ steps, s = x.ren ρ := by
  rw [List.mem_map]
  constructor
  · rintro ⟨x, h1, h2⟩; exact ⟨x, h1, h2.symm⟩
  · rintro ⟨x, h1, h2⟩; exact ⟨x, h1, h2.symm⟩

theorem Reason.ren_decision {r : Reason} : r.ren ρ = .decision ↔ r = .decision := by
  cases r <;> simp [Reason.ren]

theorem Reason.ren_unit {r : Reason} : r.ren ρ = .unit ↔ r = .unit := by
  cases r <;> simp [Reason.ren]

theorem TrailInv.ren {values : PartialAssignment} {t : Trail} (h : TrailInv n values t) :
    TrailInv n values { t with steps := t.steps.map (Step.ren ρ) } := by
  refine ⟨h.vwf, ?_, ?_, ?_, h.dec0, ?_, ?_, ?_, by simpa using h.prop_le, ?_⟩
  · intro s hs
    obtain ⟨x, hx, rfl⟩ := mem_map_ren.1 hs
    exact h.idx_lt x hx
  · intro l
    rw [h.val_iff]
    constructor
    · rintro ⟨s, hs, e⟩; exact ⟨s.ren ρ, mem_map_ren.2 ⟨s, hs, rfl⟩, e⟩
    · rintro ⟨s, hs, e⟩
      obtain ⟨x, hx, rfl⟩ := mem_map_ren.1 hs
      exact ⟨x, hx, e⟩
  · intro i s hs
    obtain ⟨x, hx, rfl⟩ := getElem?_map_ren.1 hs
    obtain ⟨j, s', h1, h2, h3, h4, h5⟩ := h.tix i x hx
    exact ⟨j, s'.ren ρ, h1, getElem?_map_ren.2 ⟨s', h2, rfl⟩, h3, h4, h5⟩
  · intro i s hs
    obtain ⟨x, hx, rfl⟩ := getElem?_map_ren.1 hs
    exact h.level_le i x hx
  · intro i s hs
    obtain ⟨x, hx, rfl⟩ := getElem?_map_ren.1 hs
    exact h.level i x hx
  · intro k d hk hd
    obtain ⟨s, h1, h2, h3⟩ := h.decs k d hk hd
    exact ⟨s.ren ρ, getElem?_map_ren.2 ⟨s, h1, rfl⟩, Reason.ren_decision.2 h2, h3⟩
  · intro i s hi hs
    obtain ⟨x, hx, rfl⟩ := getElem?_map_ren.1 hs
    exact h.prop_level i x hi hx

theorem Before.ren {steps : List Step} {i : Nat} {l : Lit} (h : Before steps i l) :
    Before (steps.map (Step.ren ρ)) i l := by
  obtain ⟨j, t, h1, h2, h3⟩ := h
  exact ⟨j, t.ren ρ, h1, getElem?_map_ren.2 ⟨t, h2, rfl⟩, h3⟩

theorem ReasonInv.ren {B : List (List Lit)} {t : Trail} (h : ReasonInv B S t)
    (hl : ∀ e ∈ S, (ρ e.ref).isSome = e.live) :
    ReasonInv B (renS ρ S) { t with steps := t.steps.map (Step.ren ρ) } := by
  intro i s hs
  obtain ⟨x, hx, rfl⟩ := getElem?_map_ren.1 hs
  have := h i x hx
  unfold ReasonOK at *
  cases hr : x.reason with
  | decision => rw [hr] at this; simpa [Step.ren, Reason.ren, hr] using this
  | unit => rw [hr] at this; simpa [Step.ren, Reason.ren, hr] using this
  | binary o =>
    rw [hr] at this
    simp only [Step.ren, Reason.ren, hr]
    exact ⟨this.1, this.2.ren⟩
  | long c =>
    rw [hr] at this
    obtain ⟨e, he, rfl, rest, h1, h2⟩ := this
    have hlv := hl e he
    rw [LC.live_iff.2 (by rw [h1]; simp)] at hlv
    obtain ⟨c', hc'⟩ := Option.isSome_iff_exists.1 hlv
    simp only [Step.ren, Reason.ren, hr, hc', Option.getD_some]
    exact ⟨{ e with ref := c' }, mem_renS.2 ⟨e, he, c', hc', rfl⟩, rfl, rest, h1,
      fun o ho => (h2 o ho).ren⟩

theorem WatchStruct.ren {B : List (List Watch)} (h : WatchStruct S B)
    (hl : ∀ e ∈ S, (ρ e.ref).isSome = e.live) (hn : ((renS ρ S).map LC.ref).Nodup)
    (hS : ∀ e ∈ S, ∀ e' ∈ S, e.ref = e'.ref → e = e') :
    WatchStruct (renS ρ S) (B.map (renW ρ)) := by
  constructor
  · intro l ws hws w hw
    rw [List.getElem?_map, Option.map_eq_some_iff] at hws
    obtain ⟨vs, hvs, rfl⟩ := hws
    unfold renW at hw
    simp only [List.mem_filterMap, Option.map_eq_some_iff] at hw
    obtain ⟨v, hv, c, hc, rfl⟩ := hw
    obtain ⟨e, he, h1, h2⟩ := h.mem l vs hvs v hv
    refine ⟨{ e with ref := c }, mem_renS.2 ⟨e, he, c, by rw [h1]; exact hc, rfl⟩, rfl, ?_⟩
    intro hlv
    exact h2 hlv
  · intro l ws hws x hx hlv
    rw [List.getElem?_map, Option.map_eq_some_iff] at hws
    obtain ⟨vs, hvs, rfl⟩ := hws
    obtain ⟨e, he, r, hr, rfl⟩ := mem_renS.1 hx
    rw [show ({ e with ref := r } : LC).lits = e.lits from rfl, ← h.count l vs hvs e he hlv]
    unfold renW
    rw [List.countP_filterMap]
    apply List.countP_congr
    intro v hv
    obtain ⟨y, hy, h1, _⟩ := h.mem l vs hvs v hv
    simp only [decide_eq_true_eq]
    cases hc : ρ v.clause with
    | none =>
      simp
      intro e1
      rw [← e1, hc] at hr; simp at hr
    | some c =>
      simp
      constructor
      · intro e1
        subst e1
        have := renS_inj hn hy he (by rw [h1]; exact hc) hr
        rw [← h1, this]
      · intro e1
        rw [e1, hr] at hc
        injection hc with hc; exact hc.symm

theorem liveRed_ren (hl : ∀ e ∈ S, (ρ e.ref).isSome = e.live) :
    liveRed (renS ρ S) = liveRed S := by
  unfold liveRed renS
  congr 1
  induction S with
  | nil => rfl
  | cons e S ih =>
    have ih := ih (fun x hx => hl x (by simp [hx]))
    have h1 := hl e (by simp)
    rw [List.filterMap_cons]
    cases hr : ρ e.ref with
    | none =>
      rw [hr] at h1
      simp only [Option.map_none, List.filter_cons]
      rw [← h1]; simpa using ih
    | some r =>
      rw [hr] at h1
      have hlv : ({ e with ref := r } : LC).live = e.live := rfl
      simp only [Option.map_some, List.filter_cons, hlv]
      split
      · rw [List.map_cons, List.map_cons, ih]; rfl
      · exact ih

theorem liveIrr_ren (hl : ∀ e ∈ S, (ρ e.ref).isSome = e.live) :
    liveIrr (renS ρ S) = liveIrr S := by
  unfold liveIrr renS
  congr 1
  induction S with
  | nil => rfl
  | cons e S ih =>
    have ih := ih (fun x hx => hl x (by simp [hx]))
    have h1 := hl e (by simp)
    rw [List.filterMap_cons]
    cases hr : ρ e.ref with
    | none =>
      rw [hr] at h1
      simp only [Option.map_none, List.filter_cons]
      rw [← h1]; simpa using ih
    | some r =>
      rw [hr] at h1
      have hlv : ({ e with ref := r } : LC).live = e.live := rfl
      simp only [Option.map_some, List.filter_cons, hlv]
      split
      · rw [List.map_cons, List.map_cons, ih]; rfl
      · exact ih

/-- The state after a collection: clause references are renamed by `ρ` (`none` for deleted clauses),
nothing else changes. -/
structure GcPost (n : Nat) (S : List LC) (p : PropState) (ρ : Nat → Option Nat) (p' : PropState) :
    Prop where
  inv : PInv n (renS ρ S) p'
  live : ∀ e ∈ S, (ρ e.ref).isSome = e.live
  eq : ∃ a, p' = { p with
    long := a
    trail := { p.trail with steps := p.trail.steps.map (Step.ren ρ) }
    watches := { p.watches with byLit := p.watches.byLit.map (renW ρ) } }

theorem GcPost.db {ρ : Nat → Option Nat} {p' : PropState} (h : GcPost n S p ρ p')
    (d : DBInv F L S p.binary p.trail.steps p.unsat) :
    DBInv F L (renS ρ S) p'.binary p'.trail.steps p'.unsat := by
  obtain ⟨a, rfl⟩ := h.eq
  refine ⟨by rw [liveRed_ren h.live]; exact d.red, by rw [liveIrr_ren h.live]; exact d.irr, d.bin,
    d.fbin, ?_, ?_, d.fempty⟩
  · intro s hs hr
    obtain ⟨x, hx, rfl⟩ := mem_map_ren.1 hs
    exact d.unit x hx (Reason.ren_unit.1 hr)
  · intro l hl
    rcases d.funit l hl with e | ⟨s, h1, h2⟩
    · exact .inl e
    · exact .inr ⟨s.ren ρ, mem_map_ren.2 ⟨s, h1, rfl⟩, h2⟩

theorem collectGarbageNow_spec (h : PInv n S p) :
    Wp (collectGarbageNow p) (fun p' => ∃ ρ, GcPost n S p ρ p') := by
  unfold collectGarbageNow
  split
  · rename_i hb
    obtain ⟨a', gaps, e1, ρ, hg, hl, hrep, _⟩ := h.rep.gc_ok hb
    have hrep' : LRep a' (renS ρ S) := hrep
    have e2 := updateSteps_spec hg hl p.trail.steps (by
      intro s hs c hc
      obtain ⟨i, hi⟩ := List.mem_iff_getElem?.1 hs
      have := h.reasons i s hi
      unfold ReasonOK at this
      rw [hc] at this
      obtain ⟨e, he, h1, rest, h2, _⟩ := this
      exact ⟨e, he, h1, LC.live_iff.2 (by rw [h2]; simp)⟩)
    have e3 := updateAll_spec hg p.watches.byLit (by
      intro ws hws w hw
      obtain ⟨i, hi⟩ := List.mem_iff_getElem?.1 hws
      obtain ⟨l, hl⟩ : ∃ l : Lit, l.code = i := by
        have := (List.getElem?_eq_some_iff.1 hi).1
        rw [h.sized.wat] at this
        have hn := h.sized.n_le
        exact Lit.exists_code (by rw [MAX_INDEX_eq] at hn; omega)
      rw [← hl] at hi
      obtain ⟨e, he, h1, _⟩ := h.ws.mem l ws hi w hw
      exact ⟨e, he, h1⟩)
    rw [e1, bind_ok]
    simp only
    rw [e2, bind_ok, debugM_ok h.enabled, bind_ok, e3, bind_ok, wp_pure]
    refine ⟨ρ, ⟨⟨h.sized.values, h.sized.tix, h.sized.bin, by simpa using h.sized.wat,
      h.sized.n_le⟩, h.trail.ren, h.reasons.ren hl, hrep', ⟨?_, ?_⟩,
      h.ws.ren hl hrep'.nodup (fun e he e' he' => h.rep.unique he he'), ?_, ?_, h.bs, ?_, h.enabled,
      by simpa using h.small⟩, hl, a', rfl⟩
    · intro e he hlv
      obtain ⟨x, hx, r, hr, rfl⟩ := mem_renS.1 he
      exact h.long.len x hx hlv
    · intro e he
      obtain ⟨x, hx, r, hr, rfl⟩ := mem_renS.1 he
      exact h.long.idx x hx
    · intro ws hws w hw
      obtain ⟨vs, hvs, rfl⟩ := List.mem_map.1 hws
      unfold renW at hw
      simp only [List.mem_filterMap, Option.map_eq_some_iff] at hw
      obtain ⟨v, hv, c, hc, rfl⟩ := hw
      exact h.blk vs hvs v hv
    · intro e he hlv w hw i s hi hs hsw
      obtain ⟨x, hx, r, hr, rfl⟩ := mem_renS.1 he
      obtain ⟨y, hy, rfl⟩ := getElem?_map_ren.1 hs
      obtain ⟨t, t1, t2, t3⟩ := h.wsat x hx hlv w hw i y hi hy hsw
      exact ⟨t.ren ρ, mem_map_ren.2 ⟨t, t1, rfl⟩, t2, t3⟩
    · intro a bs ha b hb i s hi hs hsw
      obtain ⟨y, hy, rfl⟩ := getElem?_map_ren.1 hs
      obtain ⟨t, t1, t2, t3⟩ := h.bsat a bs ha b hb i y hi hy hsw
      exact ⟨t.ren ρ, mem_map_ren.2 ⟨t, t1, rfl⟩, t2, t3⟩
  · simp

/-- `collect_garbage` leaves the state alone or collects. -/
theorem collectGarbage_spec (h : PInv n S p) :
    Wp (collectGarbage p) (fun p' => p' = p ∨ ∃ ρ, GcPost n S p ρ p') := by
  unfold collectGarbage
  split
  · exact (collectGarbageNow_spec h).mono (fun _ h => .inr h)
  · rw [wp_pure]; exact .inl rfl

end

end Starlit
