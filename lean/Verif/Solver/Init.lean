import Verif.Solver.Step

/-!
# The initial state, resizing and input clauses
-/

namespace Starlit

theorem resizeList_grow {α : Type} {v : List α} {m : Nat} {x : α} (h : v.length ≤ m) {i : Nat} {y : α}
    (hy : v[i]? = some y) : (Heap.resizeList v m x)[i]? = some y := by
  have hi := (List.getElem?_eq_some_iff.1 hy).1
  rw [Heap.resizeList_get _ _ _ _ (by omega)]
  simp [List.getD_eq_getElem?_getD, hy]

theorem resizeList_inv {α : Type} {v : List α} {m : Nat} {x : α} {i : Nat} {y : α}
    (hy : (Heap.resizeList v m x)[i]? = some y) : v[i]? = some y ∨ (v.length ≤ i ∧ y = x) := by
  have hi : i < m := by
    have := (List.getElem?_eq_some_iff.1 hy).1
    rwa [Heap.resizeList_length] at this
  rw [Heap.resizeList_get _ _ _ _ hi] at hy
  injection hy with hy
  rw [List.getD_eq_getElem?_getD] at hy
  cases hx : v[i]? with
  | none => right; rw [hx] at hy; exact ⟨List.getElem?_eq_none_iff.1 hx, hy.symm⟩
  | some z => left; rw [hx] at hy; simp at hy; rw [hy]

section
variable {env : Env} {n m : Nat} {F L : DB} {S : List LC} {p : PropState} {ctx : Ctx} {s : Search}

theorem PInv.resize (h : PInv n S p) (hnm : n ≤ m) (hm : m ≤ MAX_INDEX + 1) :
    PInv m S (p.resize m) := by
  have hval : ∀ l : Lit, (p.values.resize m).val l = p.values.val l := by
    intro l
    rw [PartialAssignment.val_resize]
    split
    · rfl
    · cases hv : p.values.val l with
      | none => rfl
      | some b =>
        exfalso
        cases b with
        | true =>
          obtain ⟨s, hs, e⟩ := (h.trail.val_iff l).1 hv
          have := h.trail.idx_lt s hs
          rw [e] at this; omega
        | false =>
          obtain ⟨s, hs, e⟩ := (h.trail.val_false_iff l).1 hv
          have := h.trail.idx_lt s hs
          rw [e, Lit.index_neg] at this; omega
  have code_ge : ∀ l : Lit, n * 2 ≤ l.code → n ≤ l.index := by
    intro l hl
    by_contra hc
    have := Lit.code_lt_of_index_lt (n := n) (l := l) (by omega)
    omega
  refine ⟨⟨?_, ?_, ?_, ?_, hm⟩, ⟨PartialAssignment.WF_resize h.trail.vwf m, ?_, ?_, ?_, h.trail.dec0,
    h.trail.level_le, h.trail.level, h.trail.decs, h.trail.prop_le, h.trail.prop_level⟩, ?_, h.rep,
    ⟨h.long.len, ?_⟩, ⟨?_, ?_⟩, ?_, h.wsat, ⟨?_, ?_⟩, ?_, h.enabled, h.small⟩
  · simp only [PropState.resize, PartialAssignment.resize_length]
  · simp only [PropState.resize, Heap.resizeList_length]
  · simp only [PropState.resize, Heap.resizeList_length]
  · simp only [PropState.resize, Heap.resizeList_length]
  · intro s hs; have := h.trail.idx_lt s hs; omega
  · intro l
    simp only [PropState.resize]
    rw [hval]; exact h.trail.val_iff l
  · intro i s hs
    obtain ⟨j, s', h1, h2⟩ := h.trail.tix i s hs
    exact ⟨j, s', resizeList_grow (by rw [h.sized.tix]; omega) h1, h2⟩
  · intro i s hs
    have := h.reasons i s hs
    unfold ReasonOK at this ⊢
    cases hr : s.reason with
    | decision => rw [hr] at this; exact this
    | unit => rw [hr] at this; exact this
    | binary o =>
      rw [hr] at this
      obtain ⟨⟨bs, h1, h2⟩, h3⟩ := this
      exact ⟨⟨bs, resizeList_grow (by rw [h.sized.bin]; omega) h1, h2⟩, h3⟩
    | long c => rw [hr] at this; exact this
  · intro e he l hl; have := h.long.idx e he l hl; omega
  · intro l ws hws w hw
    rcases resizeList_inv hws with hws | ⟨_, rfl⟩
    · exact h.ws.mem l ws hws w hw
    · simp at hw
  · intro l ws hws e he hlv
    rcases resizeList_inv hws with hws | ⟨hge, rfl⟩
    · exact h.ws.count l ws hws e he hlv
    · rw [h.sized.wat] at hge
      have := code_ge l hge
      symm
      rw [List.countP_nil, List.count_eq_zero]
      intro hl
      have := h.long.idx e he l (List.mem_of_mem_take hl)
      omega
  · intro ws hws w hw
    obtain ⟨i, hi⟩ := List.mem_iff_getElem?.1 hws
    rcases resizeList_inv hi with hi | ⟨_, rfl⟩
    · have := h.blk ws (List.mem_iff_getElem?.2 ⟨i, hi⟩) w hw; omega
    · simp at hw
  · intro a bs ha b hb
    rcases resizeList_inv ha with ha | ⟨_, rfl⟩
    · have := h.bs.idx a bs ha b hb; omega
    · simp at hb
  · intro a b as bs ha hb
    rcases resizeList_inv ha with ha | ⟨ga, rfl⟩
    · rcases resizeList_inv hb with hb | ⟨gb, rfl⟩
      · exact h.bs.symm a b as bs ha hb
      · rw [h.sized.bin] at gb
        have := code_ge b gb
        rw [List.count_nil, List.count_eq_zero]
        intro hc
        have := h.bs.idx a bs ha b hc
        omega
    · rcases resizeList_inv hb with hb | ⟨gb, rfl⟩
      · rw [h.sized.bin] at ga
        have := code_ge a ga
        symm
        rw [List.count_nil, List.count_eq_zero]
        intro hc
        have := h.bs.idx b as hb a hc
        omega
      · rfl
  · intro a bs ha b hb i s hi hs hsa
    rcases resizeList_inv ha with ha | ⟨ga, rfl⟩
    · exact h.bsat a bs ha b hb i s hi hs hsa
    · simp at hb

theorem DBInv.resize (d : DBInv F L S p.binary p.trail.steps p.unsat) (hl : p.binary.length ≤ m * 2) :
    DBInv F L S (p.resize m).binary p.trail.steps p.unsat := by
  refine ⟨d.red, d.irr, ?_, ?_, d.unit, d.funit, d.fempty⟩
  · intro a b bs ha hb
    rcases resizeList_inv ha with ha | ⟨_, rfl⟩
    · exact d.bin a b bs ha hb
    · simp at hb
  · intro a b hab
    obtain ⟨bs, h1, h2⟩ := d.fbin a b hab
    exact ⟨bs, resizeList_grow hl h1, h2⟩

theorem resizeList_sum {α : Type} (B : List (List α)) {k : Nat} (h : B.length ≤ k) :
    ((Heap.resizeList B k []).map List.length).sum = (B.map List.length).sum := by
  unfold Heap.resizeList
  rw [List.take_of_length_le h, List.map_append, List.sum_append, List.map_replicate]
  simp

/-- The state while input clauses are added. -/
structure InputInv (env : Env) (n : Nat) (F : DB) (S : List LC) (s : Solver) : Prop where
  prop : PInv n S s.search.prop
  noprot : NoProt S
  db : DBInv F 0 S s.search.prop.binary s.search.prop.trail.steps s.search.prop.unsat
  stats : StatsInv F 0 n s.search.prop.binary s.ctx.formula
  proof : s.ctx.proof = none ∨ s.ctx.proof = some []
  refuted : s.search.prop.unsat = true → UpConflict (F + 0) (fun _ => False)
  an : AnIdle s.search.analysis
  min : MinIdle s.search.analysis.minimize
  cb : CbInv env n s.search.cb
  covers : Covers n s.search.prop.values s.search.cb
  decisions : s.search.prop.trail.decisions = [0]
  propagated : s.search.prop.trail.propagated = 0
  units : ∀ x ∈ s.search.prop.trail.steps, x.reason = .unit

theorem InputInv.sinv {s : Solver} (h : InputInv env n F S s) : SInv env n F 0 S s.ctx s.search :=
  ⟨h.prop, h.noprot, h.db, h.stats,
    ⟨[], .nil, h.proof, fun hu => ⟨[], 0, List.prefix_refl _, .nil, h.refuted hu⟩⟩,
    h.an, h.min, h.cb, h.covers⟩

theorem PInv.default : PInv 0 [] PropState.default := by
  refine ⟨⟨rfl, rfl, rfl, rfl, by omega⟩, ⟨PartialAssignment.WF_empty, ?_, ?_, ?_, rfl, ?_, ?_, ?_,
    ?_, ?_⟩, ?_, LRep.empty, ⟨?_, ?_⟩, ⟨?_, ?_⟩, ?_, ?_, ⟨?_, ?_⟩, ?_, rfl, ?_⟩
  all_goals try (simp [PropState.default, Trail.default]; done)
  · intro l
    simp [PropState.default, Trail.default, PartialAssignment.val, PartialAssignment.empty]
  · intro k d hk hd
    simp only [PropState.default, Trail.default] at hd
    have := (List.getElem?_eq_some_iff.1 hd).1
    simp at this; omega
  · intro i s hs; simp [PropState.default, Trail.default] at hs
  · intro ws hws; simp [PropState.default] at hws
  · intro e he; simp at he
  · intro a bs ha; simp [PropState.default] at ha

theorem default_spec (env : Env) : InputInv env 0 0 [] (Solver.default env) := by
  refine ⟨PInv.default, ?_, ⟨?_, ?_, ?_, ?_, ?_, ?_, ?_⟩, ⟨rfl, rfl, rfl, rfl, rfl⟩, .inl rfl, ?_,
    ⟨?_, ?_, rfl⟩, ⟨rfl, ?_, ?_⟩, ⟨Heap.wf_empty, rfl, rfl, fun _ => Heap.ordered_empty⟩, ?_, rfl, rfl, ?_⟩
  · intro e he; simp at he
  · simp [liveRed]
  · simp [liveIrr]
  · simp [Solver.default, PropState.default]
  · simp
  · simp [Solver.default, PropState.default, Trail.default]
  · simp
  · simp
  · simp [Solver.default, PropState.default]
  · simp [Solver.default, Analysis.default, AllFalse]
  · simp [Solver.default, Analysis.default, AllFalse]
  · simp [Solver.default, Analysis.default]
  · simp [Solver.default, Analysis.default]
  · intro l hl; omega
  · simp [Solver.default, PropState.default, Trail.default]

theorem ensureVars_spec {s : Solver} (h : InputInv env n F S s) (hm : m ≤ MAX_INDEX + 1) :
    ∃ s', s.ensureVars m = .ok s' ∧ InputInv env (max n m) F S s' ∧ s'.schedule = s.schedule ∧
      s'.ctx.search = s.ctx.search ∧ s'.ctx.proof = s.ctx.proof ∧ s'.search.analysis = s.search.analysis := by
  unfold Solver.ensureVars
  rw [h.stats.vars]
  by_cases hlt : n < m
  · rw [if_pos hlt, Nat.max_eq_right (by omega)]
    unfold Solver.resize
    obtain ⟨hp, e1, w1, v1, m1, o1⟩ := Heap.resizeEnqueued_ok h.cb.wf (n := m) 0 (by
      unfold MAX_INDEX at hm; omega)
    simp only
    rw [e1, bind_ok]
    refine ⟨_, rfl, ⟨h.prop.resize (by omega) hm, h.noprot, h.db.resize (by
      rw [h.prop.sized.bin]; omega), ⟨rfl, h.stats.binary, ?_, h.stats.irredundant, h.stats.redundant⟩,
      h.proof, h.refuted, h.an, h.min, ⟨w1, ?_, ?_, ?_⟩, ?_, h.decisions, h.propagated, h.units⟩, rfl,
      rfl, rfl, rfl⟩
    · simp only [PropState.resize]
      rw [resizeList_sum _ (by rw [h.prop.sized.bin]; omega)]
      exact h.stats.stored
    · rw [v1, Heap.resizeList_length]
    · simp only [Heap.resizeList_length]
    · intro hmono
      exact o1 (by rw [h.cb.len]; omega) (h.cb.ord hmono)
    · intro l hl hv
      rw [m1]
      refine ⟨hl, ?_⟩
      by_cases hln : l.index < n
      · right
        refine h.covers l hln ?_
        simp only [PropState.resize] at hv
        rwa [PartialAssignment.val_resize, if_pos hl] at hv
      · left; rw [h.cb.len]; omega
  · rw [if_neg hlt, Nat.max_eq_left (by omega)]
    exact ⟨s, rfl, h, rfl, rfl, rfl, rfl⟩

theorem pair_eq {x y a b : Lit} : (x ::ₘ {y} : Multiset Lit) = (([a, b] : List Lit) : Multiset Lit) ↔
    (x = a ∧ y = b) ∨ (x = b ∧ y = a) := by
  have hxy : (x ::ₘ {y} : Multiset Lit) = (([x, y] : List Lit) : Multiset Lit) := rfl
  rw [hxy, Multiset.coe_eq_coe]
  constructor
  · intro hp
    have hx : x ∈ [a, b] := hp.mem_iff.1 (by simp)
    simp at hx
    rcases hx with rfl | rfl
    · have := (List.perm_cons x).1 hp
      simp at this
      exact .inl ⟨rfl, this⟩
    · have := (List.perm_cons x).1 (hp.trans (List.Perm.swap x a []))
      simp at this
      exact .inr ⟨rfl, this⟩
  · rintro (⟨rfl, rfl⟩ | ⟨rfl, rfl⟩)
    · exact List.Perm.refl _
    · exact List.Perm.swap _ _ _

theorem mem_mono {c x : Multiset Lit} (hx : x ∈ F + L) : x ∈ c ::ₘ F + L := by
  rw [Multiset.cons_add]; exact Multiset.mem_cons_of_mem hx

theorem UpConflict.grow {c : Multiset Lit} {A : Lit → Prop} (h : UpConflict (F + L) A) :
    UpConflict (c ::ₘ F + L) A :=
  h.mono (fun _ hx => mem_mono hx) (fun _ ha => .asm ha)

theorem StatsInv.input {B B' : List (List Lit)} {f f' : FormulaStats} {c : List Lit}
    (h : StatsInv F L n B f) (hv : f'.vars = f.vars) (hr : f'.redundant = f.redundant)
    (hb : f'.binary = f.binary + if c.length = 2 then 1 else 0)
    (hB : (B'.map List.length).sum = (B.map List.length).sum + if c.length = 2 then 2 else 0)
    (hi : f'.irredundant = f.irredundant + if 3 ≤ c.length then 1 else 0) :
    StatsInv ((c : Multiset Lit) ::ₘ F) L n B' f' := by
  refine ⟨hv.trans h.vars, ?_, ?_, ?_, hr.trans h.redundant⟩
  · rw [hb, h.binary, Multiset.cons_add]
    by_cases h2 : c.length = 2
    · rw [Multiset.filter_cons_of_pos _ (by simpa using h2)]; simp [h2]
    · rw [Multiset.filter_cons_of_neg _ (by simpa using h2)]; simp [h2]
  · rw [hB, h.stored, hb]
    split <;> omega
  · rw [hi, h.irredundant]
    by_cases h2 : 3 ≤ c.length
    · rw [Multiset.filter_cons_of_pos _ (by simpa using h2)]; simp [h2]
    · rw [Multiset.filter_cons_of_neg _ (by simpa using h2)]; simp [h2]

/-- The database with an additional input clause. -/
theorem DBInv.input {B B' : List (List Lit)} {steps steps' : List Step} {S' : List LC} {u u' : Bool}
    (h : DBInv F L S B steps u) {c : Multiset Lit}
    (hred : liveRed S' = liveRed S)
    (hirr : liveIrr S' = if 3 ≤ c.card then c ::ₘ liveIrr S else liveIrr S)
    (hB : ∀ x y, HasBin B' x y ↔ HasBin B x y ∨ (x ::ₘ {y} : Multiset Lit) = c)
    (hs : ∀ s ∈ steps, s ∈ steps')
    (hs' : ∀ s ∈ steps', s ∈ steps ∨ ({s.lit} : Multiset Lit) = c)
    (hu : u = true → u' = true)
    (h1 : ∀ a : Lit, c = {a} → u' = true ∨ ∃ s ∈ steps', s.lit = a ∧ s.level = 0)
    (h0 : c = 0 → u' = true) :
    DBInv (c ::ₘ F) L S' B' steps' u' := by
  have hcm : c ∈ c ::ₘ F + L := by rw [Multiset.cons_add]; exact Multiset.mem_cons_self _ _
  refine ⟨hred.trans h.red, ?_, ?_, ?_, ?_, ?_, ?_⟩
  · rw [hirr, h.irr]
    by_cases h3 : 3 ≤ c.card
    · rw [if_pos h3, Multiset.filter_cons_of_pos (p := fun c : Multiset Lit => 3 ≤ c.card) _ h3]
    · rw [if_neg h3, Multiset.filter_cons_of_neg (p := fun c : Multiset Lit => 3 ≤ c.card) _ h3]
  · intro a b bs e1 e2
    rcases (hB a b).1 ⟨bs, e1, e2⟩ with ⟨bs, e1, e2⟩ | e
    · exact mem_mono (h.bin a b bs e1 e2)
    · rw [e]; exact hcm
  · intro a b hab
    rcases Multiset.mem_cons.1 hab with e | hab
    · exact (hB a b).2 (.inr e)
    · exact (hB a b).2 (.inl (h.fbin a b hab))
  · intro s hx hr
    rcases hs' s hx with hx | e
    · exact mem_mono (h.unit s hx hr)
    · rw [e]; exact hcm
  · intro a ha
    rcases Multiset.mem_cons.1 ha with e | ha
    · exact h1 a e.symm
    · rcases h.funit a ha with e | ⟨s, e1, e2⟩
      · exact .inl (hu e)
      · exact .inr ⟨s, hs s e1, e2⟩
  · intro hz
    rcases Multiset.mem_cons.1 hz with e | hz
    · exact h0 e.symm
    · exact hu (h.fempty hz)

/-- Adding an input clause whose variables are known. -/
theorem addInput_spec {s : Solver} (h : InputInv env n F S s) {c : List Lit}
    (hc : ∀ l ∈ c, l.index < n) :
    Wp (addClauseVerbatim s.ctx s.search.prop .newInputClause c) (fun (ctx', p', _) =>
      ∃ S', InputInv env n ((c : Multiset Lit) ::ₘ F) S'
        { s with ctx := ctx', search := { s.search with prop := p' } } ∧
        ctx'.proof = s.ctx.proof ∧ ctx'.search = s.ctx.search ∧ ctx'.prop = s.ctx.prop) := by
  have hp := h.prop
  have hlev : s.search.prop.trail.decisionLevel = 0 := by
    unfold Trail.decisionLevel; rw [h.decisions]; rfl
  have nobin : ∀ x y : Lit, c.length ≠ 2 → (HasBin s.search.prop.binary x y ↔
      HasBin s.search.prop.binary x y ∨ (x ::ₘ {y} : Multiset Lit) = (c : Multiset Lit)) := by
    intro x y hcl
    refine ⟨.inl, ?_⟩
    rintro (e | e)
    · exact e
    · exfalso; apply hcl
      have := congrArg Multiset.card e
      simpa using this.symm
  match c, hc, nobin with
  | [], hc, nobin =>
    simp only [addClauseVerbatim, wp_pure]
    refine ⟨S, ⟨⟨⟨hp.sized.values, hp.sized.tix, hp.sized.bin, hp.sized.wat, hp.sized.n_le⟩, hp.trail, hp.reasons, hp.rep, hp.long, hp.ws, hp.blk, hp.wsat, hp.bs,
      hp.bsat, hp.enabled, hp.small⟩, h.noprot, ?_, ?_, h.proof, ?_, h.an, h.min, h.cb, h.covers,
      h.decisions, h.propagated, h.units⟩, trivial, trivial, trivial⟩
    · exact h.db.input rfl (by simp) (fun x y => nobin x y (by simp)) (fun s hs => hs)
        (fun s hs => .inl hs) (fun _ => rfl) (fun _ _ => .inl rfl) (fun _ => rfl)
    · exact h.stats.input rfl rfl (by simp) (by simp) (by simp)
    · intro _
      exact ⟨0, by simp, by simp⟩
  | [a], hc, nobin =>
    have ha := hc a (by simp)
    simp only [addClauseVerbatim]
    rw [hp.isFalse ha, bind_ok]
    by_cases hv : s.search.prop.values.val a = some false
    · rw [hv]
      simp only [beq_self_eq_true, if_true, wp_pure]
      refine ⟨S, ⟨⟨⟨hp.sized.values, hp.sized.tix, hp.sized.bin, hp.sized.wat, hp.sized.n_le⟩, hp.trail, hp.reasons, hp.rep, hp.long, hp.ws, hp.blk, hp.wsat, hp.bs,
        hp.bsat, hp.enabled, hp.small⟩, h.noprot, ?_, ?_, h.proof, ?_, h.an, h.min, h.cb, h.covers,
        h.decisions, h.propagated, h.units⟩, trivial, trivial, trivial⟩
      · exact h.db.input rfl (by simp) (fun x y => nobin x y (by simp)) (fun s hs => hs)
          (fun s hs => .inl hs) (fun _ => rfl) (fun _ _ => .inl rfl) (fun _ => rfl)
      · exact h.stats.input rfl rfl (by simp) (by simp) (by simp)
      · intro _
        obtain ⟨x, hx, e⟩ := (hp.trail.val_false_iff a).1 hv
        refine ⟨{a}, by simp, ?_⟩
        intro o ho
        rw [Multiset.mem_singleton.1 ho, ← e]
        have h0 : x.level = 0 := by
          obtain ⟨i, hi⟩ := List.mem_iff_getElem?.1 hx
          have := hp.trail.level_le i x hi
          omega
        exact (hp.implied0 h.db hx h0 _).mono (fun _ hx => mem_mono hx) (fun _ ha => .asm ha)
    · have hb : (s.search.prop.values.val a == some false) = false := by simpa using hv
      rw [hb]
      simp only [Bool.false_eq_true, if_false, wp_bind]
      rw [assignUnit_eq hp.sized (s := ⟨a, 0, .unit⟩) ha]
      by_cases hlen : s.search.prop.trail.steps.length < UNASSIGNED
      swap
      · rw [if_neg hlen]; simp
      rw [if_pos hlen, wp_ok]
      simp only [wp_pure]
      have hk := hp.trail.prop_le
      have hun : s.search.prop.values.val a = none ∨ (s.search.prop.trail.decisionLevel = 0 ∧
          s.search.prop.values.val a = some true) := by
        cases hx : s.search.prop.values.val a with
        | none => exact .inl rfl
        | some b =>
          cases b with
          | true => exact .inr ⟨hlev, rfl⟩
          | false => exact absurd hx hv
      have hpinv : PInv n S { s.search.prop with
          values := s.search.prop.values.push a
          trail := s.search.prop.trail.push ⟨a, 0, .unit⟩ } :=
        ⟨hp.sized.push ⟨a, 0, .unit⟩, hp.trail.push (s := ⟨a, 0, .unit⟩) hp.sized.values
          hp.sized.tix ha hlev.symm hun,
        hp.reasons.push rfl, hp.rep, hp.long, hp.ws, hp.blk, hp.wsat.snoc hk _, hp.bs,
        hp.bsat.snoc hk _, hp.enabled, by simp [Trail.push]; omega⟩
      refine ⟨S, ⟨hpinv, h.noprot, ?_, ?_, h.proof, ?_, h.an, h.min, h.cb, ?_, h.decisions,
        h.propagated, ?_⟩, trivial, trivial, trivial⟩
      · refine h.db.input rfl (by simp) (fun x y => nobin x y (by simp)) ?_ ?_ (fun h => h) ?_ (by simp)
        · intro x hx; simp [Trail.push, hx]
        · intro x hx
          simp [Trail.push] at hx
          rcases hx with hx | rfl
          · exact .inl hx
          · exact .inr rfl
        · intro b hb
          right
          refine ⟨⟨a, 0, .unit⟩, by simp [Trail.push], ?_, rfl⟩
          simpa using hb
      · exact h.stats.input rfl rfl (by simp) (by simp) (by simp)
      · intro hu; exact (h.refuted hu).grow
      · intro l hl hv
        refine h.covers l hl ?_
        cases hx : s.search.prop.values.val l with
        | none => rfl
        | some b =>
          exfalso
          simp only at hv
          have hnn : ∀ l, s.search.prop.values.val l = some true →
              ({ s.search.prop with
                values := s.search.prop.values.push a
                trail := s.search.prop.trail.push ⟨a, 0, .unit⟩ } : PropState).values.val l = some true := by
            intro l hl
            obtain ⟨x, hx, e⟩ := (hp.trail.val_iff l).1 hl
            exact (hpinv.trail.val_iff l).2 ⟨x, by simp [Trail.push, hx], e⟩
          cases b with
          | true => have := hnn l hx; simp only at this; rw [hv] at this; simp at this
          | false =>
            have h1 := hnn l.neg (by rw [PartialAssignment.val_neg hp.trail.vwf, hx]; rfl)
            simp only at h1
            rw [PartialAssignment.val_neg hpinv.trail.vwf, hv] at h1
            simp at h1
      · intro x hx
        simp [Trail.push] at hx
        rcases hx with hx | rfl
        · exact h.units x hx
        · rfl
  | [a, b], hc, nobin =>
    obtain ⟨bin', e2, b1, b2, b3⟩ := binaryAdd_spec hp.sized.bin hp.bs (hc a (by simp))
      (hc b (by simp))
    simp only [addClauseVerbatim]
    rw [e2, bind_ok]
    simp only [wp_pure]
    refine ⟨S, ⟨⟨⟨hp.sized.values, hp.sized.tix, b1, hp.sized.wat, hp.sized.n_le⟩, hp.trail,
      hp.reasons.mono (fun x y hxy => (b3 x y).2 (.inl hxy)) (fun e he => he), hp.rep, hp.long, hp.ws,
      hp.blk, hp.wsat, b2, ?_, hp.enabled, hp.small⟩, h.noprot, ?_, ?_, h.proof, ?_, h.an, h.min,
      h.cb, h.covers, h.decisions, h.propagated, h.units⟩, trivial, trivial, trivial⟩
    · intro x bs hx y hy i st hi
      simp only [h.propagated] at hi
      omega
    · refine h.db.input rfl (by simp) ?_ (fun s hs => hs) (fun s hs => .inl hs) (fun h => h) ?_ (by simp)
      · intro x y; rw [b3, pair_eq]
      · intro x e
        have := congrArg Multiset.card e
        simp at this
    · exact h.stats.input rfl rfl (by simp) (by simpa using binaryAdd_sum e2) (by simp)
    · intro hu; exact (h.refuted hu).grow
  | a :: b :: c :: rest, hc, nobin =>
    simp only [addClauseVerbatim]
    have hw : LongHeader.newInputClause.WF := by unfold LongHeader.WF; decide +kernel
    have hr : LongHeader.newInputClause.redundant = false := by decide +kernel
    have hpr : LongHeader.newInputClause.prot = false := by decide +kernel
    rcases addLong_spec hp hw (by decide +kernel) hc with
      e2 | ⟨long', r, w', e2, e3, w1, w2, hrep, hws, hbk, hlong⟩
    · rw [e2]; simp
    rw [e2]
    simp only [bind_ok, e3, hr, Bool.false_eq_true, if_false, wp_pure]
    refine ⟨S ++ [⟨r, .newInputClause, a :: b :: c :: rest⟩],
      ⟨⟨⟨hp.sized.values, hp.sized.tix, hp.sized.bin, w2, hp.sized.n_le⟩, hp.trail,
      hp.reasons.mono (fun x y hxy => hxy) (fun e he => by simp [he]), hrep, hlong, hws,
      hbk, ?_, hp.bs, hp.bsat, w1, hp.small⟩, ?_, ?_, ?_, h.proof, ?_, h.an, h.min,
      h.cb, h.covers, h.decisions, h.propagated, h.units⟩, trivial, trivial, trivial⟩
    · intro x hx hxl w hw i st hi
      simp only [h.propagated] at hi
      omega
    · intro x hx
      rcases List.mem_append.1 hx with hx | hx
      · exact h.noprot x hx
      · simp at hx; subst hx; exact hpr
    · refine h.db.input ?_ ?_ (fun x y => nobin x y (by simp)) (fun s hs => hs) (fun s hs => .inl hs)
        (fun h => h) ?_ (by simp)
      · rw [liveRed_append _ _ (LC.live_iff.2 (by simp))]
        simp only [hr, Bool.false_eq_true, if_false]
      · rw [liveIrr_append _ _ (LC.live_iff.2 (by simp))]
        simp only [hr, Bool.false_eq_true, if_false]
        rw [if_pos (by simp)]
        rfl
      · intro x e
        have := congrArg Multiset.card e
        simp at this
    · exact h.stats.input rfl rfl (by simp) (by simp) (by simp)
    · intro hu; exact (h.refuted hu).grow

theorem varCount_lt {c : List Lit} {l : Lit} (h : l ∈ c) : l.index < Solver.varCount c := by
  induction c with
  | nil => simp at h
  | cons x xs ih =>
    simp only [Solver.varCount]
    rcases List.mem_cons.1 h with rfl | h
    · omega
    · have := ih h; omega

theorem varCount_le {c : List Lit} (h : ∀ l ∈ c, l.Valid) : Solver.varCount c ≤ MAX_INDEX + 1 := by
  induction c with
  | nil => simp [Solver.varCount]
  | cons x xs ih =>
    simp only [Solver.varCount]
    have := ih (fun l hl => h l (by simp [hl]))
    have := Lit.valid_iff_index.1 (h x (by simp))
    omega

/-- The number of variables of a formula. -/
def formulaVars (F : List (List Lit)) : Nat := (F.map Solver.varCount).foldl max 0

theorem foldl_max_le (ns : List Nat) : ∀ (a b : Nat), a ≤ b → (∀ x ∈ ns, x ≤ b) → ns.foldl max a ≤ b := by
  induction ns with
  | nil => intro a b h _; exact h
  | cons x ns ih =>
    intro a b h hx
    exact ih _ _ (by have := hx x (by simp); omega) (fun y hy => hx y (by simp [hy]))

theorem le_foldl_max (ns : List Nat) : ∀ (a x : Nat), x = a ∨ x ∈ ns → x ≤ ns.foldl max a := by
  induction ns with
  | nil => intro a x h; simp at h; simp [h]
  | cons y ns ih =>
    intro a x h
    simp only [List.foldl_cons]
    rcases h with rfl | h
    · have := ih (max x y) _ (.inl rfl); omega
    · rcases List.mem_cons.1 h with rfl | h
      · have := ih (max a x) _ (.inl rfl); omega
      · exact ih _ x (.inr h)

theorem lt_formulaVars {F : List (List Lit)} {c : List Lit} {l : Lit} (hc : c ∈ F) (hl : l ∈ c) :
    l.index < formulaVars F :=
  Nat.lt_of_lt_of_le (varCount_lt hl) (le_foldl_max _ _ _ (.inr (List.mem_map.2 ⟨c, hc, rfl⟩)))

theorem formulaVars_le {F : List (List Lit)} {n : Nat} (h : ∀ c ∈ F, ∀ l ∈ c, l.index < n) :
    formulaVars F ≤ n := by
  refine foldl_max_le _ _ _ (Nat.zero_le _) ?_
  intro x hx
  obtain ⟨c, hc, rfl⟩ := List.mem_map.1 hx
  replace hc := h c hc
  clear hx
  induction c with
  | nil => simp [Solver.varCount]
  | cons y ys ih =>
    simp only [Solver.varCount]
    have := hc y (by simp)
    have := ih (fun l hl => hc l (by simp [hl]))
    omega

theorem addClause_spec {s : Solver} (h : InputInv env n F S s) {c : List Lit}
    (hc : ∀ l ∈ c, l.Valid) :
    Wp (s.addClause c) (fun s' => ∃ S', InputInv env (max n (Solver.varCount c))
      ((c : Multiset Lit) ::ₘ F) S' s' ∧ s'.schedule = s.schedule ∧ s'.ctx.search = s.ctx.search ∧
        s'.ctx.proof = s.ctx.proof) := by
  unfold Solver.addClause
  obtain ⟨s1, e1, h1, q1, q2, q3, _⟩ := ensureVars_spec h (varCount_le hc)
  rw [e1, bind_ok, wp_bind]
  refine (addInput_spec h1 (c := c) ?_).mono ?_
  · intro l hl; have := varCount_lt hl; omega
  · rintro ⟨ctx', p', _⟩ ⟨S', h2, r1, r2, r3⟩
    simp only [wp_pure]
    exact ⟨S', h2, q1, r2.trans q2, r1.trans q3⟩

theorem addClauses_spec : ∀ (cs : List (List Lit)) {n : Nat} {F : DB} {S : List LC} {s : Solver},
    InputInv env n F S s → (∀ c ∈ cs, ∀ l ∈ c, l.Valid) →
    Wp (s.addClauses cs) (fun s' => ∃ S', InputInv env ((cs.map Solver.varCount).foldl max n)
      (toDB cs + F) S' s' ∧ s'.schedule = s.schedule ∧ s'.ctx.search = s.ctx.search ∧
        s'.ctx.proof = s.ctx.proof)
  | [], n, F, S, s, h, _ => by
    simp only [Solver.addClauses, wp_pure]
    exact ⟨S, by simpa [toDB] using h, trivial, trivial, trivial⟩
  | c :: cs, n, F, S, s, h, hc => by
    simp only [Solver.addClauses, wp_bind]
    refine (addClause_spec h (hc c (by simp))).mono ?_
    rintro s1 ⟨S1, h1, q1, q2, q3⟩
    refine (addClauses_spec cs h1 (fun c hx => hc c (by simp [hx]))).mono ?_
    rintro s2 ⟨S2, h2, r1, r2, r3⟩
    refine ⟨S2, ?_, r1.trans q1, r2.trans q2, r3.trans q3⟩
    have : toDB (c :: cs) + F = toDB cs + (c : Multiset Lit) ::ₘ F := by
      unfold toDB
      rw [List.map_cons, ← Multiset.cons_coe, Multiset.cons_add, Multiset.add_cons]
    rw [this]
    exact h2

theorem writeProof_spec {s : Solver} (h : InputInv env n F S s) : InputInv env n F S s.writeProof :=
  ⟨h.prop, h.noprot, h.db, h.stats, .inr rfl, h.refuted, h.an, h.min, h.cb, h.covers, h.decisions,
    h.propagated, h.units⟩

end

end Starlit
