import Verif.Props.Logging
import Verif.Props.Counters

/-!
# C74: runs do not depend on the order that a partition leaves

`select_nth_unstable` leaves the elements above the selected one in an unspecified order; `reduce` deletes
the clauses in that order.
-/

namespace Starlit

/-! ## What the runs are compared by -/

/-- Proofs that differ in the order of consecutive deletions only. -/
inductive SameProof : List ProofStep → List ProofStep → Prop
  | nil : SameProof [] []
  | cons (x : ProofStep) {l l' : List ProofStep} : SameProof l l' → SameProof (x :: l) (x :: l')
  | swap (c d : List Lit) (l : List ProofStep) :
      SameProof (.delete c :: .delete d :: l) (.delete d :: .delete c :: l)
  | trans {l m r : List ProofStep} : SameProof l m → SameProof m r → SameProof l r

/-- The same environment with another order left by `select_nth_unstable`. -/
def Env.reorder (env : Env) (o : List (Nat × Nat) → List (Nat × Nat)) (ho : ∀ l, (o l).Perm l) : Env :=
  { env with order := o, order_perm := ho }

/-! ## Proofs -/

namespace SameProof

theorem refl : ∀ l, SameProof l l
  | [] => .nil
  | x :: l => .cons x (refl l)

theorem append_left {l l' : List ProofStep} (m : List ProofStep) (h : SameProof l l') :
    SameProof (m ++ l) (m ++ l') := by
  induction m with
  | nil => exact h
  | cons x m ih => exact .cons x ih

theorem append_right {l l' : List ProofStep} (h : SameProof l l') (m : List ProofStep) :
    SameProof (l ++ m) (l' ++ m) := by
  induction h with
  | nil => exact refl _
  | cons x _ ih => exact .cons x ih
  | swap c d l => exact .swap c d _
  | trans _ _ ih1 ih2 => exact ih1.trans ih2

theorem append {l l' m m' : List ProofStep} (h : SameProof l l') (h' : SameProof m m') :
    SameProof (l ++ m) (l' ++ m') := (h.append_right m).trans (h'.append_left l')

theorem of_perm {α : Type} (f : α → List Lit) {l l' : List α} (h : l.Perm l') :
    SameProof (l.map fun x => .delete (f x)) (l'.map fun x => .delete (f x)) := by
  induction h with
  | nil => exact .nil
  | cons x _ ih => exact .cons _ ih
  | swap x y l => exact .swap _ _ _
  | trans _ _ ih1 ih2 => exact ih1.trans ih2

/-- The lines are the same up to their order. -/
theorem perm {l l' : List ProofStep} (h : SameProof l l') : l.Perm l' := by
  induction h with
  | nil => exact .nil
  | cons x _ ih => exact ih.cons x
  | swap c d l => exact .swap _ _ l
  | trans _ _ ih1 ih2 => exact ih1.trans ih2

/-- The additions are the same, in the same order. -/
theorem adds {l l' : List ProofStep} (h : SameProof l l') :
    l.filter (fun x => !Example.isDelete x) = l'.filter (fun x => !Example.isDelete x) := by
  induction h with
  | nil => rfl
  | cons x _ ih => rw [List.filter_cons, List.filter_cons, ih]
  | swap c d l => rfl
  | trans _ _ ih1 ih2 => exact ih1.trans ih2

end SameProof

/-- Both without a writer, or with proofs that differ in the order of consecutive deletions only. -/
inductive SameWriter : Option (List ProofStep) → Option (List ProofStep) → Prop
  | none : SameWriter none none
  | some {l l' : List ProofStep} : SameProof l l' → SameWriter (some l) (some l')

theorem SameWriter.append {p p' : Option (List ProofStep)} (h : SameWriter p p') {l l' : List ProofStep}
    (hl : SameProof l l') : SameWriter (p.map (· ++ l)) (p'.map (· ++ l')) := by
  cases h with
  | none => exact .none
  | some h => exact .some (h.append hl)

theorem SameWriter.refl (p : Option (List ProofStep)) : SameWriter p p := by
  cases p with
  | none => exact .none
  | some l => exact .some (.refl l)

/-! ## Deleting clauses in another order -/

namespace Order
open Arena

theorem writeU_set {b b' : List Word} {i : Nat} {w : Word} (h : writeU b i [w] = .ok b') :
    b' = b.set i w := by
  unfold writeU at h
  split at h
  · rename_i hi
    simp only [List.length_singleton] at hi
    cases h
    simp only [List.length_singleton]
    rw [List.set_eq_take_append_cons_drop, if_pos (by omega)]
    simp
  · cases h

/-- The arena after deleting a clause of `len` literals. -/
def del (a : Arena) (c len : Nat) : Arena :=
  ⟨(a.buffer.set (c + 2) LEN_MARKER).set (c + 3) (BitVec.ofNat 32 len), a.garbage + (len + 3)⟩

theorem delete_del {a : Arena} {S : List LC} (h : LRep a S) {e : LC} (he : e ∈ S) (hl : e.live = true)
    {a' : Arena} (hd : Long.delete a e.ref = .ok a') : a' = del a e.ref e.lits.length := by
  obtain ⟨bs, h⟩ := h
  obtain ⟨b, hb, hx⟩ := LRep.at_of_mem h he
  have hw := h.rep.wf b hb.mem
  have hb0 : b.len ≠ 0 := by
    intro h0
    rw [hx] at hl
    exact LC.live_iff.1 hl ((dead_iff hw).2 h0)
  have hlen : e.lits.length = b.len := by rw [hx]; exact lits_length hw
  unfold Long.delete deleteClause at hd
  rw [show Long.hl = 2 from rfl, clauseLen_at h.rep hb, bind_ok] at hd
  simp only [Nat.pos_of_ne_zero hb0, if_true] at hd
  obtain ⟨b1, h1, hd⟩ := bind_eq_ok.1 hd
  obtain ⟨b2, h2, hd⟩ := bind_eq_ok.1 hd
  cases hd
  rw [writeU_set h2, writeU_set h1, hlen]
  rfl

theorem at_apart {bs : List Block} (hwf : ∀ b ∈ bs, b.WF 2) {r r' : Nat} {b b' : Block}
    (h : Arena.At bs r b) (h' : Arena.At bs r' b') (hne : r ≠ r') : r + 3 ≤ r' ∨ r' + 3 ≤ r := by
  induction bs generalizing r r' with
  | nil => exact absurd h at_nil
  | cons d bs ih =>
    have hd : 3 ≤ d.size := by
      have := (hwf d (by simp)).hdr_len
      simp only [Block.size, Block.words, List.length_append, List.length_cons]
      omega
    rw [at_cons] at h h'
    rcases h with ⟨h1, h2⟩ | ⟨h1, h2⟩ <;> rcases h' with ⟨h3, h4⟩ | ⟨h3, h4⟩
    · omega
    · omega
    · omega
    · have := ih (fun b hb => hwf b (by simp [hb])) h2 h4 (by omega)
      omega

theorem del_comm {a : Arena} {S : List LC} (h : LRep a S) {e e' : LC} (he : e ∈ S) (he' : e' ∈ S)
    (x : Arena) : del (del x e.ref e.lits.length) e'.ref e'.lits.length =
      del (del x e'.ref e'.lits.length) e.ref e.lits.length := by
  by_cases hr : e.ref = e'.ref
  · rw [h.unique he he' hr]
  · obtain ⟨bs, hb⟩ := h
    obtain ⟨b, h1, _⟩ := LRep.at_of_mem hb he
    obtain ⟨b', h2, _⟩ := LRep.at_of_mem hb he'
    have := at_apart hb.rep.wf h1 h2 hr
    unfold del
    simp only
    congr 1
    · rw [List.set_comm (i := e.ref + 3) (j := e'.ref + 2) _ _ (by omega),
        List.set_comm (i := e.ref + 2) (j := e'.ref + 2) _ _ (by omega),
        List.set_comm (i := e.ref + 3) (j := e'.ref + 3) _ _ (by omega),
        List.set_comm (i := e.ref + 2) (j := e'.ref + 3) _ _ (by omega)]
    · omega

/-- The literals of the clause with a given reference. -/
def litsAt (S : List LC) (r : Nat) : List Lit := ((S.find? fun e => e.ref = r).map LC.lits).getD []

theorem litsAt_eq {a : Arena} {S : List LC} (h : LRep a S) {e : LC} (he : e ∈ S) :
    litsAt S e.ref = e.lits := by
  unfold litsAt
  cases hf : S.find? (fun x => x.ref = e.ref) with
  | none =>
    have := List.find?_eq_none.1 hf e he
    simp at this
  | some x =>
    have h1 := List.mem_of_find?_eq_some hf
    have h2 := List.find?_some hf
    have := h.unique h1 he (by simpa using h2)
    simp [this]

/-- The result of the deletion loop. -/
theorem deleteLoop_eq {a0 : Arena} {S0 : List LC} (h0 : LRep a0 S0) (ds : List (Nat × Nat)) :
    ∀ {ctx ctx' : Ctx} {a a' : Arena} {S : List LC}, LRep a S → (ds.map Prod.snd).Nodup →
    (∀ d ∈ ds, ∃ e ∈ S, e.ref = d.2 ∧ e.live = true ∧ e ∈ S0) →
    deleteLoop ds ctx a = .ok (ctx', a') →
    a' = ds.foldl (fun x d => del x d.2 (litsAt S0 d.2).length) a ∧
      ctx' = { ctx with
        formula := { ctx.formula with redundant := ctx.formula.redundant - ds.length }
        proof := ctx.proof.map (· ++ ds.map fun d => .delete (litsAt S0 d.2)) } := by
  induction ds with
  | nil =>
    intro ctx ctx' a a' S _ _ _ e
    cases e
    refine ⟨rfl, ?_⟩
    cases hp : ctx.proof <;> cases ctx <;> simp_all
  | cons d ds ih =>
    intro ctx ctx' a a' S h hnd hd e
    obtain ⟨sc, r⟩ := d
    obtain ⟨x, hx, rfl, hl, hx0⟩ := hd (sc, r) (by simp)
    simp only [List.map_cons, List.nodup_cons] at hnd
    simp only [deleteLoop] at e
    split at e
    · cases e
    rename_i hr0
    obtain ⟨ctx1, e1, e⟩ := bind_eq_ok.1 e
    obtain ⟨a1, e2, e⟩ := bind_eq_ok.1 e
    obtain ⟨a1', e2', r1, _⟩ := h.delete_ok hx hl
    cases e2.symm.trans e2'
    have hlits : Long.lits a x.ref = .ok x.lits := h.lits_ok hx
    rw [logDelete_ok hlits] at e1
    cases e1
    obtain ⟨i1, i2⟩ := ih r1 hnd.2 (by
      intro y hy
      obtain ⟨z, hz, h1, h2, h3⟩ := hd y (by simp [hy])
      refine ⟨z, mem_modS.2 ⟨z, hz, ?_⟩, h1, h2, h3⟩
      rw [if_neg]
      rw [h1]
      intro hc
      exact hnd.1 (List.mem_map.2 ⟨y, hy, hc⟩)) e
    rw [List.foldl_cons]
    simp only
    rw [litsAt_eq h0 hx0, ← delete_del h hx hl e2]
    refine ⟨i1, ?_⟩
    rw [i2]
    simp only [Ctx.logProof, List.length_cons, List.map_cons, Option.map_map, litsAt_eq h0 hx0]
    congr 1
    · congr 1
      omega
    · cases ctx.proof with
      | none => rfl
      | some log => simp

/-- Two orders of deletion. -/
theorem deleteLoop_perm {a : Arena} {S : List LC} (h : LRep a S) {ds ds' : List (Nat × Nat)}
    (hp : ds.Perm ds') (hnd : (ds.map Prod.snd).Nodup)
    (hd : ∀ d ∈ ds, ∃ e ∈ S, e.ref = d.2 ∧ e.live = true) {ctx ctx1 ctx' ctx1' : Ctx} {a' a1' : Arena}
    (hq : ctx.quiet = ctx1.quiet) (hw : SameWriter ctx.proof ctx1.proof)
    (e : deleteLoop ds ctx a = .ok (ctx', a')) (e' : deleteLoop ds' ctx1 a = .ok (ctx1', a1')) :
    a' = a1' ∧ ctx'.quiet = ctx1'.quiet ∧ SameWriter ctx'.proof ctx1'.proof := by
  have hd2 : ∀ d ∈ ds, ∃ e ∈ S, e.ref = d.2 ∧ e.live = true ∧ e ∈ S := by
    intro d hx
    obtain ⟨e, h1, h2, h3⟩ := hd d hx
    exact ⟨e, h1, h2, h3, h1⟩
  obtain ⟨p1, p2⟩ := deleteLoop_eq h ds h hnd hd2 e
  obtain ⟨q1, q2⟩ := deleteLoop_eq h ds' h ((hp.map Prod.snd).nodup_iff.1 hnd)
    (fun d hx => hd2 d (hp.mem_iff.2 hx)) e'
  refine ⟨?_, ?_, ?_⟩
  · rw [p1, q1]
    apply List.Perm.foldl_eq' hp
    intro x hx y hy z
    obtain ⟨ex, h1, h2, _⟩ := hd x hx
    obtain ⟨ey, h3, h4, _⟩ := hd y hy
    rw [← h2, ← h4, litsAt_eq h h1, litsAt_eq h h3]
    exact del_comm h h1 h3 z
  · rw [p2, q2, hp.length_eq]
    cases ctx; cases ctx1
    simp only [Ctx.quiet, Ctx.mk.injEq] at hq ⊢
    simp [hq]
  · rw [p2, q2]
    exact hw.append (.of_perm (fun d : Nat × Nat => litsAt S d.2) hp)

/-- The candidates of a reduction. -/
theorem candidates {n : Nat} {S : List LC} {p : PropState} (h : PInv n S p) :
    ∃ a1 a2 cands S2, protectLoop true p.trail.steps p.long = .ok a1 ∧
      candidateLoop (a1.buffer.length + 1) a1 none [] = .ok (a2, cands) ∧ LRep a2 S2 ∧
      (cands.map Prod.snd).Nodup ∧ ∀ x ∈ cands, ∃ e ∈ S2, e.ref = x.2 ∧ e.live = true := by
  obtain ⟨a1, e1, r1, _⟩ := protectLoop_spec true p.trail.steps h.rep (by
    intro x hx c hc
    obtain ⟨i, hi⟩ := List.mem_iff_getElem?.1 hx
    have := h.reasons i x hi
    unfold ReasonOK at this
    rw [hc] at this
    obtain ⟨e, he, hr, _⟩ := this
    exact ⟨e, he, hr⟩)
  obtain ⟨a2, e2, r2, _⟩ := candidateLoop_spec (a1.buffer.length + 1) (pre := [])
    (post := S.map (protE p.trail.steps true)) (it := none) (cands := []) (by simpa using r1)
    r1.next_none (by have := r1.length_le_buffer; omega)
  simp only [List.nil_append] at e2 r2
  have hc : ∀ {e : LC} {d : Nat × Nat}, candE e = some d → d.2 = e.ref ∧ e.live = true := by
    intro e d h
    unfold candE at h
    split at h
    · rename_i hc
      cases h
      simp [visited] at hc
      exact ⟨rfl, hc.1.1.1.1⟩
    · cases h
  refine ⟨a1, a2, _, _, e1, e2, r2, ?_, ?_⟩
  · have hS := r1.nodup
    generalize S.map (protE p.trail.steps true) = T at hS
    have key : ((T.filterMap candE).map Prod.snd).Nodup ∧
        ∀ x ∈ T.filterMap candE, x.2 ∈ T.map LC.ref := by
      induction T with
      | nil => simp
      | cons e T ih =>
        simp only [List.map_cons, List.nodup_cons] at hS
        obtain ⟨i1, i2⟩ := ih hS.2
        rw [List.filterMap_cons]
        cases hce : candE e with
        | none =>
          exact ⟨i1, fun x hx => by simp only [List.map_cons]; exact List.mem_cons_of_mem _ (i2 x hx)⟩
        | some y =>
          have := (hc hce).1
          simp only [List.map_cons, List.nodup_cons]
          refine ⟨⟨?_, i1⟩, ?_⟩
          · rw [this]
            intro hm
            obtain ⟨z, hz, hzr⟩ := List.mem_map.1 hm
            exact hS.1 (hzr ▸ i2 z hz)
          · intro x hx
            rcases List.mem_cons.1 hx with rfl | hx
            · rw [this]; simp
            · exact List.mem_cons_of_mem _ (i2 x hx)
    exact key.1
  · intro x hx
    obtain ⟨e, he, hce⟩ := List.mem_filterMap.1 hx
    obtain ⟨h1, h2⟩ := hc hce
    refine ⟨visitE e, List.mem_map.2 ⟨e, he, rfl⟩, by rw [visitE_ref, h1], ?_⟩
    unfold LC.live at *
    rw [visitE_lits]; exact h2

/-! ## The remaining steps -/

theorem bind_congr'' {α β : Type} {m : M α} {f g : α → M β} (h : ∀ x, f x = g x) :
    m >>= f = m >>= g := by rw [show f = g from funext h]

section
variable {env : Env} {o : List (Nat × Nat) → List (Nat × Nat)} {ho : ∀ l, (o l).Perm l}

theorem addLiteral_reorder (an : Analysis) (t : Trail) (l : Lit) (cb : Callbacks) :
    Analysis.addLiteral (env.reorder o ho) an t l cb = Analysis.addLiteral env an t l cb := rfl

theorem addLiterals_reorder (t : Trail) : ∀ (ls : List Lit) (an : Analysis) (cb : Callbacks),
    Analysis.addLiterals (env.reorder o ho) t ls an cb = Analysis.addLiterals env t ls an cb
  | [], _, _ => rfl
  | l :: ls, an, cb => by
    simp only [Analysis.addLiterals, addLiteral_reorder]
    apply bind_congr''
    rintro ⟨an, cb⟩
    exact addLiterals_reorder t ls an cb

theorem uipLoop_reorder : ∀ (k : Nat) (an : Analysis) (p : PropState) (cb : Callbacks),
    Analysis.uipLoop (env.reorder o ho) k an p cb = Analysis.uipLoop env k an p cb
  | 0, _, _, _ => rfl
  | k + 1, an, p, cb => by
    simp only [Analysis.uipLoop, addLiterals_reorder, uipLoop_reorder k]

theorem searchStep_reorder (ctx : Ctx) (s : Search) :
    searchStep (env.reorder o ho) ctx s = searchStep env ctx s := by
  have h : ∀ ctx an p c cb, Analysis.analyzeConflict (env.reorder o ho) ctx an p c cb =
      Analysis.analyzeConflict env ctx an p c cb := by
    intro ctx an p c cb
    unfold Analysis.analyzeConflict Analysis.derive1uip
    simp only [addLiterals_reorder, uipLoop_reorder]
    rfl
  unfold searchStep
  simp only [h]

theorem input_reorder {F : List (List Lit)} {s : Solver} (h : Solver.Input env F s) :
    Solver.Input (env.reorder o ho) F s := by
  induction h with
  | new => exact .new
  | proof _ ih => exact ih.proof
  | add _ hc e ih => exact ih.add hc e

end

/-- The line that a search step appends to the proof. -/
def stepLine (old new : SearchStats) (s : Search) (r : Option Bool) : List ProofStep :=
  if r = none ∧ new.conflicts ≠ old.conflicts then [.add s.analysis.derivedClause] else []

theorem searchStep_line {env : Env} {F : List (List Lit)} {s : Solver} (h : Solver.Reachable env F s)
    {ctx : Ctx} {search : Search} {r : Option Bool}
    (e : searchStep env s.ctx s.search = .ok (ctx, search, r)) :
    ctx.proof = s.ctx.proof.map (· ++ stepLine s.ctx.search ctx.search search r) := by
  have hid : s.ctx.proof = s.ctx.proof.map (· ++ []) := by cases s.ctx.proof <;> simp
  have hc := searchStep_cases h e
  cases hc with
  | already => exact hid
  | fail hp h0 => exact Eq.trans hp.proof hid
  | learn hp h0 ea =>
    obtain ⟨_, _, C, lvl, target, _, A⟩ := hp.analyze h0 ea
    rw [A.proof, stepLine, if_pos ⟨rfl, by rw [A.search]; simp [Ctx.conflict, hp.search]⟩, A.clause]
    simp only [Ctx.logProof, Ctx.conflict, hp.proof]
  | decide hp e1 e2 e3 =>
    rw [stepLine, if_neg (by simp [Ctx.decision, hp.search])]
    exact Eq.trans hp.proof hid
  | sat hp e1 =>
    rw [stepLine, if_neg (by simp)]
    exact Eq.trans hp.proof hid

theorem maybeRestart_proof {s s' : Solver} (e : s.maybeRestart = .ok s') :
    s'.ctx.proof = s.ctx.proof := by
  unfold Solver.maybeRestart restart at e
  simp only at e
  split at e
  · split at e
    · obtain ⟨_, e1, e⟩ := bind_eq_ok.1 e
      obtain ⟨_, _, e1⟩ := bind_eq_ok.1 e1
      cases e1
      cases e
      rfl
    · cases e
      rfl
  · cases e
    rfl

end Order

/-- Solvers that differ in the order of consecutive deletions in the proof only. -/
structure Solver.Same (s s' : Solver) : Prop where
  rest : s.quiet = s'.quiet
  proof : SameWriter s.ctx.proof s'.ctx.proof

namespace Solver.Same
variable {s s' : Solver}

theorem search (h : s.Same s') : s.search = s'.search := by
  have := congrArg Solver.search h.rest
  exact this

theorem schedule (h : s.Same s') : s.schedule = s'.schedule := by
  have := congrArg Solver.schedule h.rest
  exact this

theorem stats (h : s.Same s') : s.ctx.search = s'.ctx.search := by
  have := congrArg (fun s : Solver => s.ctx.search) h.rest
  exact this

end Solver.Same

/-- Both computations panic in the same way, or both end with the same answer in solvers that differ in the
order of consecutive deletions in the proof only. -/
inductive SameRun : M (Solver × Option Bool) → M (Solver × Option Bool) → Prop
  | error (x : Err) : SameRun (.error x) (.error x)
  | ok {s s' : Solver} (r : Option Bool) : s.Same s' → SameRun (.ok (s, r)) (.ok (s', r))

/-- C74 for one reduction: for any two orders, it deletes the same clauses, leaves the same arena (word for
word), assignment, statistics and heuristics, and writes the same deletions to the proof up to their order. -/
theorem C74_reduce {env env' : Env} {n : Nat} {S : List LC} {s : Search} (h : PInv n S s.prop)
    {ctx ctx1 ctx' ctx1' : Ctx} {s' s1' : Search} (hq : ctx.quiet = ctx1.quiet)
    (hw : SameWriter ctx.proof ctx1.proof) (e : reduce env ctx s = .ok (ctx', s'))
    (e' : reduce env' ctx1 s = .ok (ctx1', s1')) :
    s' = s1' ∧ ctx'.quiet = ctx1'.quiet ∧ SameWriter ctx'.proof ctx1'.proof := by
  obtain ⟨a1, a2, cands, S2, h1, h2, hr, hnd, hl⟩ := Order.candidates h
  unfold reduce at e e'
  simp only at e e'
  rw [h1, bind_ok, h2, bind_ok] at e e'
  obtain ⟨⟨c, a3⟩, d, e⟩ := bind_eq_ok.1 e
  obtain ⟨⟨c1, a3'⟩, d', e'⟩ := bind_eq_ok.1 e'
  obtain ⟨a4, p, e⟩ := bind_eq_ok.1 e
  obtain ⟨a4', p', e'⟩ := bind_eq_ok.1 e'
  cases e
  cases e'
  have hperm : (higher env cands).Perm (higher env' cands) :=
    (env.order_perm _).trans (env'.order_perm _).symm
  obtain ⟨low, hlow, _⟩ := higher_spec env cands
  have hnd2 : ((higher env cands).map Prod.snd).Nodup := by
    have := (hlow.map Prod.snd).nodup_iff.2 hnd
    rw [List.map_append, List.nodup_append] at this
    exact this.2.1
  simp only at d d' p p'
  obtain ⟨q1, q2, q3⟩ := Order.deleteLoop_perm
    (ctx := { ctx with search := { ctx.search with reductions := ctx.search.reductions + 1 } })
    (ctx1 := { ctx1 with search := { ctx1.search with reductions := ctx1.search.reductions + 1 } })
    hr hperm hnd2 (fun d hd => hl d (hlow.mem_iff.1 (by simp [hd]))) (by
      cases ctx; cases ctx1
      simp only [Ctx.quiet, Ctx.mk.injEq] at hq ⊢
      simp [hq]) hw d d'
  subst q1
  cases p.symm.trans p'
  exact ⟨rfl, q2, q3⟩

theorem Order.scheduleStep {env : Env} {o : List (Nat × Nat) → List (Nat × Nat)} {ho : ∀ l, (o l).Perm l}
    {F : List (List Lit)} {s s' : Solver} (h : Solver.Reachable env F s)
    (h' : Solver.Reachable (env.reorder o ho) F s') (hs : s.Same s') :
    SameRun (s.scheduleStep env) (s'.scheduleStep (env.reorder o ho)) := by
  unfold Solver.scheduleStep
  obtain ⟨L, S, hi⟩ := h.inv
  obtain ⟨L', S', hi'⟩ := h'.inv
  obtain ⟨s1, e1, -, -⟩ := maybeRestart_spec hi
  obtain ⟨s1', e1', -, -⟩ := maybeRestart_spec hi'
  rw [e1, e1', bind_ok, bind_ok]
  have hs1 : s1.Same s1' := by
    refine ⟨?_, ?_⟩
    · have q := maybeRestart_quiet s
      have q' := maybeRestart_quiet s'
      rw [← hs.rest, q, e1, e1'] at q'
      exact Except.ok.inj q'
    · rw [Order.maybeRestart_proof e1, Order.maybeRestart_proof e1']
      exact hs.proof
  replace h := h.restart e1
  replace h' := h'.restart e1'
  clear hi hi' e1 e1' hs s s' L L' S S'
  obtain ⟨L, S, hi⟩ := h.inv
  obtain ⟨L', S', hi'⟩ := h'.inv
  obtain ⟨s2, e2, -, -⟩ := maybeReduce_spec hi
  obtain ⟨s2', e2', -, -⟩ := maybeReduce_spec hi'
  rw [e2, e2', bind_ok, bind_ok]
  have hsearch : s1.search = s1'.search := hs1.search
  have hsched : s1.schedule = s1'.schedule := hs1.schedule
  have hctx : s1.ctx.quiet = s1'.ctx.quiet := congrArg Solver.ctx hs1.rest
  have hst : s1.ctx.search = s1'.ctx.search := hs1.stats
  have hs2 : s2.Same s2' := by
    unfold Solver.maybeReduce at e2 e2'
    by_cases hc : s1.ctx.search.conflicts ≥ s1.schedule.nextReduce
    · rw [if_pos hc] at e2
      rw [hst, hsched] at hc
      rw [if_pos hc] at e2'
      obtain ⟨⟨c, t⟩, r1, e2⟩ := bind_eq_ok.1 e2
      obtain ⟨⟨c', t'⟩, r1', e2'⟩ := bind_eq_ok.1 e2'
      cases e2
      cases e2'
      rw [← hsearch] at r1'
      obtain ⟨q1, q2, q3⟩ := C74_reduce hi.prop hctx hs1.proof r1 r1'
      refine ⟨?_, q3⟩
      simp only [Solver.quiet, q1, q2, hsched]
      rfl
    · rw [if_neg hc] at e2
      rw [hst, hsched] at hc
      rw [if_neg hc] at e2'
      cases e2
      cases e2'
      exact hs1
  replace h := h.reduce e2
  replace h' := h'.reduce e2'
  clear hi hi' e2 e2' hs1 hsearch hsched hctx hst s1 s1' L L' S S'
  have hsearch : s2.search = s2'.search := hs2.search
  have hsched : s2.schedule = s2'.schedule := hs2.schedule
  have hctx : s2.ctx.quiet = s2'.ctx.quiet := congrArg Solver.ctx hs2.rest
  have hst : s2.ctx.search = s2'.ctx.search := hs2.stats
  have q := searchStep_quiet env s2.ctx s2.search
  have q' := searchStep_quiet env s2'.ctx s2'.search
  rw [hctx, hsearch, q'] at q
  have hl := @Order.searchStep_line env F s2 h
  have hl' := @Order.searchStep_line (env.reorder o ho) F s2' h'
  rw [Order.searchStep_reorder] at hl' ⊢
  rw [hsearch] at hl ⊢
  cases r : searchStep env s2.ctx s2'.search with
  | error x =>
    cases r' : searchStep env s2'.ctx s2'.search with
    | error x' =>
      rw [r, r'] at q
      cases q
      exact .error _
    | ok y => rw [r, r'] at q; cases q
  | ok y =>
    cases r' : searchStep env s2'.ctx s2'.search with
    | error x' => rw [r, r'] at q; cases q
    | ok y' =>
      obtain ⟨c, t, b⟩ := y
      obtain ⟨c', t', b'⟩ := y'
      rw [r, r'] at q
      have q := Except.ok.inj q
      simp only [Prod.mk.injEq] at q
      obtain ⟨q1, q2, q3⟩ := q
      subst q2 q3
      rw [bind_ok, bind_ok]
      refine .ok _ ⟨?_, ?_⟩
      · simp only [Solver.quiet, q1, hsched]
      · simp only
        rw [hl r, hl' r', hst, show c.search = c'.search from (congrArg Ctx.search q1).symm]
        exact hs2.proof.append (.refl _)

/-- C74: for any two orders in which `select_nth_unstable` may leave the elements above the selected one,
solving a formula makes the same steps.  After any number of iterations it gives the same answer or the
same panic, all of the solver's state is the same, and the proofs differ at most in the order of
consecutive deletions. -/
theorem C74_order {env : Env} {F : List (List Lit)} (o : List (Nat × Nat) → List (Nat × Nat))
    (ho : ∀ l, (o l).Perm l) : ∀ (k : Nat) {s s' : Solver}, Solver.Reachable env F s →
    Solver.Reachable (env.reorder o ho) F s' → s.Same s' →
    SameRun (s.solve env k) (s'.solve (env.reorder o ho) k)
  | 0, _, _, _, _, hs => .ok none hs
  | k + 1, s, s', h, h', hs => by
    have hstep := Order.scheduleStep h h' hs
    simp only [Solver.solve]
    generalize e : s.scheduleStep env = x at hstep
    generalize e' : s'.scheduleStep (env.reorder o ho) = x' at hstep
    cases hstep with
    | error x => exact .error x
    | ok r hs =>
      rw [bind_ok, bind_ok]
      cases r with
      | some b => exact .ok _ hs
      | none => exact C74_order o ho k (h.schedule e) (h'.schedule e') hs

/-- C74 for whole runs. -/
theorem C74_run {env : Env} {F : List (List Lit)} {s : Solver} (h : Solver.Input env F s)
    (o : List (Nat × Nat) → List (Nat × Nat)) (ho : ∀ l, (o l).Perm l) (k : Nat) :
    SameRun (s.solve env k) (s.solve (env.reorder o ho) k) :=
  C74_order o ho k (.input h) (.input (Order.input_reorder h)) ⟨rfl, .refl _⟩

/-- A reduction after every four conflicts. -/
def Example.envFour : Env := { Example.env with reduceInterval := fun _ => 4 }

/-- The last lines of the proof after 44 iterations on the formula for six pigeons in five holes. -/
def Example.lastLines (env : Env) : M (List ProofStep) := do
  let s ← (Solver.default env).writeProof.addClauses (Example.cnf (Example.php 6 5))
  let (s, _) ← s.solve env 44
  pure ((s.ctx.proof.getD []).drop 15)

theorem Example.lastLines_id : Example.lastLines Example.envFour = .ok
    [.add ([7, 19, 27, 41, 31, 21, 11, 1].map fun c => ⟨c⟩),
     .delete ([3, 33, 7, 14, 35, 23, 31, 21, 1].map fun c => ⟨c⟩),
     .delete ([5, 26, 15, 13, 3, 11, 1].map fun c => ⟨c⟩)] := by
  decide +kernel

theorem Example.lastLines_reverse :
    Example.lastLines (Example.envFour.reorder List.reverse List.reverse_perm) = .ok
    [.add ([7, 19, 27, 41, 31, 21, 11, 1].map fun c => ⟨c⟩),
     .delete ([5, 26, 15, 13, 3, 11, 1].map fun c => ⟨c⟩),
     .delete ([3, 33, 7, 14, 35, 23, 31, 21, 1].map fun c => ⟨c⟩)] := by
  decide +kernel

/-- A case for C74 in which two clauses are deleted in a reduction: the proofs end with the deletions in
different orders. -/
theorem C74_example : ∃ s t t' r log log', Solver.Input Example.envFour (Example.cnf (Example.php 6 5)) s ∧
    s.solve Example.envFour 44 = .ok (t, r) ∧
    s.solve (Example.envFour.reorder List.reverse List.reverse_perm) 44 = .ok (t', r) ∧
    t.ctx.proof = some log ∧ t'.ctx.proof = some log' ∧ log ≠ log' ∧ SameProof log log' ∧
    t.quiet = t'.quiet := by
  obtain ⟨s, e1, e⟩ := bind_eq_ok.1 Example.lastLines_id
  obtain ⟨s', e1', e'⟩ := bind_eq_ok.1 Example.lastLines_reverse
  cases e1.symm.trans e1'
  obtain ⟨⟨t, r⟩, e2, e⟩ := bind_eq_ok.1 e
  obtain ⟨⟨t', r'⟩, e2', e'⟩ := bind_eq_ok.1 e'
  have hin : Solver.Input Example.envFour (Example.cnf (Example.php 6 5)) s := by
    have := Solver.Input.addClauses _ (.proof (.new (env := Example.envFour)))
      (Example.ok_valid (by decide +kernel)) e1
    simpa using this
  have hsame := C74_run hin List.reverse List.reverse_perm 44
  rw [e2, e2'] at hsame
  have h := Except.ok.inj e
  have h' := Except.ok.inj e'
  cases hsame with
  | ok r hs =>
    obtain ⟨hq, hp⟩ := hs
    generalize hl : t.ctx.proof = x at *
    generalize hl' : t'.ctx.proof = x' at *
    cases hp with
    | none => cases h
    | @some l l' hp =>
      refine ⟨s, t, t', r, l, l', hin, e2, e2', hl, hl', ?_, hp, hq⟩
      rintro rfl
      have := h.symm.trans h'
      simp at this

end Starlit
