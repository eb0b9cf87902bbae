import Verif.Props.GcCost
import Verif.Props.Capacity

/-!
# C80: the work of a reduction

`reduce` again, with counters for the steps of the trail, the words looked at to find the next clause, the clauses
visited and the work of deletions.
-/

namespace Starlit

/-! ## Counting -/

/-- The work of a reduction: steps of the trail in both calls of `protect_clauses`, words looked at in
`find_clause`, clauses visited in the loop over all clauses, the length of the list `select_nth_unstable` is called
with (it is linear in that by its documentation), and deletions with the literals written to the proof. -/
structure ReduceWork where
  steps : Nat
  words : Nat
  visits : Nat
  cands : Nat
  deleted : Nat
deriving DecidableEq, Repr

/-- The loop of `find_clause` (`/repo/starlit/src/clause_arena.rs:389-404`) with the number of words looked at. -/
def Arena.findLoopT (hl : Nat) (buf : List Word) : Nat → Nat → M (Nat × Option Nat)
  | 0, _ => throw .fuel
  | fuel + 1, pos =>
    match buf[pos]? with
    | none => pure (1, none)
    | some word =>
      if word &&& LEN_MARKER ≠ 0#32 then
        if word = LEN_MARKER then do
          let d ← idx buf (pos + 1)
          let (t, r) ← findLoopT hl buf fuel (pos + (d.toNat + hl + 1))
          pure (t + 1, r)
        else do
          debugM (decide (hl ≤ pos))
          pure (1, some ((pos - hl) % 2 ^ 32))
      else do
        let (t, r) ← findLoopT hl buf fuel (pos + 1)
        pure (t + 1, r)

/-- `next_clause` (`/repo/starlit/src/clause_arena.rs:424-431`). -/
def Long.nextT (a : Arena) (c : Option Nat) : M (Nat × Option Nat) := do
  let start ← match c with
    | none => pure 0
    | some c => do
      let len ← Arena.clauseLen Long.hl a c
      pure (c + len + Long.hl + 1)
  Arena.findLoopT Long.hl a.buffer (a.buffer.length + 1) (start + Long.hl)

/-- `protect_clauses` (`/repo/starlit/src/search/reduce.rs:84-91`). -/
def protectLoopT (prot : Bool) : List Step → Arena → M (Nat × Arena)
  | [], a => pure (0, a)
  | s :: ss, a => do
    match s.reason with
    | .long c => do
      let a ← Long.modHeader a c (·.setProt prot)
      let (t, a) ← protectLoopT prot ss a
      pure (t + 1, a)
    | _ => do
      let (t, a) ← protectLoopT prot ss a
      pure (t + 1, a)

/-- The candidate loop (`/repo/starlit/src/search/reduce.rs:28-63`). -/
def candidateLoopT : Nat → Arena → Option Nat → List (Nat × Nat) → M ((Nat × Nat) × Arena × List (Nat × Nat))
  | 0, _, _, _ => throw .fuel
  | fuel + 1, a, it, cands => do
    match ← Long.nextT a it with
    | (g, none) => pure ((g, 0), a, cands)
    | (g, some c) => do
      let (a, r) ← reduceVisit a c
      let (t, x) ← candidateLoopT fuel a (some c) (cands ++ r.toList)
      pure ((t.1 + g, t.2 + 1), x)

/-- Logging a deletion (`/repo/starlit/src/search/reduce.rs:73-75`), with the number of literals written. -/
def logDeleteT (ctx : Ctx) (a : Arena) (c : Nat) : M (Nat × Ctx) :=
  match ctx.proof with
  | some _ => do
    let ls ← Long.lits a c
    pure (ls.length, ctx.logProof (.delete ls))
  | none => pure (0, ctx)

/-- The deletion loop (`/repo/starlit/src/search/reduce.rs:70-78`). -/
def deleteLoopT : List (Nat × Nat) → Ctx → Arena → M (Nat × Ctx × Arena)
  | [], ctx, a => pure (0, ctx, a)
  | (_, c) :: rest, ctx, a => do
    if ctx.formula.redundant = 0 then throw .panic
    else
      let ctx := { ctx with
        formula := { ctx.formula with redundant := ctx.formula.redundant - 1 } }
      let (k, ctx) ← logDeleteT ctx a c
      let a ← Long.delete a c
      let (t, x) ← deleteLoopT rest ctx a
      pure (t + k + 1, x)

/-- `reduce` (`/repo/starlit/src/search/reduce.rs:20-82`). -/
def reduceT (env : Env) (ctx : Ctx) (s : Search) : M (ReduceWork × Ctx × Search) := do
  let ctx := { ctx with search := { ctx.search with reductions := ctx.search.reductions + 1 } }
  let (t1, a) ← protectLoopT true s.prop.trail.steps s.prop.long
  let (t2, a, cands) ← candidateLoopT (a.buffer.length + 1) a none []
  let (t3, ctx, a) ← deleteLoopT (higher env cands) ctx a
  let (t4, a) ← protectLoopT false s.prop.trail.steps a
  pure (⟨t1 + t4, t2.1, t2.2, cands.length, t3⟩, ctx, { s with prop := { s.prop with long := a } })

/-! ## The counted functions are those of the model -/

theorem Arena.findLoopT_erase (hl : Nat) (buf : List Word) : ∀ (fuel pos : Nat),
    Except.map Prod.snd (findLoopT hl buf fuel pos) = findLoop hl buf fuel pos
  | 0, _ => rfl
  | fuel + 1, pos => by
    unfold findLoopT findLoop
    cases buf[pos]? with
    | none => rfl
    | some word =>
      simp only
      by_cases h1 : word &&& LEN_MARKER ≠ 0#32
      · rw [if_pos h1, if_pos h1]
        by_cases h2 : word = LEN_MARKER
        · rw [if_pos h2, if_pos h2, map_snd_bind]
          congr 1; funext d
          rw [← findLoopT_erase hl buf fuel]
          cases findLoopT hl buf fuel (pos + (d.toNat + hl + 1)) <;> rfl
        · rw [if_neg h2, if_neg h2, map_snd_bind]; rfl
      · rw [if_neg h1, if_neg h1, ← findLoopT_erase hl buf fuel]
        cases findLoopT hl buf fuel (pos + 1) <;> rfl

theorem Long.nextT_erase (a : Arena) (c : Option Nat) : Except.map Prod.snd (nextT a c) = next a c := by
  unfold nextT next Arena.nextClause Arena.findClause
  cases c with
  | none => exact Arena.findLoopT_erase _ _ _ _
  | some c =>
    simp only [map_snd_bind]
    congr 1; funext len
    exact Arena.findLoopT_erase _ _ _ _

/-- The search for the next clause is a scan from some place on, after the words `passed`. -/
theorem Long.nextT_scan {a : Arena} {it r : Option Nat} {t : Nat} (e : nextT a it = .ok (t, r)) :
    ∃ start, Arena.findLoopT hl a.buffer (a.buffer.length + 1) start = .ok (t, r) ∧
      (∀ c, it = some c → c + 3 ≤ start) := by
  unfold nextT at e
  cases it with
  | none => exact ⟨_, e, fun c hc => by cases hc⟩
  | some c =>
    obtain ⟨len, _, e⟩ := bind_eq_ok.1 e
    refine ⟨_, e, fun c' hc => ?_⟩
    cases hc
    have : hl = 2 := rfl
    omega

theorem protectLoopT_erase (prot : Bool) : ∀ (ss : List Step) (a : Arena),
    Except.map Prod.snd (protectLoopT prot ss a) = protectLoop prot ss a
  | [], _ => rfl
  | s :: ss, a => by
    unfold protectLoopT protectLoop
    have h : ∀ a, Except.map Prod.snd (do
        let (t, a) ← protectLoopT prot ss a
        pure (t + 1, a)) = protectLoop prot ss a := by
      intro a
      rw [← protectLoopT_erase prot ss]
      cases protectLoopT prot ss a <;> rfl
    cases s.reason with
    | long c =>
      simp only [map_snd_bind]
      congr 1; funext a1
      rw [← map_snd_bind]
      exact h a1
    | decision => exact h a
    | unit => exact h a
    | binary l => exact h a

theorem candidateLoopT_erase : ∀ (fuel : Nat) (a : Arena) (it : Option Nat) (cands : List (Nat × Nat)),
    Except.map Prod.snd (candidateLoopT fuel a it cands) = candidateLoop fuel a it cands
  | 0, _, _, _ => rfl
  | fuel + 1, a, it, cands => by
    unfold candidateLoopT candidateLoop
    rw [← Long.nextT_erase, bind_map_snd, map_snd_bind]
    congr 1; funext ⟨g, r⟩
    cases r with
    | none => rfl
    | some c =>
      simp only [map_snd_bind]
      congr 1; funext ⟨a1, r⟩
      simp only
      rw [← candidateLoopT_erase fuel a1]
      cases candidateLoopT fuel a1 (some c) (cands ++ r.toList) <;> rfl

theorem logDeleteT_erase (ctx : Ctx) (a : Arena) (c : Nat) :
    Except.map Prod.snd (logDeleteT ctx a c) = logDelete ctx a c := by
  unfold logDeleteT logDelete
  cases ctx.proof with
  | none => rfl
  | some _ => simp only [map_snd_bind]; rfl

theorem deleteLoopT_erase : ∀ (ds : List (Nat × Nat)) (ctx : Ctx) (a : Arena),
    Except.map Prod.snd (deleteLoopT ds ctx a) = deleteLoop ds ctx a
  | [], _, _ => rfl
  | (x, c) :: rest, ctx, a => by
    unfold deleteLoopT deleteLoop
    by_cases h0 : ctx.formula.redundant = 0
    · rw [if_pos h0, if_pos h0]; rfl
    · rw [if_neg h0, if_neg h0]
      simp only
      rw [← logDeleteT_erase, bind_map_snd, map_snd_bind]
      congr 1; funext ⟨k, ctx1⟩
      simp only [map_snd_bind]
      congr 1; funext a1
      rw [← deleteLoopT_erase rest]
      cases deleteLoopT rest ctx1 a1 <;> rfl

theorem reduceT_erase (env : Env) (ctx : Ctx) (s : Search) :
    Except.map Prod.snd (reduceT env ctx s) = reduce env ctx s := by
  unfold reduceT reduce
  simp only
  rw [← protectLoopT_erase, bind_map_snd, map_snd_bind]
  congr 1; funext ⟨t1, a1⟩
  simp only [map_snd_bind]
  rw [← candidateLoopT_erase, bind_map_snd]
  congr 1; funext ⟨t2, a2, cands⟩
  simp only
  rw [← deleteLoopT_erase, bind_map_snd]
  congr 1; funext ⟨t3, ctx1, a3⟩
  simp only
  rw [← protectLoopT_erase, bind_map_snd]
  rfl

/-! ## Bounds -/

section
variable {env : Env} {F : List (List Lit)} {s s' : Solver}

theorem protectLoopT_eq (prot : Bool) : ∀ (ss : List Step) {a a' : Arena} {t : Nat},
    protectLoopT prot ss a = .ok (t, a') → t = ss.length
  | [], _, _, _, e => by cases e; rfl
  | s :: ss, a, a', t, e => by
    unfold protectLoopT at e
    split at e
    · obtain ⟨a1, _, e⟩ := bind_eq_ok.1 e
      obtain ⟨⟨t1, a2⟩, e1, e⟩ := bind_eq_ok.1 e
      cases e
      rw [protectLoopT_eq prot ss e1, List.length_cons]
    · obtain ⟨⟨t1, a2⟩, e1, e⟩ := bind_eq_ok.1 e
      cases e
      rw [protectLoopT_eq prot ss e1, List.length_cons]

theorem protectLoop_garbage (prot : Bool) : ∀ (ss : List Step) {a : Arena},
    Res (protectLoop prot ss a) (fun a' => a'.garbage = a.garbage)
  | [], _ => Res.pure rfl
  | s :: ss, a => by
    unfold protectLoop
    split
    · refine Res.bind (P := fun a1 => a1.garbage = a.garbage) ?_ fun a1 h1 =>
        (protectLoop_garbage prot ss).mono fun _ h2 => h2.trans h1
      unfold Long.modHeader Arena.modifyHeader Arena.writeHeaderUnchecked
      exact Res.any fun _ => Res.any fun _ => Res.any fun _ => Res.pure rfl
    · exact protectLoop_garbage prot ss

theorem reduceVisit_garbage {a : Arena} {c : Nat} :
    Res (reduceVisit a c) (fun r => r.1.garbage = a.garbage) := by
  unfold reduceVisit
  refine Res.any fun _ => Res.any fun h => ?_
  split
  · exact Res.pure rfl
  split
  · exact Res.pure rfl
  split
  · exact Res.pure rfl
  split
  · refine Res.bind (P := fun a1 => a1.garbage = a.garbage) ?_ fun a1 h1 => ?_
    · unfold Long.modHeader Arena.modifyHeader Arena.writeHeaderUnchecked
      exact Res.any fun _ => Res.any fun _ => Res.any fun _ => Res.pure rfl
    · split
      · exact Res.pure h1
      · exact Res.pure h1
  · exact Res.pure rfl

theorem candidateLoop_garbage : ∀ (fuel : Nat) {a : Arena} {it : Option Nat} {cands : List (Nat × Nat)},
    Res (candidateLoop fuel a it cands) (fun r => r.1.garbage = a.garbage)
  | 0, _, _, _ => Res.throw
  | fuel + 1, a, it, cands => by
    unfold candidateLoop
    refine Res.any fun r => ?_
    cases r with
    | none => exact Res.pure rfl
    | some c =>
      refine Res.bind reduceVisit_garbage fun r h => ?_
      obtain ⟨a1, r⟩ := r
      exact (candidateLoop_garbage fuel).mono fun _ h2 => h2.trans h

/-- What the deletions cost is at most what they free. -/
theorem deleteLoopT_le : ∀ (ds : List (Nat × Nat)) {ctx ctx' : Ctx} {a a' : Arena} {t : Nat},
    deleteLoopT ds ctx a = .ok (t, ctx', a') → t + 2 * ds.length + a.garbage ≤ a'.garbage
  | [], _, _, _, _, _, e => by cases e; simp
  | (x, c) :: rest, ctx, ctx', a, a', t, e => by
    unfold deleteLoopT at e
    split at e
    · cases e
    · simp only at e
      obtain ⟨⟨k, ctx1⟩, e1, e⟩ := bind_eq_ok.1 e
      obtain ⟨a1, e2, e⟩ := bind_eq_ok.1 e
      obtain ⟨⟨t1, y⟩, e3, e⟩ := bind_eq_ok.1 e
      cases e
      have i := deleteLoopT_le rest e3
      unfold Long.delete Arena.deleteClause at e2
      obtain ⟨len, e4, e2⟩ := bind_eq_ok.1 e2
      have hg : a1.garbage = a.garbage + (len + Long.hl + 1) := by
        simp only at e2
        split at e2
        · obtain ⟨_, _, e2⟩ := bind_eq_ok.1 e2
          obtain ⟨_, _, e2⟩ := bind_eq_ok.1 e2
          cases e2; rfl
        · cases e2; rfl
      have hk : k ≤ len := by
        unfold logDeleteT at e1
        split at e1
        · obtain ⟨ls, e5, e1⟩ := bind_eq_ok.1 e1
          cases e1
          unfold Long.lits Arena.lits at e5
          rw [e4, bind_ok] at e5
          unfold Arena.litsUncheckedWithLen sliceU at e5
          obtain ⟨ws, e6, e5⟩ := bind_eq_ok.1 e5
          cases e5
          split at e6
          · cases e6
            rw [List.length_map, List.length_take]
            omega
          · cases e6
        · cases e1; omega
      have : Long.hl = 2 := rfl
      rw [List.length_cons]
      omega

/-- The words looked at to find a clause lie between the place where the search starts and the clause. -/
theorem findLoopT_le {hl : Nat} {buf : List Word} : ∀ (fuel : Nat) {pos t : Nat} {r : Option Nat},
    Arena.findLoopT hl buf fuel pos = .ok (t, r) →
    (r = none → t ≤ buf.length - pos + 1) ∧
    ∀ c, r = some c → ∃ w P, buf[P]? = some w ∧ w &&& LEN_MARKER ≠ 0#32 ∧ hl ≤ P ∧ c = (P - hl) % 2 ^ 32 ∧ t + pos ≤ P + 1
  | 0, _, _, _, e => by cases e
  | fuel + 1, pos, t, r, e => by
    unfold Arena.findLoopT at e
    split at e
    · cases e
      exact ⟨fun _ => by omega, fun c hc => by cases hc⟩
    · rename_i w hw
      have hlt : pos < buf.length := (List.getElem?_eq_some_iff.1 hw).1
      split at e
      · rename_i hm
        split at e
        · obtain ⟨d, _, e⟩ := bind_eq_ok.1 e
          obtain ⟨⟨t1, r1⟩, e1, e⟩ := bind_eq_ok.1 e
          cases e
          obtain ⟨i1, i2⟩ := findLoopT_le fuel e1
          refine ⟨fun hr => ?_, fun c hc => ?_⟩
          · have := i1 hr; omega
          · obtain ⟨w', P, h1, h2, h3, h4, h5⟩ := i2 c hc
            exact ⟨w', P, h1, h2, h3, h4, by omega⟩
        · obtain ⟨_, hd, e⟩ := bind_eq_ok.1 e
          cases e
          refine ⟨(nomatch ·), fun c hc => ?_⟩
          cases hc
          have hle : hl ≤ pos := by
            by_contra hn
            simp [debugM, hn] at hd
          exact ⟨w, pos, hw, hm, hle, rfl, by omega⟩
      · obtain ⟨⟨t1, r1⟩, e1, e⟩ := bind_eq_ok.1 e
        cases e
        obtain ⟨i1, i2⟩ := findLoopT_le fuel e1
        refine ⟨fun hr => ?_, fun c hc => ?_⟩
        · have := i1 hr; omega
        · obtain ⟨w', P, h1, h2, h3, h4, h5⟩ := i2 c hc
          exact ⟨w', P, h1, h2, h3, h4, by omega⟩

/-- The words before the place where the search for the next clause starts. -/
def passed : Option Nat → Nat
  | none => 0
  | some c => c + 3

theorem nextT_le {a : Arena} {S : List LC} (h : LRep a S) {it r : Option Nat} {t : Nat}
    (e : Long.nextT a it = .ok (t, r)) (hp : passed it ≤ a.buffer.length) :
    (r = none → t + passed it ≤ a.buffer.length + 1) ∧
    ∀ c, r = some c → t + passed it ≤ passed (some c) ∧ passed (some c) ≤ a.buffer.length := by
  obtain ⟨start, e, hs'⟩ := Long.nextT_scan e
  have hs : passed it ≤ start := by
    cases it with
    | none => exact Nat.zero_le _
    | some c => exact hs' c rfl
  obtain ⟨i1, i2⟩ := findLoopT_le _ e
  refine ⟨fun hr => ?_, fun c hc => ?_⟩
  · have := i1 hr; omega
  · obtain ⟨w, P, h1, h2, h3, h4, h5⟩ := i2 c hc
    obtain ⟨bs, hb⟩ := h
    have hlen : Arena.clauseLen 2 a (P - 2) = .ok (w &&& HEADER_MASK).toNat := by
      unfold Arena.clauseLen
      have : P - 2 + 2 = P := by have : Long.hl = 2 := rfl; omega
      rw [this, idx_ok h1, bind_ok, if_neg h2]
      rfl
    obtain ⟨b, hat, _⟩ := Arena.clauseLen_ok hb.rep hlen
    have hlt := hb.rep.starts _ _ hat
    have hP : P < a.buffer.length := (List.getElem?_eq_some_iff.1 h1).1
    have hl2 : Long.hl = 2 := rfl
    rw [hl2] at h3 h4
    rw [Nat.mod_eq_of_lt hlt] at h4
    show t + passed it ≤ c + 3 ∧ c + 3 ≤ _
    omega

theorem candidateLoopT_le : ∀ (fuel : Nat) {a a' : Arena} {pre post : List LC} {it : Option Nat}
    {cands r : List (Nat × Nat)} {g v : Nat}, LRep a (pre ++ post) →
    Long.next a it = .ok (LRep.firstRef post) → passed it ≤ a.buffer.length →
    candidateLoopT fuel a it cands = .ok ((g, v), a', r) →
    g + passed it ≤ a.buffer.length + 1 ∧ v + 1 ≤ g ∧ r.length ≤ cands.length + v
  | 0, _, _, _, _, _, _, _, _, _, _, _, _, e => by cases e
  | fuel + 1, a, a', pre, post, it, cands, r, g, v, h, hn, hp, e => by
    unfold candidateLoopT at e
    obtain ⟨⟨t, x⟩, e1, e⟩ := bind_eq_ok.1 e
    have hx : Long.next a it = .ok x := by rw [← Long.nextT_erase, e1]; rfl
    have ht : 1 ≤ t := by
      obtain ⟨start, e1, _⟩ := Long.nextT_scan e1
      unfold Arena.findLoopT at e1
      split at e1
      · cases e1; exact Nat.le_refl _
      · split at e1
        · split at e1
          · obtain ⟨_, _, e1⟩ := bind_eq_ok.1 e1
            obtain ⟨_, _, e1⟩ := bind_eq_ok.1 e1
            cases e1; exact Nat.le_add_left _ _
          · obtain ⟨_, _, e1⟩ := bind_eq_ok.1 e1
            cases e1; exact Nat.le_refl _
        · obtain ⟨_, _, e1⟩ := bind_eq_ok.1 e1
          cases e1; exact Nat.le_add_left _ _
    obtain ⟨n1, n2⟩ := nextT_le h e1 hp
    cases x with
    | none =>
      cases e
      exact ⟨n1 rfl, by omega, by omega⟩
    | some c =>
      rw [hx] at hn
      have hr : LRep.firstRef post = some c := (Except.ok.inj hn).symm
      obtain ⟨d, e0, rest, rfl, hd, hl, rfl⟩ := firstRef_split hr
      obtain ⟨n3, n4⟩ := n2 _ rfl
      obtain ⟨a1, e2, r1, b1⟩ := reduceVisit_spec h (e := e0) (by simp) hl
      simp only [e2, bind_ok] at e
      obtain ⟨⟨⟨g1, v1⟩, y⟩, e3, e⟩ := bind_eq_ok.1 e
      cases e
      have hmod : modS (pre ++ (d ++ e0 :: rest)) e0.ref visitE = (pre ++ d ++ [visitE e0]) ++ rest := by
        have hnd := h.nodup
        rw [← List.append_assoc] at hnd ⊢
        rw [modS_split hnd]
        simp
      rw [hmod] at r1
      have hn1 : Long.next a1 (some e0.ref) = .ok (LRep.firstRef rest) := by
        have := r1.next_some (pre := pre ++ d) (post := rest) (e := visitE e0) (by simp)
        rwa [visitE_ref] at this
      obtain ⟨i1, i2, i3⟩ := candidateLoopT_le fuel r1 hn1 (by omega) e3
      have hc : (candE e0).toList.length ≤ 1 := by cases candE e0 <;> simp
      rw [List.length_append] at i3
      simp only
      exact ⟨by omega, by omega, by omega⟩

/-- C80: counting changes nothing. -/
theorem C80_counted (ctx : Ctx) (search : Search) :
    Except.map Prod.snd (reduceT env ctx search) = reduce env ctx search := reduceT_erase env ctx search

/-- C80: the work of a reduction, in every state of every run.  Each step of the trail is visited twice; finding the
clauses looks at no word of the arena twice; each clause is visited at most once; and the deletions, with the literals
written to the proof, cost at most as much as they free. -/
theorem C80_linear (h : Solver.Reachable env F s) {w : ReduceWork} {ctx : Ctx} {search : Search}
    (e : reduceT env s.ctx s.search = .ok (w, ctx, search)) :
    w.steps = 2 * s.search.prop.trail.steps.length ∧
    w.words ≤ s.search.prop.long.buffer.length + 1 ∧ w.visits < w.words ∧ w.cands ≤ w.visits ∧
    w.deleted + s.search.prop.long.garbage ≤ search.prop.long.garbage ∧
    w.deleted ≤ s.search.prop.long.buffer.length := by
  obtain ⟨L, S, hi⟩ := h.inv
  obtain ⟨ctx', t, L', D, S', e2, hi', q, _⟩ := reduce_inv (env := env) hi
  have e3 : reduce env s.ctx s.search = .ok (ctx, search) := by rw [← reduceT_erase, e]; rfl
  cases e3.symm.trans e2
  have hb := hi'.prop.rep.needed
  have hreas : ∀ x ∈ s.search.prop.trail.steps, ∀ c, x.reason = .long c → ∃ e ∈ S, e.ref = c := by
    intro x hx c hc
    obtain ⟨i, hi2⟩ := List.mem_iff_getElem?.1 hx
    have := hi.prop.reasons i x hi2
    unfold ReasonOK at this
    rw [hc] at this
    obtain ⟨e, he, hr, _⟩ := this
    exact ⟨e, he, hr⟩
  obtain ⟨a1, p1, r1, b1⟩ := protectLoop_spec true s.search.prop.trail.steps hi.prop.rep hreas
  unfold reduceT at e
  simp only at e
  obtain ⟨⟨t1, a1'⟩, e1, e⟩ := bind_eq_ok.1 e
  obtain ⟨⟨⟨g, v⟩, a2, cands⟩, e2', e⟩ := bind_eq_ok.1 e
  obtain ⟨⟨t3, ctx3, a3⟩, e3', e⟩ := bind_eq_ok.1 e
  obtain ⟨⟨t4, a4⟩, e4, e⟩ := bind_eq_ok.1 e
  have ea : protectLoop true s.search.prop.trail.steps s.search.prop.long = .ok a1' := by
    rw [← protectLoopT_erase, e1]; rfl
  cases p1.symm.trans ea
  have g1 := protectLoop_garbage _ _ _ ea
  have d2 : candidateLoop (a1.buffer.length + 1) a1 none [] = .ok (a2, cands) := by
    rw [← candidateLoopT_erase, e2']; rfl
  have d4 : protectLoop false s.search.prop.trail.steps a3 = .ok a4 := by
    rw [← protectLoopT_erase, e4]; rfl
  have g2 := candidateLoop_garbage _ _ d2
  have g4 := protectLoop_garbage _ _ _ d4
  have g3 := deleteLoopT_le _ e3'
  obtain ⟨c1, c2, c3⟩ := candidateLoopT_le _ (pre := []) (by simpa using r1) r1.next_none (Nat.zero_le _) e2'
  have k1 := protectLoopT_eq _ _ e1
  have k4 := protectLoopT_eq _ _ e4
  cases e
  simp only
  simp only at g2 g3 hb
  have l2 := candidateLoop_size _ d2
  have l3 := deleteLoop_size _ (by rw [← deleteLoopT_erase, e3']; rfl :
    deleteLoop (higher env cands) _ a2 = .ok (_, a3))
  have l4 := protectLoop_size _ d4
  exact ⟨by omega, by omega, by omega, by simpa using c3, by omega, by omega⟩

end

/-- The hypotheses of C80 are met by a run on the pigeon hole formula for five pigeons: the arena has 145 words, 25 of
them garbage; a reduction looks at 20 words, visits 16 clauses and deletes one of 4 candidates, with 5 literals, making 33
words of garbage. -/
theorem C80_example : ∃ s w ctx search, Solver.Reachable Example.envReduce (Example.cnf (Example.php 5 4)) s ∧
    reduceT Example.envReduce s.ctx s.search = .ok (w, ctx, search) ∧ w = ⟨18, 20, 16, 4, 6⟩ ∧
    s.search.prop.trail.steps.length = 9 ∧ s.search.prop.long.buffer.length = 145 ∧
    s.search.prop.long.garbage = 25 ∧ search.prop.long.garbage = 33 := by
  have h : (do
      let (s, _) ← Example.runReduce (Example.php 5 4) 36
      let (w, _, s') ← reduceT Example.envReduce s.ctx s.search
      pure (w, s.search.prop.trail.steps.length, s.search.prop.long.buffer.length, s.search.prop.long.garbage,
        s'.prop.long.garbage) : M (ReduceWork × Nat × Nat × Nat × Nat)) =
      .ok (⟨18, 20, 16, 4, 6⟩, 9, 145, 25, 33) := by
    decide +kernel
  obtain ⟨⟨s, r⟩, h1, h⟩ := bind_eq_ok.1 h
  obtain ⟨⟨w, ctx, s'⟩, h2, h⟩ := bind_eq_ok.1 h
  have h := Except.ok.inj h
  simp only [Prod.mk.injEq] at h
  obtain ⟨a1, a2, a3, a4, a5⟩ := h
  exact ⟨s, w, ctx, s', Example.runReduce_reachable (by decide +kernel) h1, h2, a1, a2, a3, a4, a5⟩

end Starlit
