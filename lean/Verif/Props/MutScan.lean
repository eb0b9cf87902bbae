import Verif.MutScan

/-!
# C32: scanning keeps exactly the kept items
-/

namespace Starlit.MutScan
variable {T : Type}

/-- A client of the scan: for every visited item it decides (after looking at it) to put back an
item or to remove it, and it stops after `ds.length` items.  Returns the final scan and the items
it saw. -/
def visit (s : MutScan T) : List (T → Option T) → M (MutScan T × List T)
  | [] => pure (s, [])
  | d :: ds => do
    match ← s.next with
    | none => pure (s, [])
    | some (s, item) =>
      let s ← match d item with
        | some item' => s.keep item'
        | none => pure (s.remove item).1
      let (s, seen) ← visit s ds
      pure (s, item :: seen)

/-- Scan a vector: visit some items, then drop the scan. -/
def scan (items : List T) (spare : Nat) (ds : List (T → Option T)) : M (List T × RawVec T) := do
  let (s, seen) ← visit (new (RawVec.ofList items spare)) ds
  let vec ← s.drop
  pure (seen, vec)

/-- Specification: what is left of `items` when the decisions `ds` are applied to its beginning. -/
def kept : List T → List (T → Option T) → List T
  | x :: xs, d :: ds => (d x).toList ++ kept xs ds
  | xs, [] => xs
  | [], _ => []

/-- The layout of the buffer during a scan. -/
structure Layout (s : MutScan T) (done rest : List T) (spare : Nat) : Prop where
  mem : s.vec.mem = done.map some ++ List.replicate (s.read - s.write) none ++ rest.map some ++
    List.replicate spare none
  len : s.vec.len = 0
  write : s.write = done.length
  le : s.write ≤ s.read
  endp : s.endp = s.read + rest.length

theorem contents_map (l : List T) : RawVec.contents (l.map some) = .ok l := by
  induction l with
  | nil => rfl
  | cons x l ih => simp [RawVec.contents, ih]

theorem layout_visit (ds : List (T → Option T)) (s : MutScan T) (done rest : List T) (spare : Nat)
    (h : Layout s done rest spare) :
    ∃ s' done', visit s ds = .ok (s', rest.take ds.length) ∧
      Layout s' done' (rest.drop ds.length) spare ∧
      done' ++ rest.drop ds.length = done ++ kept rest ds := by
  induction ds generalizing s done rest with
  | nil => exact ⟨s, done, rfl, by simpa using h, by cases rest <;> simp [kept]⟩
  | cons d ds ih =>
    cases rest with
    | nil =>
      refine ⟨s, done, ?_, by simpa using h, by simp [kept]⟩
      have : s.read = s.endp := by have := h.endp; simp at this; omega
      simp [visit, next, this]; rfl
    | cons x rest =>
      obtain ⟨hm, hl, hw, hle, he⟩ := h
      have hne : s.read ≠ s.endp := by simp at he; omega
      have hlen : (done.map some ++ List.replicate (s.read - s.write) (none : Option T)).length
          = s.read := by simp; omega
      have hg : s.vec.mem[s.read]? = some (some x) := by
        rw [hm, List.append_assoc, List.getElem?_append_right (by omega), hlen]; simp
      have hset : s.vec.mem.set s.read none = done.map some ++
          List.replicate (s.read + 1 - s.write) none ++ rest.map some ++
          List.replicate spare none := by
        rw [hm, List.append_assoc, List.set_append_right (h := by omega), hlen,
          show s.read + 1 - s.write = (s.read - s.write) + 1 by omega, List.replicate_succ']
        simp
      set_option linter.unusedSimpArgs false in
      cases hd : d x with
      | none =>
        obtain ⟨s', done', e, hL, hk⟩ := ih
          { s with vec := { s.vec with mem := s.vec.mem.set s.read none }, read := s.read + 1 }
          done rest ⟨hset, hl, hw, by show _ ≤ _; simp only []; omega, by simp at he ⊢; omega⟩
        refine ⟨s', done', ?_, by simpa using hL, by simpa [kept, hd] using hk⟩
        simp [visit, next, hne, hg, hd, remove, e, pure_eq]
      | some y =>
        have hw' : (s.vec.mem.set s.read none)[s.write]? = some none := by
          rw [hset, List.append_assoc, List.append_assoc,
            List.getElem?_append_right (by simp; omega)]
          rw [List.getElem?_append_left (by simp; omega), List.getElem?_replicate,
            if_pos (by simp; omega)]
        have hset' : (s.vec.mem.set s.read none).set s.write (some y) =
            (done ++ [y]).map some ++ List.replicate (s.read + 1 - (s.write + 1)) none ++
            rest.map some ++ List.replicate spare none := by
          rw [hset, List.append_assoc, List.append_assoc,
            List.set_append_right (h := by simp; omega),
            show s.read + 1 - s.write = (s.read - s.write) + 1 by omega, List.replicate_succ]
          simp [hw]
        obtain ⟨s', done', e, hL, hk⟩ := ih
          { s with vec := { s.vec with mem := (s.vec.mem.set s.read none).set s.write (some y) },
                   read := s.read + 1, write := s.write + 1 }
          (done ++ [y]) rest ⟨hset', hl, by simp [hw], by show _ ≤ _; simp only []; omega, by simp at he ⊢; omega⟩
        refine ⟨s', done', ?_, by simpa using hL, by simpa [kept, hd] using hk⟩
        simp [visit, next, hne, hg, hd, keep, hw', e, pure_eq]

theorem visit_endp {ds : List (T → Option T)} : ∀ {s s' : MutScan T} {seen : List T},
    visit s ds = .ok (s', seen) → s'.endp = s.endp := by
  induction ds with
  | nil => intro s s' seen e; cases e; rfl
  | cons d ds ih =>
    intro s s' seen e
    unfold visit at e
    obtain ⟨x, e1, e⟩ := bind_eq_ok.1 e
    unfold next at e1
    split at e1
    · cases e1; cases e; rfl
    split at e1
    · cases e1
      simp only at e
      split at e
      · obtain ⟨s1, e1, e⟩ := bind_eq_ok.1 e
        obtain ⟨⟨s2, seen'⟩, e2, e⟩ := bind_eq_ok.1 e
        cases e
        refine (ih e2).trans ?_
        unfold keep at e1
        split at e1
        · cases e1; rfl
        · cases e1
      · obtain ⟨s1, e1, e⟩ := bind_eq_ok.1 e
        obtain ⟨⟨s2, seen'⟩, e2, e⟩ := bind_eq_ok.1 e
        cases e
        cases e1
        exact (ih e2).trans rfl
    · cases e1

theorem layout_drop (s : MutScan T) (done rest : List T) (spare : Nat)
    (h : Layout s done rest spare) :
    s.drop = .ok (RawVec.ofList (done ++ rest) (s.read - s.write + spare)) := by
  obtain ⟨hm, hl, hw, hle, he⟩ := h
  have hlen : (done.map some ++ List.replicate (s.read - s.write) (none : Option T)).length
      = s.read := by simp; omega
  have hn : s.endp - s.read = rest.length := by omega
  have htot : s.vec.mem.length = s.read + rest.length + spare := by
    rw [hm]; simp; omega
  have hitems : (s.vec.mem.drop s.read).take rest.length = rest.map some := by
    rw [hm, List.append_assoc, List.drop_append_of_le_length (by omega),
      List.drop_of_length_le (by omega)]
    simp
  have hmoved : s.vec.mem.take s.read ++ List.replicate rest.length none ++
      s.vec.mem.drop (s.read + rest.length) = done.map some ++
        List.replicate ((s.read - s.write) + rest.length + spare) none := by
    have e1 : s.vec.mem.take s.read =
        done.map some ++ List.replicate (s.read - s.write) none := by
      rw [hm, List.append_assoc, List.take_append_of_le_length (by omega),
        List.take_of_length_le (by omega)]
    have e2 : s.vec.mem.drop (s.read + rest.length) = List.replicate spare none := by
      rw [hm]
      rw [List.drop_append_of_le_length (by simp; omega), List.drop_of_length_le (by simp; omega)]
      simp
    rw [e1, e2]
    simp [List.append_assoc, Nat.add_assoc]
  have hall : ((List.drop s.write (done.map some ++
        List.replicate ((s.read - s.write) + rest.length + spare) (none : Option T))).take
          rest.length).all Option.isNone = true := by
    rw [hw, List.drop_append_of_le_length (by simp), List.drop_of_length_le (by simp)]
    simp
  have hfin : (done.map some ++
      List.replicate ((s.read - s.write) + rest.length + spare) (none : Option T)).take s.write =
      done.map some := by
    rw [hw, List.take_append_of_le_length (by simp), List.take_of_length_le (by simp)]
  have hend : (done.map some ++
      List.replicate ((s.read - s.write) + rest.length + spare) (none : Option T)).drop
        (s.write + rest.length) = List.replicate (s.read - s.write + spare) none := by
    rw [hw, List.drop_append, List.drop_of_length_le (by simp), List.drop_replicate, List.nil_append]
    congr 1
    simp only [List.length_map]
    omega
  unfold drop copy
  simp only []
  rw [hn, if_pos (by omega), hitems, hmoved, if_pos ⟨by simp, hall⟩, hfin, hend, hw]
  simp only [pure_eq, bind_ok, RawVec.ofList, List.map_append, List.length_append]

/-- **C32.** For every vector (with any spare capacity), every sequence of keep / replace / remove
decisions and every point at which the scan is dropped: no uninitialised or moved-out cell is read
and no live one is overwritten; the items seen are the first `ds.length` items, each once and
unmodified; the vector is left with the kept items followed by the items that were not visited; its
buffer has the same size and no further initialised cell, so that no item is leaked. -/
theorem C32_mut_scan (items : List T) (spare : Nat) (ds : List (T → Option T)) :
    scan items spare ds = .ok (items.take ds.length,
      RawVec.ofList (kept items ds) (items.length + spare - (kept items ds).length)) := by
  have h0 : Layout (new (RawVec.ofList items spare)) [] items spare :=
    ⟨by simp [new, RawVec.ofList], rfl, rfl, Nat.le_refl _, by simp [new, RawVec.ofList]⟩
  obtain ⟨s, done, e, hL, hk⟩ := layout_visit ds _ _ _ _ h0
  have hlen : s.read - s.write + spare = items.length + spare - (kept items ds).length := by
    have h1 := congrArg List.length hk
    have h2 := hL.endp
    have h3 := visit_endp e
    have h4 := hL.write
    have h5 := hL.le
    simp only [List.length_append, List.length_nil, Nat.zero_add] at h1
    simp only [new, RawVec.ofList] at h3
    omega
  unfold scan
  rw [e]
  simp only [bind_ok]
  rw [layout_drop s _ _ _ hL, hk, hlen]
  rfl

/-- The vector after a scan holds the kept items and those that were not visited. -/
theorem C32_items (items : List T) (spare : Nat) (ds : List (T → Option T)) :
    ∃ vec, scan items spare ds = .ok (items.take ds.length, vec) ∧ vec.toList = .ok (kept items ds) := by
  refine ⟨_, C32_mut_scan items spare ds, ?_⟩
  unfold RawVec.toList
  rw [if_pos (by simp [RawVec.ofList])]
  unfold RawVec.ofList
  simp only
  rw [List.take_append_of_le_length (by simp), List.take_of_length_le (by simp), contents_map]

/-- **C32**, leaking: if the scan is leaked at any point instead of dropped, the vector is empty (so
no item can be used twice). -/
theorem C32_leak (items : List T) (spare : Nat) (ds : List (T → Option T)) :
    ∃ s, visit (new (RawVec.ofList items spare)) ds = .ok (s, items.take ds.length) ∧
      s.vec.toList = .ok [] := by
  have h0 : Layout (new (RawVec.ofList items spare)) [] items spare :=
    ⟨by simp [new, RawVec.ofList], rfl, rfl, Nat.le_refl _, by simp [new, RawVec.ofList]⟩
  obtain ⟨s, done, e, hL, -⟩ := layout_visit ds _ _ _ _ h0
  refine ⟨s, e, ?_⟩
  simp [RawVec.toList, hL.len, RawVec.contents]; rfl

/-- A scan that modifies, removes and keeps items and is dropped early. -/
example : scan [1, 2, 3, 4, 5] 2 [fun x => some (x + 10), fun _ => none, some] =
    .ok ([1, 2, 3], ⟨[some 11, some 3, some 4, some 5, none, none, none], 4⟩) := by decide

/-- `kept` is a filtered map of the visited prefix plus the untouched suffix. -/
example (items : List T) (ds : List (T → Option T)) :
    kept items ds = (items.zip ds).filterMap (fun p => p.2 p.1) ++ items.drop ds.length := by
  induction items generalizing ds with
  | nil => cases ds <;> simp [kept]
  | cons x xs ih =>
    cases ds with
    | nil => simp [kept]
    | cons d ds =>
      simp only [kept, ih, List.zip_cons_cons, List.filterMap_cons, List.length_cons,
        List.drop_succ_cons]
      cases d x <;> simp

end Starlit.MutScan
