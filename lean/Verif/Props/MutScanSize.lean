import Verif.MutScanPtr
import Verif.Props.MutScan

/-!
# C101: scanning vectors of items of any size
-/

namespace Starlit.PtrScan
variable {T : Type}

/-- The client of C32: for every visited item it decides to put back an item or to remove it, and it stops after
`ds.length` items. -/
def visit (size : Nat) (s : PtrScan T) : List (T → Option T) → M (PtrScan T × List T)
  | [] => pure (s, [])
  | d :: ds => do
    match ← s.next size with
    | none => pure (s, [])
    | some (s, item) =>
      let s ← match d item with
        | some item' => s.keep size item'
        | none => pure s
      let (s, seen) ← visit size s ds
      pure (s, item :: seen)

/-- Scan a vector of items of the given size at the given address: visit some items, then drop the scan. -/
def scan (size base : Nat) (items : List T) (spare : Nat) (ds : List (T → Option T)) : M (List T × RawVec T) := do
  let (s, seen) ← visit size (new size base (RawVec.ofList items spare)) ds
  let vec ← s.drop size
  pure (seen, vec)

/-- The scan with addresses that belongs to one with offsets. -/
def lift (size base : Nat) (s : MutScan T) : PtrScan T :=
  ⟨s.vec, base, base + size * s.endp, base + size * s.read, base + size * s.write⟩

section
variable {size base : Nat}

theorem cell_lift (h : 0 < size) (s : MutScan T) (i : Nat) :
    (lift size base s).cell size (base + size * i) = .ok i := by
  unfold cell lift
  simp only
  rw [if_pos ⟨Nat.le_add_right _ _, by rw [Nat.add_sub_cancel_left]; exact Nat.dvd_mul_right _ _⟩,
    Nat.add_sub_cancel_left, Nat.mul_div_cancel_left _ h]
  rfl

theorem next_lift (h : 0 < size) (s : MutScan T) :
    (lift size base s).next size = s.next.map (Option.map fun x => (lift size base x.1, x.2)) := by
  have hc := cell_lift (base := base) h s s.read
  unfold next MutScan.next
  have hiff : (lift size base s).read = (lift size base s).endp ↔ s.read = s.endp := by
    show base + size * s.read = base + size * s.endp ↔ _
    constructor
    · intro e
      exact Nat.eq_of_mul_eq_mul_left h (Nat.add_left_cancel e)
    · intro e; rw [e]
  by_cases hr : s.read = s.endp
  · rw [if_pos (hiff.2 hr), if_pos hr]; rfl
  · rw [if_neg (fun e => hr (hiff.1 e)), if_neg hr]
    have : (lift size base s).read = base + size * s.read := rfl
    rw [this, hc, bind_ok]
    show (match s.vec.mem[s.read]? with | some (some item) => _ | _ => _) = _
    cases e : s.vec.mem[s.read]? with
    | none => rfl
    | some x =>
      cases x with
      | none => rfl
      | some item =>
        simp only [pure_eq, Except.map, Option.map_some, lift, Nat.mul_add, Nat.mul_one, Nat.add_assoc]

theorem keep_lift (h : 0 < size) (s : MutScan T) (item : T) :
    (lift size base s).keep size item = (s.keep item).map (lift size base) := by
  have hc := cell_lift (base := base) h s s.write
  unfold keep MutScan.keep
  have : (lift size base s).write = base + size * s.write := rfl
  rw [this, hc, bind_ok]
  show (match s.vec.mem[s.write]? with | some none => _ | _ => _) = _
  cases e : s.vec.mem[s.write]? with
  | none => rfl
  | some x =>
    cases x with
    | some item => rfl
    | none => simp only [pure_eq, Except.map, lift, Nat.mul_add, Nat.mul_one, Nat.add_assoc]

theorem visit_lift (h : 0 < size) (ds : List (T → Option T)) (s : MutScan T) :
    (lift size base s).visit size ds = (MutScan.visit s ds).map fun x => (lift size base x.1, x.2) := by
  induction ds generalizing s with
  | nil => rfl
  | cons d ds ih =>
    unfold visit MutScan.visit
    rw [next_lift h]
    cases s.next with
    | error => rfl
    | ok o =>
      cases o with
      | none => rfl
      | some x =>
        obtain ⟨s1, item⟩ := x
        simp only [Except.map, Option.map_some, bind_ok]
        cases d item with
        | none =>
          simp only [pure_eq, bind_ok, MutScan.remove]
          rw [ih]
          cases MutScan.visit s1 ds <;> rfl
        | some item' =>
          simp only
          rw [keep_lift h]
          cases s1.keep item' with
          | error => rfl
          | ok s2 =>
            simp only [Except.map, bind_ok]
            rw [ih]
            cases MutScan.visit s2 ds <;> rfl

theorem offsetFrom_mul (h : 0 < size) {a b : Nat} (hab : b ≤ a) :
    offsetFrom size (base + size * a) (base + size * b) = .ok (a - b) := by
  unfold offsetFrom
  have e : base + size * a - (base + size * b) = size * (a - b) := by
    rw [Nat.mul_sub, Nat.add_sub_add_left]
  rw [if_neg (by omega), e, if_pos ⟨Nat.add_le_add_left (Nat.mul_le_mul_left _ hab) _, Nat.dvd_mul_right _ _⟩,
    Nat.mul_div_cancel_left _ h]
  rfl

theorem drop_lift (h : 0 < size) {s : MutScan T} (hr : s.read ≤ s.endp) :
    (lift size base s).drop size = s.drop := by
  unfold drop MutScan.drop
  have e1 : (lift size base s).endp = base + size * s.endp := rfl
  have e2 : (lift size base s).read = base + size * s.read := rfl
  have e3 : (lift size base s).write = base + size * s.write := rfl
  have e4 : (lift size base s).base = base := rfl
  rw [e1, e2, e3, e4, offsetFrom_mul h hr, bind_ok, cell_lift h, bind_ok, cell_lift h, bind_ok]
  simp only []
  have e5 : (lift size base s).vec = s.vec := rfl
  rw [e5]
  cases MutScan.copy s.vec.mem s.read s.write (s.endp - s.read) with
  | error => rfl
  | ok mem =>
    rw [bind_ok, bind_ok]
    have := offsetFrom_mul (base := base) h (a := s.write + (s.endp - s.read)) (b := 0) (Nat.zero_le _)
    rw [Nat.mul_add, Nat.mul_zero, Nat.add_zero, Nat.sub_zero, ← Nat.add_assoc,
      Nat.mul_comm size (s.endp - s.read)] at this
    rw [this, bind_ok]

end

/-- C101: for items of any size but zero, at any address, a scan with addresses does what C32 says: no cell is read
that holds no item, none that holds one is overwritten, the items are seen in order, and the vector is left with the
kept items and those that were not visited. -/
theorem C101_sized_partial {size : Nat} (h : 0 < size) (base : Nat) (items : List T) (spare : Nat)
    (ds : List (T → Option T)) :
    scan size base items spare ds = .ok (items.take ds.length,
      RawVec.ofList (MutScan.kept items ds) (items.length + spare - (MutScan.kept items ds).length)) := by
  rw [← MutScan.C32_mut_scan]
  have h0 : MutScan.Layout (MutScan.new (RawVec.ofList items spare)) [] items spare :=
    ⟨by simp [MutScan.new, RawVec.ofList], rfl, rfl, Nat.le_refl _, by simp [MutScan.new, RawVec.ofList]⟩
  obtain ⟨s, done, e, hL, hk⟩ := MutScan.layout_visit ds _ _ _ _ h0
  have hn : new size base (RawVec.ofList items spare) = lift size base (MutScan.new (RawVec.ofList items spare)) := by
    simp [new, lift, MutScan.new]
  unfold scan MutScan.scan
  rw [hn, visit_lift h, e]
  simp only [Except.map, bind_ok]
  rw [drop_lift h (by have := hL.endp; omega)]

/-- C101 is false for items of size zero: the read pointer starts at the end, so that no item is visited, and
dropping the scan panics (even that of an empty vector), which leaves a vector of length zero. -/
theorem C101_zero (base : Nat) (items : List T) (spare : Nat) (ds : List (T → Option T)) :
    scan 0 base items spare ds = .error .panic ∧
    ∃ s, visit 0 (new 0 base (RawVec.ofList items spare)) ds = .ok (s, []) ∧ s.vec.len = 0 := by
  have hv : visit 0 (new 0 base (RawVec.ofList items spare)) ds = .ok (new 0 base (RawVec.ofList items spare), []) := by
    cases ds with
    | nil => rfl
    | cons d ds =>
      have : (new 0 base (RawVec.ofList items spare)).next 0 = .ok none := by
        unfold next new
        simp only [Nat.zero_mul, Nat.add_zero, if_true]; rfl
      unfold visit
      rw [this]; rfl
  refine ⟨?_, _, hv, rfl⟩
  unfold scan
  rw [hv]; rfl

/-- C101: the full statement, for all sizes, does not hold. -/
theorem C101_false : ¬ ∀ (size base : Nat) (items : List Unit) (spare : Nat) (ds : List (Unit → Option Unit)),
    scan size base items spare ds = .ok (items.take ds.length,
      RawVec.ofList (MutScan.kept items ds) (items.length + spare - (MutScan.kept items ds).length)) := by
  intro h
  have := (h 0 4096 [(), ()] 0 [some]).symm.trans (C101_zero 4096 [(), ()] 0 [some]).1
  exact absurd this (by simp)

/-- A case for C101: five items of eight bytes, as the watches of the solver; the first is changed, the second removed,
the third kept, and the scan is dropped before the others are visited. -/
theorem C101_example : scan 8 4096 [1, 2, 3, 4, 5] 2 [fun x => some (x + 10), fun _ => none, some] =
    .ok ([1, 2, 3], ⟨[some 11, some 3, some 4, some 5, none, none, none], 4⟩) := by decide +kernel

end Starlit.PtrScan
