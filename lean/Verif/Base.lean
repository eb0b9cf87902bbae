/-!
# Error monad and program logic

The model is written in `M := Except Err`.  A Rust panic (failed `assert!`, out-of-bounds index,
`unwrap` of `None`) is `Err.panic`; an out-of-bounds *unchecked* access is `Err.ub`.
-/

namespace Starlit

/-- The ways a modelled Rust function can fail to return normally.

* `panic`: a Rust panic (`assert!`, slice index out of bounds, `unwrap` on `None`).
* `ub`: an unchecked access (`get_unchecked`, raw pointer) outside of the buffer.
* `arenaFull`: the `unwrap` in `/repo/starlit/src/prop.rs:123` (`TODO handle full clause arena`).
* `tooBig`: the state left the range covered by the model (arena of `2^32` or more words at a
  garbage collection, see `Verif/Solver/Gc.lean`).
* `fuel`: the fuel given to a modelled loop was too small.
* `debug`: a failed `debug_assert!`; the model has these checks although they are absent in a release
  build, so that a theorem that excludes this error is about both builds. -/
inductive Err where
  | panic | ub | arenaFull | tooBig | fuel | debug
deriving DecidableEq, Repr

/-- Computations that can fail. -/
abbrev M := Except Err

instance {α : Type} [DecidableEq α] : DecidableEq (Except Err α)
  | .ok a, .ok b => if h : a = b then isTrue (by rw [h]) else isFalse (by simpa using h)
  | .error a, .error b => if h : a = b then isTrue (by rw [h]) else isFalse (by simpa using h)
  | .ok _, .error _ => isFalse (by simp)
  | .error _, .ok _ => isFalse (by simp)

/-- Weakest precondition: `m` returns a value satisfying `Q`, or ends because the arena is full
(or too big for the model).  Panics, undefined behaviour and running out of fuel are excluded. -/
def Wp {α : Type} (m : M α) (Q : α → Prop) : Prop :=
  match m with
  | .ok a => Q a
  | .error .arenaFull => True
  | .error .tooBig => True
  | .error _ => False

section
variable {α β : Type}

@[simp] theorem wp_ok (a : α) (Q : α → Prop) : Wp (Except.ok a : M α) Q ↔ Q a := Iff.rfl
@[simp] theorem wp_pure (a : α) (Q : α → Prop) : Wp (pure a : M α) Q ↔ Q a := Iff.rfl
@[simp] theorem wp_panic (Q : α → Prop) : Wp (throw .panic : M α) Q ↔ False := Iff.rfl
@[simp] theorem wp_ub (Q : α → Prop) : Wp (throw .ub : M α) Q ↔ False := Iff.rfl
@[simp] theorem wp_fuel (Q : α → Prop) : Wp (throw .fuel : M α) Q ↔ False := Iff.rfl
@[simp] theorem wp_debug (Q : α → Prop) : Wp (throw .debug : M α) Q ↔ False := Iff.rfl
@[simp] theorem wp_arenaFull (Q : α → Prop) : Wp (throw .arenaFull : M α) Q ↔ True := Iff.rfl
@[simp] theorem wp_tooBig (Q : α → Prop) : Wp (throw .tooBig : M α) Q ↔ True := Iff.rfl

@[simp] theorem wp_bind (m : M α) (f : α → M β) (Q : β → Prop) :
    Wp (m >>= f) Q ↔ Wp m (fun a => Wp (f a) Q) := by
  cases m with
  | ok a => rfl
  | error e => cases e <;> rfl

@[simp] theorem wp_map (m : M α) (f : α → β) (Q : β → Prop) :
    Wp (f <$> m) Q ↔ Wp m (fun a => Q (f a)) := by
  cases m with
  | ok a => rfl
  | error e => cases e <;> rfl

theorem Wp.mono {m : M α} {P Q : α → Prop} (h : Wp m P) (hi : ∀ a, P a → Q a) : Wp m Q := by
  cases m with
  | ok a => exact hi a h
  | error e => cases e <;> first | exact h | trivial

theorem Wp.and {m : M α} {P Q : α → Prop} (h : Wp m P) (h' : Wp m Q) :
    Wp m (fun a => P a ∧ Q a) := by
  cases m with
  | ok a => exact ⟨h, h'⟩
  | error e => cases e <;> first | exact h | trivial

/-- A `Wp` fact about a computation that did return. -/
theorem Wp.ok_elim {m : M α} {Q : α → Prop} (h : Wp m Q) {a : α} (e : m = .ok a) : Q a := by
  subst e; exact h

theorem wp_ite {c : Prop} [Decidable c] (a b : M α) (Q : α → Prop) :
    Wp (if c then a else b) Q ↔ (c → Wp a Q) ∧ (¬c → Wp b Q) := by
  by_cases h : c <;> simp [h]

theorem wp_of_eq {m : M α} {a : α} {Q : α → Prop} (e : m = .ok a) (h : Q a) : Wp m Q := by
  subst e; exact h

@[simp] theorem bind_ok (a : α) (f : α → M β) : ((Except.ok a : M α) >>= f) = f a := rfl
@[simp] theorem bind_pure_ok (a : α) (f : α → M β) : ((pure a : M α) >>= f) = f a := rfl
@[simp] theorem bind_error (e : Err) (f : α → M β) :
    ((Except.error e : M α) >>= f) = .error e := rfl
@[simp] theorem bind_throw (e : Err) (f : α → M β) :
    ((throw e : M α) >>= f) = .error e := rfl

@[simp] theorem map_ok (a : α) (f : α → β) : (f <$> (Except.ok a : M α)) = .ok (f a) := rfl
@[simp] theorem map_error (e : Err) (f : α → β) :
    (f <$> (Except.error e : M α)) = .error e := rfl
theorem throw_eq (e : Err) : (throw e : M α) = .error e := rfl
theorem pure_eq (a : α) : (pure a : M α) = .ok a := rfl

@[simp] theorem wp_error_panic (Q : α → Prop) : Wp (.error .panic : M α) Q ↔ False := Iff.rfl
@[simp] theorem wp_error_ub (Q : α → Prop) : Wp (.error .ub : M α) Q ↔ False := Iff.rfl
@[simp] theorem wp_error_fuel (Q : α → Prop) : Wp (.error .fuel : M α) Q ↔ False := Iff.rfl
@[simp] theorem wp_error_debug (Q : α → Prop) : Wp (.error .debug : M α) Q ↔ False := Iff.rfl
@[simp] theorem wp_error_arenaFull (Q : α → Prop) : Wp (.error .arenaFull : M α) Q ↔ True := Iff.rfl
@[simp] theorem wp_error_tooBig (Q : α → Prop) : Wp (.error .tooBig : M α) Q ↔ True := Iff.rfl

/-- Inversion of a successful bind. -/
theorem bind_eq_ok {m : M α} {f : α → M β} {b : β} :
    (m >>= f) = .ok b ↔ ∃ a, m = .ok a ∧ f a = .ok b := by
  cases m with
  | ok a => simp
  | error e => simp

end

/-- `v[i]` on a `Vec`/slice/`VecMap`: panics when out of bounds.
Models `Index::index` of slices, and `VecMap::index`
(`/repo/starlit/src/util/vec_map.rs:168-175`). -/
def idx {α : Type} (v : List α) (i : Nat) : M α :=
  match v[i]? with
  | some x => pure x
  | none => throw .panic

/-- `v[i] = x` on a `Vec`/slice/`VecMap`: panics when out of bounds.
Models `IndexMut::index_mut` of slices and `VecMap`
(`/repo/starlit/src/util/vec_map.rs:177-182`). -/
def upd {α : Type} (v : List α) (i : Nat) (x : α) : M (List α) :=
  if i < v.length then pure (v.set i x) else throw .panic

/-- `assert!(c)`. -/
def assertM (c : Bool) : M Unit := if c then pure () else throw .panic

/-- `debug_assert!`. -/
def debugM (c : Bool) : M Unit := if c then pure () else throw .debug

section
variable {α : Type}

@[simp] theorem wp_idx (v : List α) (i : Nat) (Q : α → Prop) :
    Wp (idx v i) Q ↔ ∃ x, v[i]? = some x ∧ Q x := by
  unfold idx
  cases h : v[i]? <;> simp

@[simp] theorem wp_upd (v : List α) (i : Nat) (x : α) (Q : List α → Prop) :
    Wp (upd v i x) Q ↔ i < v.length ∧ Q (v.set i x) := by
  unfold upd
  by_cases h : i < v.length <;> simp [h]

@[simp] theorem wp_assertM (c : Bool) (Q : Unit → Prop) :
    Wp (assertM c) Q ↔ c = true ∧ Q () := by
  unfold assertM
  cases c <;> simp

@[simp] theorem wp_debugM (c : Bool) (Q : Unit → Prop) :
    Wp (debugM c) Q ↔ c = true ∧ Q () := by
  unfold debugM
  cases c <;> simp

theorem debugM_ok {c : Bool} (h : c = true) : debugM c = .ok () := by rw [h]; rfl

theorem debugM_eq_ok {c : Bool} {u : Unit} : debugM c = .ok u ↔ c = true := by
  unfold debugM
  cases c <;> simp [throw_eq, pure_eq]

theorem idx_ok {v : List α} {i : Nat} {x : α} (h : v[i]? = some x) : idx v i = .ok x := by
  simp [idx, h]; rfl

theorem idx_eq_ok {v : List α} {i : Nat} {x : α} : idx v i = .ok x ↔ v[i]? = some x := by
  unfold idx
  cases h : v[i]? <;> simp [pure, Except.pure, throw, throwThe, MonadExceptOf.throw]

theorem upd_ok {v : List α} {i : Nat} {x : α} (h : i < v.length) : upd v i x = .ok (v.set i x) := by
  simp [upd, h]; rfl

theorem upd_eq_ok {v w : List α} {i : Nat} {x : α} :
    upd v i x = .ok w ↔ i < v.length ∧ w = v.set i x := by
  unfold upd
  by_cases h : i < v.length
  · simp [h, pure, Except.pure, eq_comm]
  · simp [h, throw, throwThe, MonadExceptOf.throw]

end

end Starlit
