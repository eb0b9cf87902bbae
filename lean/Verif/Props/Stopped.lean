import Verif.Props.FullOutput
import Verif.Props.IncrementalProof

/-!
# C110: a run that is stopped leaves nothing wrong behind

A run can be stopped at any moment: by a time limit, by a signal, or by a panic of `println!` on a closed pipe
(`/repo/starlit/src/log.rs`). What is then in the proof file and on standard output is a first part of what
would have been there at the end.
-/

namespace Starlit

/-! ## Parsers of proof files on first parts -/

open BinaryFormat in
theorem parseVarint_local : ∀ {p : List Byte} {n : Nat} {r : List Byte} (q : List Byte),
    parseVarint p = some (n, r) → parseVarint (p ++ q) = some (n, r ++ q)
  | [], _, _, _, h => by simp [parseVarint] at h
  | b :: p, n, r, q, h => by
    unfold parseVarint at h
    rw [List.cons_append]
    unfold parseVarint
    split
    · rename_i hb
      rw [if_pos hb] at h
      simp only [Option.some.injEq, Prod.mk.injEq] at h
      simp [h]
    · rename_i hb
      rw [if_neg hb, Option.map_eq_some_iff] at h
      obtain ⟨⟨m, r'⟩, h1, h2⟩ := h
      simp only [Prod.mk.injEq] at h2
      rw [parseVarint_local q h1]
      simp [h2]

open BinaryFormat in
theorem binary_parseLits_local : ∀ {k k' : Nat} {p : List Byte} {ls : List Int} {r : List Byte} (q : List Byte),
    k ≤ k' → BinaryFormat.parseLits k p = some (ls, r) → BinaryFormat.parseLits k' (p ++ q) = some (ls, r ++ q)
  | 0, _, _, _, _, _, _, h => by simp [BinaryFormat.parseLits] at h
  | k + 1, 0, _, _, _, _, hk, _ => by omega
  | k + 1, k' + 1, p, ls, r, q, hk, h => by
    unfold BinaryFormat.parseLits at h ⊢
    simp only [Option.bind_eq_bind, Option.bind_eq_some_iff] at h
    obtain ⟨⟨u, r1⟩, h1, h2⟩ := h
    simp only [Option.bind_eq_bind, parseVarint_local q h1, Option.bind_some]
    dsimp only at h2
    split
    · rename_i hu
      rw [if_pos hu] at h2
      simp only [Option.some.injEq, Prod.mk.injEq] at h2
      simp [h2]
    · rename_i hu
      rw [if_neg hu] at h2
      split
      · rename_i hu1
        rw [if_pos hu1] at h2; cases h2
      · rename_i hu1
        rw [if_neg hu1] at h2
        simp only [Option.bind_eq_some_iff] at h2
        obtain ⟨⟨ls', r2⟩, h3, h4⟩ := h2
        simp only [Option.some.injEq, Prod.mk.injEq] at h4
        rw [binary_parseLits_local q (by omega) h3]
        simp [h4]

theorem binary_parseLines_cons {k : Nat} {b : Byte} {bs : List Byte} {ds : List DratLine}
    (h : BinaryFormat.parseLines (k + 1) (b :: bs) = some ds) :
    ∃ ls r ds', BinaryFormat.parseLits (bs.length + 1) bs = some (ls, r) ∧
      BinaryFormat.parseLines k r = some ds' ∧ ds = ⟨decide (b = 0x64#8), ls⟩ :: ds' := by
  unfold BinaryFormat.parseLines at h
  simp only [Option.bind_eq_bind, Option.bind_some, Option.bind_none] at h
  split at h
  · rename_i hb
    obtain ⟨⟨ls, r⟩, h1, h⟩ := Option.bind_eq_some_iff.1 h
    obtain ⟨ds', h2, h3⟩ := Option.bind_eq_some_iff.1 h
    refine ⟨ls, r, ds', h1, h2, ?_⟩
    rw [hb, decide_eq_false (by decide)]
    exact (Option.some.inj h3).symm
  · split at h
    · rename_i hb
      obtain ⟨⟨ls, r⟩, h1, h⟩ := Option.bind_eq_some_iff.1 h
      obtain ⟨ds', h2, h3⟩ := Option.bind_eq_some_iff.1 h
      refine ⟨ls, r, ds', h1, h2, ?_⟩
      rw [decide_eq_true hb]
      exact (Option.some.inj h3).symm
    · cases h

theorem binary_parseLines_local : ∀ {k k' : Nat} {p : List Byte} {ds all : List DratLine} {q : List Byte},
    BinaryFormat.parseLines k p = some ds → BinaryFormat.parseLines k' (p ++ q) = some all →
    ∃ es i, all = ds ++ es ∧ BinaryFormat.parseLines i q = some es
  | 0, _, _, _, _, _, h, _ => by simp [BinaryFormat.parseLines] at h
  | k + 1, k', [], ds, all, q, h, h' => by
    simp only [BinaryFormat.parseLines, Option.some.injEq] at h
    subst h
    exact ⟨all, k', rfl, h'⟩
  | k + 1, 0, b :: p, ds, all, q, h, h' => by simp [BinaryFormat.parseLines] at h'
  | k + 1, k' + 1, b :: p, ds, all, q, h, h' => by
    rw [List.cons_append] at h'
    obtain ⟨ls, r, ds', h2, h3, rfl⟩ := binary_parseLines_cons h
    obtain ⟨ls', r', all', h2', h3', rfl⟩ := binary_parseLines_cons h'
    rw [binary_parseLits_local q (by simp) h2] at h2'
    cases h2'
    obtain ⟨es, i, rfl, e2⟩ := binary_parseLines_local h3 h3'
    exact ⟨es, i, rfl, e2⟩

open TextFormat in
theorem parseDigits_local : ∀ {p : List Byte} {a n : Nat} {r : List Byte} (q : List Byte),
    parseDigits a p = (n, r) → r ≠ [] → parseDigits a (p ++ q) = (n, r ++ q)
  | [], a, n, r, q, h, hr => by
    simp only [parseDigits, Prod.mk.injEq] at h
    exact absurd h.2.symm hr
  | b :: p, a, n, r, q, h, hr => by
    rw [List.cons_append]
    unfold parseDigits at h ⊢
    split
    · rename_i d hd
      rw [hd] at h
      exact parseDigits_local q h hr
    · rename_i hd
      rw [hd] at h
      simp only [Prod.mk.injEq] at h
      simp [h.1, ← h.2]

open TextFormat in
theorem parseNat_local {p : List Byte} {n : Nat} {r : List Byte} (q : List Byte)
    (h : parseNat p = some (n, r)) (hr : r ≠ []) : parseNat (p ++ q) = some (n, r ++ q) := by
  cases p with
  | nil => simp [parseNat] at h
  | cons b p =>
    rw [List.cons_append]
    unfold parseNat at h ⊢
    rw [Option.map_eq_some_iff] at h ⊢
    obtain ⟨d, h1, h2⟩ := h
    exact ⟨d, h1, parseDigits_local q h2 hr⟩

open TextFormat in
theorem parseInt_local {p : List Byte} {n : Int} {r : List Byte} (q : List Byte)
    (h : parseInt p = some (n, r)) (hr : r ≠ []) : parseInt (p ++ q) = some (n, r ++ q) := by
  cases p with
  | nil => simp [parseInt] at h
  | cons b p =>
    rw [List.cons_append]
    unfold parseInt at h ⊢
    dsimp only at h ⊢
    split
    · rename_i hb
      rw [if_pos hb, Option.map_eq_some_iff] at h
      obtain ⟨⟨m, r'⟩, h1, h2⟩ := h
      simp only [Prod.mk.injEq] at h2
      rw [parseNat_local q h1 (by rw [h2.2]; exact hr)]
      simp [h2]
    · rename_i hb
      rw [if_neg hb, Option.map_eq_some_iff] at h
      obtain ⟨⟨m, r'⟩, h1, h2⟩ := h
      simp only [Prod.mk.injEq] at h2
      rw [← List.cons_append, parseNat_local q h1 (by rw [h2.2]; exact hr)]
      simp [h2]

open TextFormat in
theorem text_parseLits_local : ∀ {k k' : Nat} {p : List Byte} {ls : List Int} {r : List Byte} (q : List Byte),
    k ≤ k' → TextFormat.parseLits k p = some (ls, r) → TextFormat.parseLits k' (p ++ q) = some (ls, r ++ q)
  | 0, _, _, _, _, _, _, h => by simp [TextFormat.parseLits] at h
  | k + 1, 0, _, _, _, _, hk, _ => by omega
  | k + 1, k' + 1, p, ls, r, q, hk, h => by
    unfold TextFormat.parseLits at h ⊢
    simp only [Option.bind_eq_bind, Option.bind_eq_some_iff] at h
    obtain ⟨⟨n, r1⟩, h1, h2⟩ := h
    dsimp only at h2
    cases r1 with
    | nil => split at h2 <;> cases h2
    | cons b r1 =>
      simp only [Option.bind_eq_bind, parseInt_local q h1 (by simp), Option.bind_some, List.cons_append]
      dsimp only at h2
      split
      · rename_i hn
        rw [if_pos hn] at h2
        split
        · rename_i hb
          rw [if_pos hb] at h2
          simp only [Option.some.injEq, Prod.mk.injEq] at h2
          simp [h2]
        · rename_i hb
          rw [if_neg hb] at h2; cases h2
      · rename_i hn
        rw [if_neg hn] at h2
        split
        · rename_i hb
          rw [if_pos hb, Option.map_eq_some_iff] at h2
          obtain ⟨⟨ls', r2⟩, h3, h4⟩ := h2
          simp only [Prod.mk.injEq] at h4
          rw [text_parseLits_local q (by omega) h3]
          simp [h4]
        · rename_i hb
          rw [if_neg hb] at h2; cases h2

theorem text_parseLines_local : ∀ {k k' : Nat} {p : List Byte} {ds all : List DratLine} {q : List Byte},
    TextFormat.parseLines k p = some ds → TextFormat.parseLines k' (p ++ q) = some all →
    ∃ es i, all = ds ++ es ∧ TextFormat.parseLines i q = some es
  | 0, _, _, _, _, _, h, _ => by simp [TextFormat.parseLines] at h
  | k + 1, k', [], ds, all, q, h, h' => by
    simp only [TextFormat.parseLines, Option.some.injEq] at h
    subst h
    exact ⟨all, k', rfl, h'⟩
  | k + 1, 0, b :: p, ds, all, q, h, h' => by simp [TextFormat.parseLines] at h'
  | k + 1, k' + 1, b :: p, ds, all, q, h, h' => by
    rw [List.cons_append] at h'
    unfold TextFormat.parseLines at h h'
    split at h
    · rename_i hb
      rw [if_pos hb] at h'
      cases p with
      | nil => cases h
      | cons c p =>
        rw [List.cons_append] at h'
        dsimp only at h h'
        split at h
        · rename_i hc
          rw [if_pos hc] at h'
          simp only [Option.bind_eq_some_iff, Option.map_eq_some_iff] at h h'
          obtain ⟨⟨ls, r⟩, h2, ds', h3, h4⟩ := h
          obtain ⟨⟨ls', r'⟩, h2', all', h3', h4'⟩ := h'
          rw [text_parseLits_local q (by simp) h2] at h2'
          cases h2'
          obtain ⟨es, i, e1, e2⟩ := text_parseLines_local h3 h3'
          subst h4 h4' e1
          exact ⟨es, i, rfl, e2⟩
        · cases h
    · rename_i hb
      rw [if_neg hb] at h'
      simp only [Option.bind_eq_some_iff, Option.map_eq_some_iff] at h h'
      obtain ⟨⟨ls, r⟩, h2, ds', h3, h4⟩ := h
      obtain ⟨⟨ls', r'⟩, h2', all', h3', h4'⟩ := h'
      rw [← List.cons_append, text_parseLits_local q (by simp) h2] at h2'
      cases h2'
      obtain ⟨es, i, e1, e2⟩ := text_parseLines_local h3 h3'
      subst h4 h4' e1
      exact ⟨es, i, rfl, e2⟩

/-- Parsing a file in two parts. -/
theorem parse_local (f : Cli.ProofFormat) {p q : List Byte} {ds all : List DratLine} (h : f.parse p = some ds)
    (h' : f.parse (p ++ q) = some all) : ∃ es, all = ds ++ es ∧ (es = [] → q = []) := by
  cases f with
  | drat =>
    obtain ⟨es, i, e1, e2⟩ := text_parseLines_local h h'
    refine ⟨es, e1, fun e => ?_⟩
    subst e
    cases q with
    | nil => rfl
    | cons b q =>
      cases i with
      | zero => simp [TextFormat.parseLines] at e2
      | succ i =>
        unfold TextFormat.parseLines at e2
        split at e2
        · split at e2
          · split at e2
            · simp [Option.bind_eq_some_iff] at e2
            · cases e2
          · cases e2
        · simp [Option.bind_eq_some_iff] at e2
  | binaryDrat =>
    obtain ⟨es, i, e1, e2⟩ := binary_parseLines_local h h'
    refine ⟨es, e1, fun e => ?_⟩
    subst e
    cases q with
    | nil => rfl
    | cons b q =>
      cases i with
      | zero => simp [BinaryFormat.parseLines] at e2
      | succ i =>
        obtain ⟨_, _, _, _, _, e⟩ := binary_parseLines_cons e2
        cases e

theorem bytes_append (f : Cli.ProofFormat) (a b : List ProofStep) : f.bytes (a ++ b) = f.bytes a ++ f.bytes b := by
  cases f <;> simp [Cli.ProofFormat.bytes, Drat.output, BinaryDrat.output]

/-- A first part of a file that can be read ends at the end of a step. -/
theorem parse_prefix (f : Cli.ProofFormat) {log : List ProofStep}
    (hv : ∀ c, .add c ∈ log ∨ .delete c ∈ log → ∀ l ∈ c, l.Valid) {p : List Byte} {ds : List DratLine}
    (hp : p <+: f.bytes log) (h : f.parse p = some ds) :
    ∃ pre post, log = pre ++ post ∧ p = f.bytes pre ∧ ds = pre.map ProofStep.line := by
  obtain ⟨q, hq⟩ := hp
  have hall : f.parse (p ++ q) = some (log.map ProofStep.line) := by rw [hq]; exact parse_bytes f hv
  obtain ⟨es, e1, -⟩ := parse_local f h hall
  have hd : ds = (log.take ds.length).map ProofStep.line := by
    rw [List.map_take, e1, List.take_left']
    rfl
  have hsplit := (List.take_append_drop ds.length log).symm
  have h2 : f.parse (f.bytes (log.take ds.length)) = some ds := by
    rw [parse_bytes f (fun c hc => hv c (hc.imp List.mem_of_mem_take List.mem_of_mem_take)), ← hd]
  refine ⟨_, _, hsplit, ?_, hd⟩
  have hb : f.bytes (log.take ds.length) <+: p ++ q := by
    rw [hq]
    conv_rhs => rw [hsplit, bytes_append]
    exact List.prefix_append _ _
  rcases List.prefix_or_prefix_of_prefix (List.prefix_append p q) hb with ⟨x, hx⟩ | ⟨x, hx⟩
  · rw [← hx] at h2
    obtain ⟨es', e, hn⟩ := parse_local f h h2
    have : es' = [] := by simpa using e
    rw [← hx, hn this, List.append_nil]
  · rw [← hx] at h
    obtain ⟨es', e, hn⟩ := parse_local f h2 h
    have : es' = [] := by simpa using e
    rw [← hx, hn this, List.append_nil]

variable {env : Env} {F : List (List Lit)} {s : Solver} {log : List ProofStep}

/-- C110, proof file: a first part of the proof file of any run can be read only if it ends at the end of a step,
and then it is a derivation from the clauses added so far: a checker accepts every line. -/
theorem C110_proof (h : Solver.Incr env F s) (hl : s.ctx.proof = some log) (f : Cli.ProofFormat)
    {p : List Byte} (hp : p <+: f.bytes log) :
    (f.parse p ≠ none ↔ ∃ pre post, log = pre ++ post ∧ p = f.bytes pre) ∧
    ∀ ds, f.parse p = some ds → ∃ F', DratCheck.steps (F.map (List.map Lit.dimacs)) ds = some F' := by
  obtain ⟨L, S, hi⟩ := h.inv
  obtain ⟨log', a, hl', _⟩ := hi.proof
  rw [hl] at hl'
  simp only [reduceCtorEq, Option.some.injEq, false_or] at hl'
  subst hl'
  refine ⟨⟨fun hn => ?_, ?_⟩, fun ds hd => ?_⟩
  · obtain ⟨ds, hd⟩ := Option.ne_none_iff_exists'.1 hn
    obtain ⟨pre, post, e1, e2, -⟩ := parse_prefix f a.valid.1 hp hd
    exact ⟨pre, post, e1, e2⟩
  · rintro ⟨pre, post, e1, e2⟩
    rw [e2, parse_bytes f (fun c hc => a.valid.1 c (by rw [e1]; simp only [List.mem_append]; tauto))]
    simp
  · obtain ⟨pre, post, e1, e2, rfl⟩ := parse_prefix f a.valid.1 hp hd
    obtain ⟨F', h1, _⟩ := DratCheck.steps_complete a (toDB_valid h.valid) toDB_nums
    rw [e1, List.map_append, DratCheck.steps_append] at h1
    obtain ⟨F1, h2, -⟩ := Option.bind_eq_some_iff.1 h1
    exact ⟨F1, h2⟩

/-! ## Standard output -/

open Reader

theorem split_prefix {sep : Byte} : ∀ {p bs : List Byte}, p <+: bs →
    ∃ j q, split sep p = (split sep bs).take j ++ q ∧
      (q = [] ∨ ∃ x l, q = [x] ∧ (split sep bs)[j]? = some l ∧ x ≠ [] ∧ x <+: l)
  | [], _, _ => ⟨0, [], by simp [split], .inl rfl⟩
  | b :: p, [], h => by simp at h
  | b :: p, c :: bs, h => by
    rw [List.cons_prefix_cons] at h
    obtain ⟨rfl, h⟩ := h
    obtain ⟨j, q, h1, h2⟩ := split_prefix (sep := sep) h
    unfold split
    split
    · refine ⟨j + 1, q, by simp [h1], ?_⟩
      simpa using h2
    · rcases h2 with rfl | ⟨x, l, rfl, h3, h4, h5⟩
      · rw [List.append_nil] at h1
        cases j with
        | zero =>
          rw [h1]
          cases e : split sep bs with
          | nil => exact ⟨0, [[b]], by simp, .inr ⟨[b], [b], rfl, by simp, by simp, by simp⟩⟩
          | cons l ls => exact ⟨0, [[b]], by simp, .inr ⟨[b], b :: l, rfl, by simp, by simp, by simp⟩⟩
        | succ j =>
          rw [h1]
          cases e : split sep bs with
          | nil => exact ⟨1, [], by simp, .inl rfl⟩
          | cons l ls => exact ⟨j + 1, [], by simp, .inl rfl⟩
      · cases e : split sep bs with
        | nil => rw [e] at h3; simp at h3
        | cons m ls =>
          rw [e] at h1 h3
          cases j with
          | zero =>
            simp only [List.getElem?_cons_zero, Option.some.injEq] at h3
            subst h3
            rw [h1]
            exact ⟨0, [b :: x], by simp, .inr ⟨b :: x, b :: m, rfl, by simp, by simp, by simpa using h5⟩⟩
          | succ j =>
            rw [h1]
            exact ⟨j + 1, [x], by simp, .inr ⟨x, l, rfl, by simpa using h3, h4, h5⟩⟩

/-- A first part of a text gives the first lines and perhaps a first part of the next one. -/
theorem answer_prefix {p bs : List Byte} (h : p <+: bs) :
    ∃ j q, answer p = (answer bs).take j ++ q ∧
      (q = [] ∨ ∃ x l, q = [x] ∧ (answer bs)[j]? = some l ∧ x ≠ [] ∧ x <+: l) := by
  obtain ⟨j, q, h1, h2⟩ := split_prefix (sep := 0x0a#8) h
  have key : ∀ (P : List Byte → Bool) (ls : List (List Byte)) (j : Nat),
      (ls.take j).filter P = (ls.filter P).take ((ls.take j).filter P).length ∧
      ∀ l, ls[j]? = some l → P l = true → (ls.filter P)[((ls.take j).filter P).length]? = some l := by
    intro P ls
    induction ls with
    | nil => simp
    | cons m ls ih =>
      intro j
      cases j with
      | zero =>
        refine ⟨by simp, fun l hl hp => ?_⟩
        simp only [List.getElem?_cons_zero, Option.some.injEq] at hl
        subst hl
        simp [hp]
      | succ j =>
        obtain ⟨i1, i2⟩ := ih j
        simp only [List.take_succ_cons, List.filter_cons, List.getElem?_cons_succ]
        cases P m
        · exact ⟨by simpa using i1, fun l hl hp => by simpa using i2 l hl hp⟩
        · exact ⟨by simpa using i1, fun l hl hp => by simpa using i2 l hl hp⟩
  obtain ⟨k1, k2⟩ := key (fun l => l.head? != some 0x63#8) (lines bs) j
  unfold answer
  have hp : lines p = (lines bs).take j ++ q := h1
  rw [hp, List.filter_append]
  rcases h2 with rfl | ⟨x, l, rfl, h3, h4, h5⟩
  · exact ⟨_, [], by simpa using k1, .inl rfl⟩
  · have hh : x.head? = l.head? := by
      obtain ⟨y, rfl⟩ := h5
      cases x with
      | nil => exact absurd rfl h4
      | cons b x => rfl
    refine ⟨_, _, by rw [← k1], ?_⟩
    by_cases hc : (l.head? != some 0x63#8) = true
    · exact .inr ⟨x, l, by simp [hh, hc], k2 l h3 hc, h4, h5⟩
    · exact .inl (by simp only [List.filter_cons, hh, hc]; simp)

theorem parseModel_v : ∀ {vs : List (List Byte)} {ns : List Int}, parseModel vs = some ns →
    ∀ l ∈ vs, ∃ r, l = 0x76#8 :: r
  | [], _, _, l, hl => by cases hl
  | v :: vs, ns, h, l, hl => by
    simp only [parseModel, Option.bind_eq_some_iff, Option.map_eq_some_iff] at h
    obtain ⟨a, h1, b, h2, -⟩ := h
    rcases List.mem_cons.1 hl with rfl | hl
    · cases l with
      | nil => simp [parseModelLine] at h1
      | cons b r =>
        unfold parseModelLine at h1
        dsimp only at h1
        split at h1
        · rename_i hb; exact ⟨r, by rw [hb]⟩
        · cases h1
    · exact parseModel_v h2 l hl

theorem parseModel_append : ∀ {a b : List (List Byte)} {m : List Int}, parseModel (a ++ b) = some m →
    ∃ m1 m2, parseModel a = some m1 ∧ parseModel b = some m2 ∧ m = m1 ++ m2
  | [], b, m, h => ⟨[], m, rfl, h, rfl⟩
  | v :: a, b, m, h => by
    simp only [List.cons_append, parseModel, Option.bind_eq_some_iff, Option.map_eq_some_iff] at h
    obtain ⟨n1, h1, n2, h2, rfl⟩ := h
    obtain ⟨m1, m2, e1, e2, rfl⟩ := parseModel_append h2
    exact ⟨n1 ++ m1, m2, by simp [parseModel, h1, e1], e2, by simp⟩

section
variable {F : List (List Int)} {n k : Nat} {t : Cli.Texts} {loc : Event → List Byte}
  {format : Option Cli.ProofFormat}

theorem model_sat {ns : List Int}
    (hw : (ns.map Int.natAbs).Pairwise (· < ·)) (h0 : ∀ x ∈ ns, x ≠ 0) (hs : ∀ c ∈ F, ∃ x ∈ c, x ∈ ns) :
    ∃ α, CnfSat α F := by
  refine ⟨fun v => decide ((v : Int) ∈ ns), fun c hc => ?_⟩
  obtain ⟨x, hx, hxn⟩ := hs c hc
  refine ⟨x, hx, ?_⟩
  unfold NumSat
  have hd : (ns.map Int.natAbs).Nodup := hw.imp (fun h => Nat.ne_of_lt h)
  have hx0 := h0 x hxn
  rw [decide_eq_decide]
  constructor
  · intro hm
    have := List.inj_on_of_nodup_map hd hm hxn (Int.natAbs_natCast _)
    omega
  · intro hp
    rw [Int.natAbs_of_nonneg (by omega)]
    exact hxn

/-- C110, status: whatever part of standard output is there, a line `s SATISFIABLE` or `s UNSATISFIABLE` in it is
right, also when its line feed is missing. -/
theorem C110_status (hn : n ≤ 2 ^ 30) (hF : ∀ c ∈ F, ∀ x ∈ c, x ≠ 0 ∧ x.natAbs ≤ n) {all : List Out}
    (hm : Cli.mainAll env k t loc format n F = .ok (some all)) (ht : t.OneLine) (hl : ∀ e, 0x0a#8 ∉ loc e)
    (v q : Nat) (src : Bool) {p : List Byte} (hp : p <+: all.flatMap (Out.bytes (Cli.logger v q src))) :
    (Logger.text "s SATISFIABLE" ∈ answer p → ∃ α, CnfSat α F) ∧
    (Logger.text "s UNSATISFIABLE" ∈ answer p → ¬ ∃ α, CnfSat α F) := by
  obtain ⟨out, -, ⟨-, hr⟩, ha⟩ := C107_answer hn hF hm ht hl v q src
  obtain ⟨j, x, h1, h2⟩ := answer_prefix hp
  rw [ha] at h1 h2
  have hmem : ∀ w ∈ answer p, ∃ l ∈ out.lines, w ≠ [] → w <+: l := by
    intro w hw
    rw [h1, List.mem_append] at hw
    rcases hw with hw | hw
    · exact ⟨w, List.mem_of_mem_take hw, fun _ => List.prefix_rfl⟩
    · rcases h2 with rfl | ⟨y, l, rfl, h3, -, h5⟩
      · cases hw
      · rw [List.mem_singleton] at hw
        subst hw
        exact ⟨l, List.mem_of_getElem? h3, fun _ => h5⟩
  have hsat : ¬ Logger.text "s SATISFIABLE" <+: Logger.text "s UNSATISFIABLE" := by decide +kernel
  have hunsat : ¬ Logger.text "s UNSATISFIABLE" <+: Logger.text "s SATISFIABLE" := by decide +kernel
  have hv1 : (Logger.text "s SATISFIABLE").head? = some 0x73#8 := by decide +kernel
  have hv2 : (Logger.text "s UNSATISFIABLE").head? = some 0x73#8 := by decide +kernel
  have hne : ∀ {w : List Byte} {b : Byte}, w.head? = some b → w ≠ [] := by rintro w b h rfl; cases h
  have hstart : ∀ {w r : List Byte}, w.head? = some 0x73#8 → ¬ w <+: 0x76#8 :: r := by
    rintro w r hw ⟨y, hy⟩
    cases w with
    | nil => cases hw
    | cons b w =>
      simp only [List.head?_cons, Option.some.injEq] at hw
      simp only [List.cons_append, List.cons.injEq] at hy
      rw [hw] at hy
      exact absurd hy.1 (by decide)
  rcases hr with ⟨e, -, hu, -⟩ | ⟨vs, ns, e, hp, hw, hb, hs, -⟩
  · refine ⟨fun hw => ?_, fun _ => hu⟩
    obtain ⟨l, hl1, hl2⟩ := hmem _ hw
    rw [e, List.mem_singleton] at hl1
    subst hl1
    exact absurd (hl2 (hne hv1)) hsat
  · have ex : ∃ α, CnfSat α F := model_sat hw (fun x hx => (hb x hx).1) hs
    refine ⟨fun _ => ex, fun hw => ?_⟩
    obtain ⟨l, hl1, hl2⟩ := hmem _ hw
    rw [e, List.mem_cons] at hl1
    rcases hl1 with rfl | hl1
    · exact absurd (hl2 (hne hv2)) hunsat
    · obtain ⟨r, rfl⟩ := parseModel_v hp l hl1
      exact absurd (hl2 (hne hv2)) (hstart hv2)

theorem split_ended {sep : Byte} : ∀ {p : List Byte} (rest : List Byte),
    split sep (p ++ sep :: rest) = split sep (p ++ [sep]) ++ split sep rest
  | [], rest => by simp [split]
  | b :: p, rest => by
    simp only [List.cons_append, split]
    rw [split_ended rest]
    split
    · simp
    · cases e : split sep (p ++ [sep]) with
      | nil =>
        exfalso
        cases p with
        | nil => simp [split] at e
        | cons c p =>
          simp only [List.cons_append] at e
          unfold split at e
          split at e
          · cases e
          · split at e <;> cases e
      | cons l ls => simp

/-- C110, model: lines that are there completely are a first part of the answer, and a model among them whose
list is ended by a zero satisfies the formula. -/
theorem C110_model (hn : n ≤ 2 ^ 30) (hF : ∀ c ∈ F, ∀ x ∈ c, x ≠ 0 ∧ x.natAbs ≤ n) {all : List Out}
    (hm : Cli.mainAll env k t loc format n F = .ok (some all)) (ht : t.OneLine) (hl : ∀ e, 0x0a#8 ∉ loc e)
    (v q : Nat) (src : Bool) {p : List Byte}
    (hp : p ++ [0x0a#8] <+: all.flatMap (Out.bytes (Cli.logger v q src))) :
    (∃ out, Cli.main env k format n F = .ok (some out) ∧ Cli.Right F n format out ∧
      answer (p ++ [0x0a#8]) <+: out.lines) ∧
    ∀ vs ns, answer (p ++ [0x0a#8]) = Logger.text "s SATISFIABLE" :: vs → parseModel vs = some (ns ++ [0]) →
      (ns.map Int.natAbs).Pairwise (· < ·) ∧ ∀ c ∈ F, ∃ x ∈ c, x ∈ ns := by
  obtain ⟨out, h0, hr, ha⟩ := C107_answer hn hF hm ht hl v q src
  have hpre : answer (p ++ [0x0a#8]) <+: out.lines := by
    obtain ⟨x, hx⟩ := hp
    rw [← ha, ← hx, List.append_assoc, List.singleton_append]
    unfold answer lines
    rw [split_ended x, List.filter_append]
    exact List.prefix_append _ _
  refine ⟨⟨out, h0, hr, hpre⟩, fun vs ns e hm => ?_⟩
  rw [e] at hpre
  rcases hr.2 with ⟨e', -⟩ | ⟨vs', ns', e', hp', hw, hb, hs, -⟩
  · rw [e', List.cons_prefix_cons] at hpre
    exact absurd hpre.1 (by decide +kernel)
  · rw [e', List.cons_prefix_cons] at hpre
    obtain ⟨-, us, rfl⟩ := hpre
    obtain ⟨m1, m2, e1, -, e3⟩ := parseModel_append hp'
    rw [hm, Option.some.injEq] at e1
    subst e1
    have hns : ns = ns' := by
      rcases List.eq_nil_or_concat m2 with rfl | ⟨m3, y, rfl⟩
      · rw [List.append_nil] at e3
        exact (List.append_inj_left' e3 rfl).symm
      · exfalso
        rw [List.concat_eq_append, ← List.append_assoc] at e3
        have h3 := List.append_inj_left' e3 rfl
        exact (hb 0 (by rw [h3]; simp)).1 rfl
    subst hns
    exact ⟨hw, hs⟩
end

set_option synthInstance.maxSize 1024 in
/-- The hypotheses of C110 can be met: the output of an unsatisfiable and of a satisfiable formula, stopped at
several places, and a proof file, stopped at the end of a step and one byte before. -/
theorem C110_example :
    (∃ all, Cli.mainAll Example.envReduce 30 Example.texts Example.locations none 6 (Example.php 3 2) =
        .ok (some all) ∧
      answer ((all.flatMap (Out.bytes (Cli.logger 3 0 false))).dropLast) = [Logger.text "s UNSATISFIABLE"] ∧
      answer ((all.flatMap (Out.bytes (Cli.logger 3 0 false))).dropLast.dropLast) =
        [Logger.text "s UNSATISFIABL"]) ∧
    (∃ all, Cli.mainAll Example.env 30 Example.texts Example.locations none 12
        [[12, -1], [1], [-11, 3]] = .ok (some all) ∧
      (let bytes := all.flatMap (Out.bytes (Cli.logger 0 0 false))
       [answer bytes, answer (bytes.take (bytes.length - 4)), answer (bytes.take (bytes.length - 6))] =
        [[Logger.text "s SATISFIABLE", Logger.text "v 1 -2 -3 -4 -5 -6 -7 -8 -9 -10 -11 12", Logger.text "v 0"],
         [Logger.text "s SATISFIABLE", Logger.text "v 1 -2 -3 -4 -5 -6 -7 -8 -9 -10 -11 12"],
         [Logger.text "s SATISFIABLE", Logger.text "v 1 -2 -3 -4 -5 -6 -7 -8 -9 -10 -11 1"]])) ∧
    ∃ s log, Solver.Incr Example.env (Call.clauses Example.proofCalls) s ∧ s.ctx.proof = some log ∧
      Cli.ProofFormat.drat.bytes log = Logger.text "3 1 0\n1 0\n-3 0\n" ∧
      Cli.ProofFormat.drat.parse (Logger.text "3 1 0\n1 0\n") = some [⟨false, [3, 1]⟩, ⟨false, [1]⟩] ∧
      Cli.ProofFormat.drat.parse (Logger.text "3 1 0\n1 0") = none := by
  refine ⟨?_, ?_, ?_⟩
  · have h : ((Cli.mainAll Example.envReduce 30 Example.texts Example.locations none 6 (Example.php 3 2)).map
        (fun o => o.map (fun all =>
          (answer ((all.flatMap (Out.bytes (Cli.logger 3 0 false))).dropLast),
            answer ((all.flatMap (Out.bytes (Cli.logger 3 0 false))).dropLast.dropLast))))) =
        .ok (some ([Logger.text "s UNSATISFIABLE"], [Logger.text "s UNSATISFIABL"])) := by decide +kernel
    cases e : Cli.mainAll Example.envReduce 30 Example.texts Example.locations none 6 (Example.php 3 2) with
    | error => rw [e] at h; simp [Except.map] at h
    | ok o =>
      cases o with
      | none => rw [e] at h; simp [Except.map] at h
      | some all =>
        rw [e] at h
        simp only [Except.map, Option.map_some, Except.ok.injEq, Option.some.injEq, Prod.mk.injEq] at h
        exact ⟨all, rfl, h⟩
  · have h : ((Cli.mainAll Example.env 30 Example.texts Example.locations none 12
        [[12, -1], [1], [-11, 3]]).map (fun o => o.map (fun all =>
          let bytes := all.flatMap (Out.bytes (Cli.logger 0 0 false))
          [answer bytes, answer (bytes.take (bytes.length - 4)), answer (bytes.take (bytes.length - 6))]))) =
        .ok (some [[Logger.text "s SATISFIABLE", Logger.text "v 1 -2 -3 -4 -5 -6 -7 -8 -9 -10 -11 12",
            Logger.text "v 0"],
          [Logger.text "s SATISFIABLE", Logger.text "v 1 -2 -3 -4 -5 -6 -7 -8 -9 -10 -11 12"],
          [Logger.text "s SATISFIABLE", Logger.text "v 1 -2 -3 -4 -5 -6 -7 -8 -9 -10 -11 1"]]) := by
      decide +kernel
    cases e : Cli.mainAll Example.env 30 Example.texts Example.locations none 12 [[12, -1], [1], [-11, 3]] with
    | error => rw [e] at h; simp [Except.map] at h
    | ok o =>
      cases o with
      | none => rw [e] at h; simp [Except.map] at h
      | some all =>
        rw [e] at h
        simp only [Except.map, Option.map_some, Except.ok.injEq, Option.some.injEq] at h
        exact ⟨all, rfl, h⟩
  · obtain ⟨s, s', hs, -, hp, -⟩ := C61_example
    exact ⟨s, _, hs.incr, hp, by decide +kernel, by decide +kernel, by decide +kernel⟩

end Starlit
