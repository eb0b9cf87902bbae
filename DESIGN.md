# Formal model of jix/starlit in Lean 4

## Approach

The model is a function-by-function transcription of `/repo` into total Lean functions.
`&mut` parameters become returned values; every panic, failed `assert!`, out-of-bounds index,
`unwrap` of `None` and out-of-bounds *unchecked* access is an explicit error value of the monad
`M := Except Err`:

* `Err.panic` – a Rust panic,
* `Err.ub` – an unchecked access outside of the buffer, or to a moved-out cell,
* `Err.arenaFull` – the `unwrap` of the clause arena's "full" result (a documented panic),
* `Err.tooBig` – a number that the code casts to `u32` does not fit,
* `Err.fuel` – a loop ran longer than its fuel.

Loops without a structural bound take a fuel argument. The theorems show that `Err.fuel`, `Err.panic` and
`Err.ub` do not occur. Only `solve` takes its fuel as an argument: it is the number of scheduled
search steps, the theorems hold for every value, and C03 shows that some value is enough.

The program logic is a weakest-precondition predicate `Wp m Q`: `m` ends in a value satisfying `Q`, or in
`arenaFull`/`tooBig`, and in no other error. Everything above the word-level modules is proved
by `Wp` triples and induction over runs.

`f32` arithmetic of VSIDS, the `f64` reduction interval, and the order in which
`select_nth_unstable` leaves its slice are fields of a structure `Env`. Properties C01–C40, C42–C45, C47, C49–C63, C65–C71 and C73–C112 hold for
every `Env`. C41, C46, C48, C72 and `C64_u64` are about `f32Env order perm`, in which both arithmetics are the IEEE operations on bit
patterns (`Fp.lean`, `Float.lean`), proved to be "the exact result, rounded to nearest, ties to even".

## Files under `lean/Verif/`

Model (every definition cites the lines it transcribes):

| model | source |
|-------|--------|
| `Base` | error monad, checked vector access |
| `Lit` | `starlit/src/lit.rs` |
| `PartialAssignment` | `starlit/src/partial_assignment.rs` |
| `Header` | `HeaderWord` in `starlit/src/clause_arena.rs`, `LongHeader` in `starlit/src/prop/long.rs` |
| `Arena` | `starlit/src/clause_arena.rs` |
| `Heap` | `starlit/src/heap.rs` |
| `Luby` | `starlit/src/state/luby.rs` |
| `Drat` | `starlit/src/proof.rs`, `starlit/src/proof/drat.rs` |
| `VecMap` | `starlit/src/util/vec_map.rs` and its key types |
| `LogMacro` | `starlit-macros/src/log.rs` |
| `LitApi` | the rest of `starlit/src/lit.rs`: unchecked constructors, order, text, and client programs |
| `MutScan`, `MutScanPtr` | `starlit/src/util/mut_scan.rs`, with offsets and with addresses |
| `Bitfield` | accessors generated by `starlit-macros/src/bitfield.rs`; `Score` in `starlit/src/search/reduce.rs` |
| `BitfieldMacro` | `derive_bitfield` itself, `starlit-macros/src/bitfield.rs` |
| `TransparentMacro` | `derive_transparent`, `starlit-macros/src/transparent.rs`, and the conversions of `util/transparent.rs` |
| `Checker` | specification: forward RUP checker on DIMACS numbers |
| `Solver/Report` | `report.rs` |
| `Solver/Output` | the text of reports (`report.rs`), where they are printed (`state.rs`, `solver.rs`), all output of `main` at level info |
| `Solver/Trace` | all log messages of the search, and where they are logged |
| `Solver/FullOutput` | all output of the program in order: reports, messages and the answer |
| `Solver/MinimizeStack` | the iterative search of clause minimisation with its stack buffer |
| `Solver/Main` | `starlit-cli/src/main.rs` after parsing |
| `Cli` | `starlit/src/log.rs`, `starlit-macros/src/log.rs`, `starlit-cli/src/main.rs` |
| `Fp`, `Float` | the IEEE operations used by `search/vsids.rs` and `state.rs` |
| `Solver/Prop` | `prop.rs`, `prop/trail.rs`, `prop/watch.rs`, `prop/binary.rs`, `prop/long.rs`, `prop/unit_prop.rs` |
| `Solver/Analyze` | `search/vsids.rs`, `search/phases.rs`, `glue.rs`, `minimize.rs`, `conflict_analysis.rs` |
| `Solver/Prepare` | the dead branch of `analyze_conflict` |
| `Solver/Search` | `search.rs`, `search/reduce.rs`, `state.rs`, `solver.rs` |

`Spec` (satisfaction, unit-propagation closure, RUP, DRAT clause sets) and the small specifications at
the head of the files in `Props/` (parsers, Luby sequence, finite maps, ...) do not use the model.
`Props/*` hold the property theorems and, beside each, a concrete case (`Cxx_example`).
All other files are lemmas.

## Build configuration modelled

`debug_assert!` is modelled as a check that fails with `Err.debug`. C04 and C53 show that no such check fails during `solve()`, so the model is one of the release build and of the debug build. Two places differ: the check of `assign_raw` (trail.rs:234) for input unit clauses is not part of `addClause` but of `addClauseDebug`, because it fails for repeated unit clauses (C53); a debug build overwrites the trail index of an unassigned variable (trail.rs:292), the model instead checks in `Trail.indexOf` that the step at the index is for the variable. Checks that a length argument equals the stored clause length (clause_arena.rs) are absent because the model reads the stored length.
Counters (`u64` statistics, `usize` lengths) are unbounded naturals. Trail positions and
decision levels (`u32` in the code) are unbounded naturals; an overflow would be `Err.tooBig` and
needs 2^31 unit clauses (C56). Subtractions that no comparison guards are checked (`Err.debug`), so C53 shows that they do not
underflow; additions and multiplications of lengths and counters are not checked. Literals, header words, arena words, value bytes, garbage-collection offsets, DRAT
bytes and Luby counters (in C27) keep their machine width.

## Trusted base

* Lean 4.33.0's kernel and the axioms `propext`, `Classical.choice`, `Quot.sound` (list below);
  no axioms added, no `sorry`, no `native_decide`, no `bv_decide`. Concrete cases are evaluated by
  the kernel (`decide +kernel`).
* The reading of the Rust source by the author of the model (the code cannot be run here). As a check of the model
  the 15 unit tests of the crate are evaluated on it (`UnitTests.lean`; the Luby sequence in `Props/Luby.lean`): all results are those that
  the tests expect.
* External code taken by its documented contract: `std` (`Vec`, slices, `sort_unstable_by_key`,
  `select_nth_unstable`, `binary_search_by`), `flussab::DeferredWriter` (appends bytes in order; with its buffer and deferred errors for C76) and
  `flussab::write::text::ascii_digits` (decimal digits with sign).
* Not modelled: the DIMACS parser (`flussab_cnf`), `clap`, the allocator, timing, the typed views of a `Vec` inside the solver (the solver model
  indexes lists by number; the typed interface `util/vec_map.rs` is C57, the `Transparent` derive and `util/transparent.rs` are C79 for themselves), I/O errors other than those of the proof file and the parser (C76),
  the `Debug`/`Display` implementations other than those of `Var` and `Lit` (C102) and those of values that are logged (C105).

### Axioms per theorem

* `[propext, Classical.choice, Quot.sound]`: `C01_unsat_correct`, `C01_fresh`, `C02_sat_correct`, `C02_fresh`, `C03_terminates`, `C03_resume`, `C04_no_panic`, `C04_add_no_panic`, `C04_value_no_panic`, `C05_additions_rup`, `C05_refuted`, `C06_deletions`, `C07_reasons`, `C07_implied`, `C08_complete`, `C09_conflict`, `C10_asserting`, `C11_minimize`, `C12_backtrack`, `C13_decision`, `C13_max`, `Heap.C14_pop_max_partial`, `Heap.C15_set_semantics`, `Arena.C16_faithful_store`, `Arena.C17_iteration`, `Arena.C18_no_undefined_behaviour`, `Arena.C18_invalid_refs_panic`, `Arena.C19_garbage_collection_partial`, `Arena.C19_false_big`, `Arena.C20_utilization_partial`, `C21_header_fields`, `C22_shrink_search_pos_partial`, `C23_refines_map`, `C24_index_roundtrip`, `C24_dimacs_roundtrip`, `C24_negation`, `C24_injective`, `C25_binary_drat`, `C26_text_drat`, `C27_luby`, `C28_reduce`, `C29_garbage_collection`, `C29_collect_garbage`, `C30_score_order`, `C30_bitfield_accessors`, `C31_compute_glue`, `C31_reachable`, `MutScan.C32_mut_scan`, `MutScan.C32_items`, `C33_watch_lists`, `C33_rebuild`, `C34_restart`, `C35_formula_stats`, `C36_restart_schedule`, `C37_cli_output_partial`, `C37_false`, `C38_order_independent`, `C39_logging_irrelevant`, `C39_fresh`, `C40_add_then_solve_partial`, `C40_incremental_partial`, `C40_history_partial`, `C40_safe_input`, `C40_safe_value`, `C41_order`, `C41_rounding`, `C41_constants`, `C41_range`, `C41_strict`, `C41_decision`, `C42_top_level`, `C43_phases`, `C43_decisions`, `C44_log_filtering`, `C44_cli_flags`, `C44_log_line`, `C45_prepare`, `C45_plain`, `C46_interval`, `C46_schedule`, `C46_reductions`, `C47_conflict`, `C47_unique`, `C47_start`, `C48_score`, `C48_decision`, `C48_conflicts`, `C49_minimal`, `C50_report_partial`, `C50_propagations`, `C51_headers`, `C52_cli_right`, `C52_cli_finishes`, `C53_solve`, `C53_add`, `C53_formula_partial`, `C54_utilization`, `C54_bound`, `C55_step`, `C55_restart`, `C55_reduce`, `C55_run`, `C56_range`, `C56_u32`, `C53_solve`, `C57_keys`, `C58_step`, `C58_solve`, `C58_cause`, `C58_needed`, `C58_add`, `C58_addClauses`, `C58_total`, `C59_new`, `C59_conflict`, `C59_distinct`, `C59_literals`, `C60_effort`, `C60_iterations`, `C60_bound`, `C61_log`, `C61_file`, `C61_append`, `C61_refuted`, `C61_refuted_first`, `C62_first`, `C62_clause`, `C62_learned`, `C62_decision`, `C63_long`, `C63_binary`, `C63_unit`, `C63_same`, `C64_bounds`, `C64_u64`, `C64_any`, `C65_graph`, `C66_linear`, `C67_limit`, `C68_guided`, `C68_again`, `C68_false`, `C69_linear`, `C69_every`, `Heap.C70_enqueue`, `Heap.C70_increase`, `Heap.C70_popMax`, `Heap.C70_dequeue`, `C71_linear`, `C72_once`, `C72_run`, `C72_stretch`, `C72_numbers`, `C73_run_partial`, `C73_numbers`, `C73_steps`, `C73_every_step`, `C73_false`, `C74_order`, `C74_reduce`, `C74_run`, `C75_conflict`, `C75_sound`, `C75_complete`, `C75_determined`, `C76_answer`, `C76_failure`, `C76_no_overwrite`, `C76_success`, `Bitfield.C77_accepted`, `Bitfield.C77_layout`, `Bitfield.C77_disjoint`, `Bitfield.C77_get`, `Bitfield.C77_set`, `Bitfield.C77_panic`, `Bitfield.C77_roundtrip`, `Bitfield.C77_order`, `Bitfield.C77_score`, `Bitfield.C77_clamp_false`, `C78_run`, `C78_bound`, `C80_linear`, `C81_horn`, `C82_unit`, `C82_conflicts`, `C82_quadratic`, `C83_total`, `C83_every`, `C83_two`, `C83_horn`, `C83_two_every`, `C83_horn_every`, `C84_refutation`, `C84_learned`, `C84_conflicts`, `C85_pigeons`, `C85_exponential`, `C85_never`, `C86_empower`, `C86_conflict`, `C86_new`, `C87_conflicts`, `C87_answer`, `C87_small`, `C88_lines`, `C88_bytes`, `C89_run`, `C89_answer`, `C89_calculus`, `C90_sets`, `C90_copies`, `C90_refuted`, `C91_search`, `C91_decisions`, `C91_implicates`, `C92_exact`, `C92_count`, `C93_resolved`, `C93_stored`, `C93_closed`, `C93_parts`, `C93_autarky`, `C93_horn`, `C94_state`, `C94_stored`, `C94_total`, `C95_answer`, `C95_small`, `C95_cli`, `C96_refuted`, `C97_true`, `C97_same`, `C97_false`, `C97_never`, `C98_few`, `C98_solver`, `C99_instance`, `C99_pigeons`, `C99_parts`, `C100_report_line`, `C100_answer`, `C100_default`, `C100_quiet`, `C100_complete`, `PtrScan.C101_sized_partial`, `C102_fits`, `C102_order`, `C102_text`, `LogMacro.C103_args_partial`, `LogMacro.C103_name_false`, `LogMacro.C103_equals_false`, `C104_add`, `C104_new`, `C105_read`, `C105_count`, `C105_clauses`, `C105_text`, `C105_follow`, `C105_known`, `C106_total`, `C106_every`, `C106_time`, `C106_time_every`, `C106_memory`, `C106_proof`, `C107_answer`, `C107_default`, `C107_quiet`, `C107_levels`, `C107_follow`, `C107_counts`, `C107_complete`, `C108_empty`, `C108_frames`, `C109_room`, `C109_proof`, `C109_always`, `C110_proof`, `C110_status`, `C110_model`, `C111_search`, `C111_time`, `C111_decisions`, `C111_horn`, `C111_complete`, `C112_interpolant`, `C112_conflicts`.
* `[propext, Quot.sound]`: `Heap.C14_false`, `Arena.C20_false`, `C21_new_headers`, `C22_false`, `C24_code_roundtrip`, `C24_select_other`, `MutScan.C32_leak`, `C39_value`, `C40_false`, `C40_false_sat`, `C46_covers`, `C47_other`, `C50_underflow`, `C53_repeated`, `C57_lookup`, `C57_roundtrip`, `C57_key_types`, `C57_lit_via_var`, `C66_counted`, `C66_counted`, `C69_counted`, `Heap.C70_counted`, `C71_counted`, `C73_counted`, `C78_counted`, `Transparent.C79_accepted`, `Transparent.C79_contract`, `Transparent.C79_back`, `Transparent.C79_single`, `Transparent.C79_crate`, `Transparent.C79_align_false`, `C80_counted`, `C83_counts`, `C92_sum`, `C96_exchange`, `C96_files`, `PtrScan.C101_zero`, `PtrScan.C101_false`, `C102_safe`, `C102_all`, `C102_unchecked`, `C102_unchecked_false`, `C102_select_other`, `C104_counted`, `C105_same`, `C108_same`.
* `[propext]`: `Transparent.C79_into`.

## Findings: where the code and the properties disagree

For each of these the negation is proved with a concrete witness, and a `_partial` theorem says what does
hold.

1. **C14** `Heap::dequeue` (heap.rs) moves the key that replaces the removed one towards the leaves when its
   value is *larger*, and towards the root when it is smaller, which is the wrong way around; afterwards `pop_max` can
   return a key that is not maximal. The solver itself never calls `dequeue`.
2. **C20** deleting an already deleted clause counts its header words as garbage a second time. The
   solver never does that (C28 shows that only live clauses are deleted).
3. **C22** `LongHeader::shrink_clause` (prop/long.rs) compares `search_pos` with the new length, although
   positions count from the third literal; a position of `new_len - 2` or `new_len - 1` survives and points past the
   end, and the next propagation through the clause would slice out of bounds. The solver never shrinks clauses.
4. **C37** the CLI exits with 20 for satisfiable *and* unsatisfiable formulas.
5. **C40** `add_clause` after a `solve()` that returned true is unsound in both directions: unit clauses are pushed
   on the trail at level 0 above decisions, and new clauses may be falsified or unit without being noticed. Adding clauses
   is safe when, for each of the first two literals that is false, the clause has a true literal of the same or a lower level
   (`C40_history_partial`); in particular when `value()` is not false for the first two literals (`C40_safe_value`).
6. **C19** `ClauseRefGcMap` stores offsets as `u32`, but a buffer can grow past 2^32 words (only the *start* of a clause
   must be below 2^32). Then the end of the last gap is truncated, and `update` returns a reference for a deleted clause
   (`C19_false_big`). In the solver model such a collection is `Err.tooBig`.
7. **C50, C53** adding the same unit clause twice pushes its literal on the trail twice (the debug assertion in trail.rs:234
   fails) and counts two fixed variables, so `report` (report.rs:27-33) computes `vars - fixed_vars` with a negative
   result: a panic with overflow checks, 18446744073709551615 without. Each copy is also propagated again, so propagation of
   k copies takes k times the time of one (`C69_repeated`); otherwise propagation is linear (C69).
8. **C73** `should_collect_garbage` (clause_arena.rs:525-527) compares `garbage * 2 >= buffer.len()`, which is true of an
   empty arena. As long as no clause of three or more literals is stored, every search step runs a collection
   that visits the whole trail and all watch lists: deciding n variables then takes quadratic time. A `>` instead of
   the `>=` would avoid it. With a long input clause there is at most one collection per reduction (`C73_run_partial`).
9. **C101** `MutScan` is generic, but a scan over items of size zero visits none of them (the read pointer starts at the end)
   and panics when it is dropped, since `offset_from` (mut_scan.rs:120) panics for such types; the vector is left with length
   zero (`C101_zero`). The solver scans watches of eight bytes only.
10. **C103** the log macros drop the name of an argument whose value is a string literal (`info!(ctx, mode = "fast")` prints
   `c fast`): log.rs:48-57 returns a message for every string literal, also after a name was parsed. An argument such as `a == b`
   is parsed as the name `a` and an expression that starts with `=`, so it is rejected unless it is put in parentheses. No call in
   the repository has such arguments.

Further observations, recorded in the statements:

* `set_glue`, `set_used` and `set_search_pos` truncate with `as u32` before or after clamping; C21 states the ranges in
  which reading back works.
* `stats.prop.propagations` is documented as the total number of propagated assignments (prop.rs:45), but calls of
  `propagate()` that end in a conflict count none of theirs (`C50_propagations`).
* A recomputed glue value replaces the old one even when it is larger (conflict_analysis.rs, `bump_long_clause`).
* A progress report has the label `red:` twice, for reductions and for redundant clauses (report.rs:13, 21): only the order tells them
  apart (`C100_report_line`).
* `add_clause` does not remove repeated literals. Propagation then misses some units of such clauses (C08
  has the second part for clauses without repetition only), but answers are correct.
* The empty clause is not written to the proof on UNSAT: checkers that require it would reject. C05 proves that it is
  RUP at the end, which `drat-trim` accepts.
* Calling `solve()` again after UNSAT can reduce the database before noticing `unsat`, so only a prefix of the log is
  guaranteed to be refuted by unit propagation.
* `write_proof` after clauses have been learned starts the log in the middle; C05/C06 need a writer from the start (C96: the file of a
  second writer alone need not be a proof, `C96_example`).
* `derive(Bitfield)` accepts a `clamp` entry whose signed access type has at most as many bits as the entry; the largest value, cast with `as`, is then -1, and `value.clamp(0, -1)` panics for every value (`C77_clamp_false`). No declaration of the crate is of this kind.
* `derive(Transparent)` accepts a struct whose alignment is larger than that of its storage, such as `#[repr(C)] struct H([HeaderWord; 2], [u64; 0])`; `from_storage_unchecked`, and with such a header the safe functions `header` and `header_mut` of the clause arena, then make unaligned references (`C79_align_false`). No struct of the crate is of this kind. For a struct with a `where` clause the macro writes the word `where` twice, which does not compile.

## Properties

### C01 — UNSAT answers are correct (proved)

* Theorems: `C01_unsat_correct`, `C01_fresh` in `Props/Solver.lean`.
* Modelled: whole solver
* Proof: invariant over all API calls and steps: every stored clause is RUP in the proof clause set, learned clauses are RUP; UNSAT only with a conflict at level 0

### C02 — SAT answers come with a satisfying assignment (proved)

* Theorems: `C02_sat_correct`, `C02_fresh` in `Props/Solver.lean`.
* Modelled: whole solver
* Proof: watch invariant: at a fixpoint no stored clause is falsified, all variables are assigned, so every clause has a true literal

### C03 — solve() terminates (proved)

* Theorems: `C03_terminates`, `C03_resume` in `Props/Termination.lean`.
* Modelled: whole solver
* Proof: between two restarts the vector of level sizes grows lexicographically, which bounds the number of steps by a function of the number of variables; the Luby sequence is unbounded, so some interval is long enough

### C04 — The solver never panics (proved)

* Theorems: `C04_no_panic`, `C04_add_no_panic`, `C04_value_no_panic` in `Props/Solver.lean`.
* Modelled: whole solver
* Proof: `Wp` rules out every error other than a full arena and `tooBig`
* Limits: overflow checks of additions are not modelled; that counters do not overflow is C64; debug assertions and subtractions are modelled, see C53 and C56

### C05 — DRAT proofs are accepted (proved)

* Theorems: `C05_additions_rup`, `C05_refuted` in `Props/Solver.lean`.
* Modelled: whole solver and proof log
* Proof: log invariant: each logged clause is RUP with respect to the clause set at that point (`Spec.lean`); the stored clauses are a subset of it
* Limits: log attached before the first clause is learned

### C06 — Proof deletions name clauses that are present and learned (proved)

* Theorems: `C06_deletions` in `Props/Solver.lean`.
* Modelled: whole solver and proof log
* Proof: log invariant with multisets of clauses

### C07 — Unit propagation only assigns consequences (proved)

* Theorems: `C07_reasons`, `C07_implied` in `Props/Propagation.lean`.
* Modelled: propagate
* Proof: loop invariants; reasons are read back through the data structures (`Stored`)

### C08 — Unit propagation misses nothing (proved)

* Theorems: `C08_complete` in `Props/Propagation.lean`.
* Modelled: propagate
* Proof: watch invariant at the fixpoint
* Limits: second part needs duplicate-free clauses (the code misses units of others)

### C09 — Reported conflicts are real (proved)

* Theorems: `C09_conflict` in `Props/Propagation.lean`.
* Modelled: propagate
* Proof: loop invariants

### C10 — Conflict analysis learns an asserting clause (proved)

* Theorems: `C10_asserting` in `Props/Analysis.lean`.
* Modelled: analyze_conflict
* Proof: traversal invariant: flagged trail positions form a cut of the implication graph

### C11 — Clause minimisation is sound (proved)

* Theorems: `C11_minimize` in `Props/Analysis.lean`.
* Modelled: minimize
* Proof: cache invariant: a literal cached as redundant follows by unit propagation from the clause literals

### C12 — Backtracking undoes exactly the higher levels (proved)

* Theorems: `C12_backtrack` in `Props/Analysis.lean`.
* Modelled: backtrack
* Proof: loop over the undone suffix of the trail

### C13 — Decisions are made on unassigned variables, and SAT is only reported when none is left (proved)

* Theorems: `C13_decision`, `C13_max` in `Props/Analysis.lean`.
* Modelled: vsids and heap
* Proof: all unassigned variables are enqueued
* Limits: maximality (`C13_max`) for monotone arithmetic, which C41 shows for IEEE

### C14 — The decision heap returns a maximum (partial)

* Theorems: `C14_false`, `C14_pop_max_partial` in `Props/Heap.lean`.
* Modelled: heap arrays
* Proof: heap order invariant
* Limits: false for histories with `dequeue`: counterexample `C14_false`

### C15 — The heap behaves like a set of keys with values (proved)

* Theorems: `C15_set_semantics` in `Props/Heap.lean`.
* Modelled: heap arrays
* Proof: inverse-permutation invariant, refinement to a finite set

### C16 — The clause arena is a faithful clause store (proved)

* Theorems: `C16_faithful_store` in `Props/Arena.lean`.
* Modelled: arena words
* Proof: block decomposition of the buffer; refinement to a list of entries

### C17 — Arena iteration visits exactly the live clauses (proved)

* Theorems: `C17_iteration` in `Props/Arena.lean`.
* Modelled: arena words
* Proof: block decomposition

### C18 — Invalid clause references panic instead of reading out of bounds (proved)

* Theorems: `C18_no_undefined_behaviour`, `C18_invalid_refs_panic` in `Props/Arena.lean`.
* Modelled: arena words
* Proof: every access is checked against the buffer in the model; a marker bit protects references into the middle of a clause

### C19 — Garbage collection keeps live clauses and remaps references (partial)

* Theorems: `C19_garbage_collection_partial`, `C19_false_big` in `Props/Arena.lean`, `Props/BigArena.lean`.
* Modelled: arena words
* Proof: in-place compaction and the run-length map, by induction over blocks
* Limits: false for buffers of 2^32 or more words: counterexample `C19_false_big`

### C20 — Arena utilisation accounting is exact (partial)

* Theorems: `C20_false`, `C20_utilization_partial` in `Props/Arena.lean`.
* Modelled: arena words
* Proof: word count of live blocks
* Limits: false with double deletion: counterexample `C20_false`

### C21 — Clause header fields are independent and saturate (proved)

* Theorems: `C21_header_fields`, `C21_new_headers` in `Props/Words.lean`.
* Modelled: header words
* Proof: bit arithmetic

### C22 — Shrinking a clause keeps its search position valid (partial)

* Theorems: `C22_false`, `C22_shrink_search_pos_partial` in `Props/Words.lean`.
* Modelled: header words
* Proof: exact condition under which the position stays valid
* Limits: false: counterexample `C22_false`

### C23 — PartialAssignment is a map from variables to optional Booleans (proved)

* Theorems: `C23_refines_map` in `Props/Words.lean`.
* Modelled: value bytes
* Proof: refinement to a map over arbitrary histories

### C24 — Literal encodings round-trip (proved)

* Theorems: `C24_code_roundtrip`, `C24_index_roundtrip`, `C24_dimacs_roundtrip`, `C24_negation`, `C24_select_other`, `C24_injective` in `Props/Words.lean`.
* Modelled: literal words
* Proof: bit arithmetic

### C25 — Binary DRAT output decodes to the logged steps (proved)

* Theorems: `C25_binary_drat` in `Props/Drat.lean`.
* Modelled: byte writers
* Proof: round trip through an independent decoder

### C26 — Text DRAT output decodes to the logged steps (proved)

* Theorems: `C26_text_drat` in `Props/Drat.lean`.
* Modelled: byte writers
* Proof: round trip through an independent parser

### C27 — advance() yields the Luby sequence (proved)

* Theorems: `C27_luby` in `Props/Luby.lean`.
* Modelled: 64-bit counters
* Proof: self-similar specification of the sequence; invariant of the two counters
* Limits: n < 2^63

### C28 — Reduction deletes only expendable clauses (proved)

* Theorems: `C28_reduce` in `Props/Database.lean`.
* Modelled: reduce
* Proof: selection by order statistics for every result allowed by `select_nth_unstable`

### C29 — Garbage collection is invisible to the search (proved)

* Theorems: `C29_garbage_collection`, `C29_collect_garbage` in `Props/Database.lean`.
* Modelled: gc in the propagation state
* Proof: renaming of references

### C30 — Reduction scores order lexicographically (proved)

* Theorems: `C30_score_order`, `C30_bitfield_accessors` in `Props/Score.lean`.
* Modelled: `Bitfield`, `Score`
* Proof: order lemmas on shifted fields

### C31 — compute_glue counts decision levels (proved)

* Theorems: `C31_compute_glue`, `C31_reachable` in `Props/Analysis.lean`.
* Modelled: glue
* Proof: mark and clear loops

### C32 — MutScan keeps exactly the kept items in order (proved)

* Theorems: `C32_mut_scan`, `C32_items`, `C32_leak` in `Props/MutScan.lean`.
* Modelled: buffer cells
* Proof: invariant of the gap between kept and unvisited items; also for a leaked scan

### C33 — Watch lists mirror the clauses (proved)

* Theorems: `C33_watch_lists`, `C33_rebuild` in `Props/Database.lean`.
* Modelled: watches
* Proof: structural invariant of the watch lists

### C34 — Restarts lose nothing but the search position (proved)

* Theorems: `C34_restart` in `Props/Runs.lean`.
* Modelled: restart
* Proof: backtracking to level 0 (C12)

### C35 — Formula statistics are exact (proved)

* Theorems: `C35_formula_stats` in `Props/Database.lean`.
* Modelled: stats
* Proof: invariant of runs

### C36 — Restarts follow the Luby schedule (proved)

* Theorems: `C36_restart_schedule` in `Props/Runs.lean`.
* Modelled: schedule
* Proof: induction over runs, with C27
* Limits: first 2^63 restarts

### C37 — CLI output reports the model (partial)

* Theorems: `C37_cli_output_partial`, `C37_false` in `Props/Cli.lean`.
* Modelled: cli
* Proof: line breaking loop
* Limits: exit code part is false: `C37_false`

### C38 — The answer depends only on the set of clauses (proved)

* Theorems: `C38_order_independent` in `Props/Solver.lean`.
* Modelled: solver
* Proof: corollary of C01 and C02

### C39 — Proof logging does not influence solving (proved)

* Theorems: `C39_logging_irrelevant`, `C39_fresh`, `C39_value` in `Props/Logging.lean`.
* Modelled: solver
* Proof: simulation between runs with and without a writer

### C40 — Incremental solving is correct (partial)

* Theorems: `C40_false`, `C40_false_sat`, `C40_add_then_solve_partial`, `C40_incremental_partial`, `C40_history_partial`, `C40_safe_input`, `C40_safe_value` in `Props/Incremental.lean`, `Props/Solver.lean`.
* Modelled: solver
* Proof: the invariant of C01/C02 is kept by adding a clause under `SafeAdd`; induction over histories of calls
* Limits: false without `SafeAdd`: two counterexamples

### C41 — Activity bits order like activities (proved)

* Theorems: `C41_order`, `C41_rounding`, `C41_constants`, `C41_range`, `C41_strict`, `C41_decision` in `Props/Activity.lean`.
* Modelled: `f32` bit patterns, whole solver
* Proof: order isomorphism between bits and values; rounding lemmas; invariant over runs

### C42 — Top-level assignments are permanent (proved)

* Theorems: `C42_top_level` in `Props/Runs.lean`.
* Modelled: solver
* Proof: level-0 prefix of the trail

### C43 — Phase saving (proved)

* Theorems: `C43_phases`, `C43_decisions` in `Props/Runs.lean`.
* Modelled: phases
* Proof: invariant relating phases to the last undone polarity

### C44 — Log level filtering (proved)

* Theorems: `C44_log_filtering`, `C44_cli_flags`, `C44_log_line` in `Props/Cli.lean`.
* Modelled: log, cli
* Proof: case analysis and list lemmas

### C45 — Preparing an unminimised clause for backtracking (proved)

* Theorems: `C45_prepare`, `C45_plain` in `Props/Analysis.lean`.
* Modelled: dead branch of analyze_conflict
* Proof: loop invariant for the maximum; the rest is shared with C10

### C46 — Reductions follow the square-root schedule (proved)

* Theorems: `C46_interval`, `C46_schedule`, `C46_reductions`, `C46_covers` in `Props/Schedule.lean`.
* Modelled: `f64` bit patterns, schedule
* Proof: 4000000*i is not a square or its root is exact; the rounding error is smaller than the distance to the next integer
* Limits: i < 2^26

### C47 — A conflict bumps exactly the involved variables, once each (proved)

* Theorems: `C47_conflict`, `C47_unique`, `C47_other`, `C47_start` in `Props/Activity.lean`.
* Modelled: vsids, conflict analysis
* Proof: ghost list of bumped variables; the set is specified by a recursion through reasons that does not use the flags

### C48 — Activities represent the documented VSIDS scores (proved)

* Theorems: `C48_score`, `C48_decision`, `C48_conflicts` in `Props/Activity.lean`.
* Modelled: `f32` bit patterns, whole solver
* Proof: error recurrence: each operation has relative error 2^-24, decay makes the accumulated error geometric

### C49 — Minimisation removes every redundant literal and no other (proved)

* Theorems: `C49_minimal` in `Props/Analysis.lean`.
* Modelled: minimize
* Proof: the cache invariant is an equivalence: an entry is true iff the literal follows from the retained literals (`Recorded`); literals are visited in trail order, and a literal needs a retained literal of its own level not later on the trail, because a reason always has another literal of the same level (from the watch invariants)

### C50 — Progress reports count the fixed variables (partial)

* Theorems: `C50_report_partial`, `C50_propagations`, `C50_underflow` in `Props/Stats.lean`.
* Modelled: report, propagate, long-clause propagation, decisions
* Proof: the invariant `FixedInv` equates the counter with the number of propagated top-level steps, which are distinct because only unit clauses of the input can repeat a literal
* Limits: the negation `C50_underflow` is proved for the formula with a unit clause twice

### C51 — Conflicts update glue and usage of exactly the clauses they are derived from (proved)

* Theorems: `C51_headers` in `Props/Headers.lean`.
* Modelled: bump_long_clause, compute_glue, derive_1uip_clause, backtrack_and_learn
* Proof: the specification of each function gives the list of stored clauses after it exactly (`bumpS`); a clause is bumped once because trail steps have different reasons (`UsedRefs.fresh`)

### C52 — The command line program as a whole is right (proved)

* Theorems: `C52_cli_right`, `C52_cli_finishes` in `Props/EndToEnd.lean`.
* Modelled: main after parsing: proof writer, from_dimacs of the literals, add_clause, solve, model lines, proof file
* Proof: C01, C02, C03, C04, the log invariant of C05 and the round trips C24–C26; `Checker.lean` is an executable forward RUP checker on DIMACS numbers, proved sound (`check_sound`) and complete for accepted logs (`check_complete`)
* Limits: the DIMACS parser itself, clap and I/O errors are outside the model; the exit code for satisfiable formulas is the subject of C37

### C53 — No debug assertion ever fails (partial)

* Theorems: `C53_solve`, `C53_add`, `C53_formula_partial`, `C53_repeated` in `Props/Debug.lean`.
* Modelled: all debug assertions of trail.rs, watch.rs, select_other, ClauseRefMap::update and learn_and_assign, as checks that fail with `Err.debug`
* Proof: the weakest preconditions of all functions exclude `Err.debug`, so every function specification of the invariant proof shows its assertions; the trail before the search has exactly the first unit clause of each variable (`Input.firstUnit`)
* Limits: the negation `C53_repeated` is proved for the formula with a unit clause twice

### C54 — The clause arena is never more than half garbage when propagation starts (proved)

* Theorems: `C54_utilization`, `C54_bound` in `Props/Memory.lean`.
* Modelled: clause arena with its garbage counter, collect_garbage of the propagation state
* Proof: the representation invariant of the arena (`LRepB.acct`) has the exact value of the counter; only live clauses are deleted

### C55 — The search counters count what happened (proved)

* Theorems: `C55_step`, `C55_restart`, `C55_reduce`, `C55_run` in `Props/Counters.lean`.
* Modelled: search_step, restart, reduce, the schedule and the proof log
* Proof: `StepKind` describes the four things a step can do; the run theorem is an induction over the run

### C56 — Trail positions and decision levels fit into 32 bits, and subtractions do not underflow (proved)

* Theorems: `C56_range`, `C56_u32`, `C53_solve` in `Props/Debug.lean`, `Props/Range.lean`.
* Modelled: trail, arena, propagation, analysis and reduction with checked subtractions
* Proof: apart from the first entries, as many as there are unit clauses, no variable is twice on the trail (`FixedInv.nodup`); the checks are part of the functions, whose specifications exclude `Err.debug`

### C57 — Iterating over the keys of a VecMap visits every key in order from both ends (proved)

* Theorems: `C57_keys`, `C57_lookup`, `C57_roundtrip`, `C57_key_types`, `C57_lit_via_var` in `Props/VecMap.lean`.
* Modelled: util/vec_map.rs with the five key types; the iterator of `Range<usize>` as in the standard library
* Proof: the state of the iterator is a segment of the list of keys (`VecMapC57.Rep`); induction over the calls
* Limits: keys of `DecisionLevel` and `TrailIndex` wrap silently in maps of more than 2^32 values; C56 shows the solver has none

### C58 — solve() never fails while the clause arena has fewer than 2^32 words (proved)

* Theorems: `C58_step`, `C58_solve`, `C58_cause`, `C58_needed`, `C58_add`, `C58_addClauses`, `C58_total` in `Props/Capacity.lean`.
* Modelled: all of solve and add_clause
* Proof: a second program logic (`Fit`) that excludes only the two capacity errors runs next to the weakest preconditions of the other properties; the length of the trail plus the number of unassigned variables does not grow during propagation, and the arena only grows when a clause is learned

### C59 — Every learned clause is new (proved)

* Theorems: `C59_new`, `C59_conflict`, `C59_distinct`, `C59_literals` in `Props/Fresh.lean`.
* Modelled: propagation, conflict analysis, minimisation, learning, reduction, restarts and the proof log
* Proof: all literals of the learned clause but one were falsified below the conflict level, where propagation was complete, so the watch invariants give every contained clause a true literal; induction over the run for the log (`FreshInv`)
* Limits: a clause of the formula in which a literal is repeated is watched by its first two literals even if these are the same, so it does not propagate and a learned clause can contain it (`C59_repeated`)

### C60 — Decisions, propagations and iterations are bounded by the number of conflicts (proved)

* Theorems: `C60_effort`, `C60_iterations`, `C60_bound` in `Props/Effort.lean`.
* Modelled: search, propagation counters, restart schedule
* Proof: decisions minus the current level, and propagations minus the propagated part of the trail, grow by at most n per conflict or restart (`Effort`); above the top level no variable is twice on the trail; induction over the run

### C61 — The proof file of an incremental run is a proof (proved)

* Theorems: `C61_log`, `C61_file`, `C61_append`, `C61_refuted`, `C61_refuted_first` in `Props/IncrementalProof.lean`.
* Modelled: solver, proof log, DRAT writers
* Proof: a log stays accepted when the formula grows (`Accepted.grow`); unsatisfiability noticed while adding a clause is read off the top level of the trail (`Shown`), whose reasons are never deleted, so unit propagation finds it in the last clause set
* Limits: clauses added in other states: then answers can be wrong (C40)

### C62 — Conflict analysis stops at the first unique implication point (proved)

* Theorems: `C62_first`, `C62_clause`, `C62_learned`, `C62_decision` in `Props/FirstUip.lean`.
* Modelled: derive_1uip_clause, minimize and the propagation state
* Proof: the loop counts the literals of the conflict level that are left (`CountInv`), so when it goes on there is another involved one further down (`Passed`), and when it stops there is none (`FirstUip`); a reason has a literal of the level of the implied one (`PInv.reason_level`), so every such literal is reached from the decision

### C63 — The solver and the proof checker have the same clauses (proved)

* Theorems: `C63_long`, `C63_binary`, `C63_unit`, `C63_same` in `Props/Sync.lean`.
* Modelled: solver, arena, lists of binary clauses, trail and proof log
* Proof: the balance of the accepted log gives the learned clauses of the invariant (`learned_of_log`); the arena part is read off `DBInv.red` and `DBInv.irr`; the lists of binary clauses have their own invariant with multiplicities (`BinExact`), kept by induction over the run
* Limits: a unit clause that the solver knows already is not stored a second time, so for unit clauses there are no multiplicities

### C64 — No 64-bit counter overflows (proved)

* Theorems: `C64_bounds`, `C64_u64`, `C64_any` in `Props/Overflow.lean`.
* Modelled: all of solve(); counters as natural numbers
* Proof: C60 for decisions, propagations and restarts; the number of learned clauses is at most the number of conflicts (`learnedCard`); the Luby state is the one after as many terms as there were restarts, and the reduction threshold is the sum of the intervals (`ScheduleInv`), of which those from 2^24 to 2^25 alone have more than 2^46 conflicts
* Limits: incremental use is not covered; indices are the subject of C56 and C58

### C65 — The trail is the implication graph its documentation describes (proved)

* Theorems: `C65_graph` in `Props/Graph.lean`.
* Modelled: trail, assignment, reasons and clause storage, in every state of the run
* Proof: read off the invariant of the propagation state (`PInv`), whose trail part gives order, decisions and index; `reason_level` and `reason_db` give level and clause of each reason
* Limits: at the top level a literal can be on the trail twice (C50), then the step found is one of the two

### C66 — Clause minimisation takes linear time (proved)

* Theorems: `C66_linear`, `C66_counted` in `Props/Linear.lean`.
* Modelled: minimize.rs with a counter and the recursion limit as a parameter (Props/Linear.lean)
* Proof: each uncached literal holds a credit of twice the length of its reason plus three (`potential`), spent when its result is cached; every check of a literal only visits earlier literals, so its own credit is untouched until then (`Spent`); erasing the counter gives the model functions
* Limits: sorting the clause and resizing the buffers count nothing, they are done by the standard library; the first `prepare` of a run fills the buffers once

### C67 — The recursion limit of clause minimisation does not matter (proved)

* Theorems: `C67_limit`, `C66_counted` in `Props/Linear.lean`.
* Modelled: as C66
* Proof: both versions are compared with a recursive search without a limit (`redundantFull`): the stack of the iterative search is the list of its unfinished calls (`finishFrames`); the caches agree and the lists of cache entries to clean are permutations of each other (`Same`)

### C68 — A known model is found again without conflicts (proved)

* Theorems: `C68_guided`, `C68_again`, `C68_false` in `Props/Guided.lean`.
* Modelled: all of solve(), phases, trail and schedule
* Proof: a propagated literal is true in the model because its reason is implied by the formula and its other literals are false (`PInv.trail_sat`), so no clause is falsified; restarts save the phases of what they undo; each iteration raises the level by one, and the second call finds no unassigned variable
* Limits: the errors of C58 (full clause arena) are outside the statement

### C69 — Unit propagation takes linear time (proved)

* Theorems: `C69_linear`, `C69_every`, `C69_counted` in `Props/PropLinear.lean`, `Props/PropRepeat.lean`.
* Modelled: unit_prop.rs with a counter (Props/PropLinear.lean)
* Proof: each clause holds a potential (`LC.pot`): literals that are not yet in the run of false literals behind the search position, two for each unwatched literal that is not false, and one last search unless a watched literal is true; each watch of a literal not yet processed holds two and each binary clause one; every step is paid by a drop (`visitWatchT_cost`, `propagateLoopT_cost`); erasing the counter gives the model functions
* Limits: growing a watch list and taking or putting back a list count nothing; repeated unit clauses of the formula are propagated once per copy (`C69_repeated`), which `C69_every` (Props/PropRepeat.lean) counts: a literal that was processed before gets its watches back for one more walk

### C70 — Operations of the decision heap take logarithmic time (proved)

* Theorems: `C70_enqueue`, `C70_increase`, `C70_popMax`, `C70_dequeue`, `C70_counted` in `Props/HeapCost.lean`.
* Modelled: heap.rs with a counter (Props/HeapCost.lean)
* Proof: the parent of position p + 1 (counted from one) is its half, the children its double, so each iteration lowers or raises the logarithm of the position by one; erasing the counter gives the model functions

### C71 — Conflict analysis takes linear time up to the logarithm for the heap (proved)

* Theorems: `C71_linear`, `C71_counted` in `Props/AnalysisCost.lean`.
* Modelled: conflict_analysis.rs, the heap and backtrack_to_level with counters (Props/AnalysisCost.lean)
* Proof: each trail entry is resolved at most once, with a cost linear in its reason (`uipLoopT_le`), and header changes keep the lengths of reasons (`OnlyHeaders.graphBelow`); C66 bounds minimisation and C70 each heap operation, in a heap of at most n variables (`WF.length_le`); erasing the counters gives the model functions
* Limits: the loops of compute_glue, of logging and of copying the learned clause are counted by the length of the clause; debug assertions count nothing

### C72 — Scores are rescaled at most once per conflict and in 1600 conflicts (proved)

* Theorems: `C72_once`, `C72_run`, `C72_stretch`, `C72_numbers` in `Props/Rescale.lean`.
* Modelled: as C71, with the `f32` arithmetic of C41
* Proof: the increment after a conflict is the old one, rescaled as often as counted and multiplied once by 1/0.95 (`analyzeConflictT_inc`); it stays between 1/32 and the limit (C41), so it cannot be rescaled twice, and over a run the product of the factors is bounded (`Solver.Rescalings.inc`, `Score32.rate_pow`)

### C73 — Garbage collection pays for itself (partial)

* Theorems: `C73_run_partial`, `C73_counted`, `C73_numbers`, `C73_steps`, `C73_every_step`, `C73_false` in `Props/GcCost.lean`.
* Modelled: the collector, its callers and the reductions, with counters (Props/GcCost.lean)
* Proof: only reductions create garbage and only collections remove it; a collection needs at least half of the arena to be garbage, the counter is exact (C54), and an input clause keeps the arena from being empty; erasing the counters gives the model functions
* Limits: negation for formulas of unit and binary clauses: the arena is empty, so that its garbage, zero, is at least the half (`C73_every_step`, `C73_false`)

### C74 — Runs do not depend on the order that the partition leaves (proved)

* Theorems: `C74_order`, `C74_reduce`, `C74_run` in `Props/Order.lean`.
* Modelled: all of solve(), with and without a proof writer
* Proof: deleting a clause overwrites two words of its own block (`Order.delete_del`), and blocks of different clauses are disjoint (`Order.at_apart`), so deletions commute (`Order.del_comm`); nothing else uses the order (`Order.searchStep_reorder`); C39 gives the steps without the proof, and each search step appends a line determined by them (`Order.searchStep_line`)

### C75 — Propagation computes the closure under unit propagation (proved)

* Theorems: `C75_conflict`, `C75_sound`, `C75_complete`, `C75_determined` in `Props/Closure.lean`.
* Modelled: propagate() in every state of the run, the trail and the proof log
* Proof: trail literals follow from decisions by the invariant (`PInv.implied`); every clause of the checker is stored when propagate() is called, or a unit clause on the trail (`Solver.Propagating.checker`, from C59 and C63); a stored clause that is neither satisfied nor has two unassigned positions does not exist (`C08_pair`), so induction over the derivation never leaves the assigned literals
* Limits: clauses are taken with the repetitions that they have in the formula: `C75_repeated` shows that a literal which occurs twice in a clause is not propagated

### C76 — No answer without the whole proof in the file (proved)

* Theorems: `C76_answer`, `C76_failure`, `C76_no_overwrite`, `C76_success` in `Props/Io.lean`.
* Modelled: main with its files (Solver/MainIO.lean): the calls of write_all_defer_err one by one, the buffer of flussab::DeferredWriter, close_proof, creation of the proof file, errors of the parser
* Proof: invariant of the writer (`DeferredWriter.Holds`): without an error file and buffer hold all bytes, with one the file holds a beginning; close_proof succeeds only without an error and with an empty buffer; then the outcome is that of `Cli.main` and C52 applies
* Limits: `flussab` is modelled after its documentation; `File` is taken to report errors in `write_all`, not later when it is closed; panics (C58) are outside

### C77 — derive_bitfield gives every entry its own bits (proved)

* Theorems: `C77_accepted`, `C77_layout`, `C77_disjoint`, `C77_get`, `C77_set`, `C77_panic`, `C77_roundtrip`, `C77_order`, `C77_score`, `C77_clamp_false` in `Props/BitfieldMacro.lean`.
* Modelled: derive_bitfield of starlit-macros/src/bitfield.rs as a function from declarations to accessors (BitfieldMacro.lean)
* Proof: induction over the entries with the running offset; the arithmetic of masks and shifts is that of division and remainder by powers of two (`part`)
* Limits: names, visibility and doc comments of a declaration are omitted; `C77_clamp_false`: `8 clamp => x: i8` is accepted and its setter panics for every value

### C78 — Taking variables out of the decision heap is paid for by assignments taken back (proved)

* Theorems: `C78_run`, `C78_bound`, `C78_counted` in `Props/DecisionCost.lean`.
* Modelled: pop_decision_var with counters, and the runs with their sums (Props/DecisionCost.lean)
* Proof: only backtracking queues variables, at most one per assignment undone (`res_undoLoop`); the learned step is the first that differs from the old trail, since a decision was there (`commonPrefix_le`); C70 bounds each pop_max; erasing the counters gives the model functions and every run has counts

### C79 — derive(Transparent) fulfils the contract of the unsafe trait (proved)

* Theorems: `C79_accepted`, `C79_contract`, `C79_into`, `C79_back`, `C79_single`, `C79_crate`, `C79_align_false` in `Props/Transparent.lean`.
* Modelled: derive_transparent of starlit-macros/src/transparent.rs as a function from declarations to storage types, types as size, alignment and valid byte strings (TransparentMacro.lean)
* Proof: the layout of `repr(C)` structs: if the struct is as large as its first field, all others are empty and behind it (`offsets_empty`), so the bytes of the struct are those of the field (`structC_valid`)
* Limits: generics by their instances; structs with a `where` clause are outside (the generated code does not compile); lifetimes and aliasing are not modelled; `C79_align_false` is the alignment of empty fields

### C80 — The work of a reduction is linear in trail and arena (proved)

* Theorems: `C80_linear`, `C80_counted` in `Props/ReduceCost.lean`.
* Modelled: reduce with counters (Props/ReduceCost.lean)
* Proof: each search for the next clause starts behind the clause found before, which is where it was found (`nextT_le`, from `Arena.clauseLen_ok`); every deletion adds its length and header to the garbage, which is at most the arena (`deleteLoopT_le`, `LRep.needed`); erasing the counters gives the model functions
* Limits: `select_nth_unstable` is counted by the length of its argument

### C81 — Horn formulas are solved by unit propagation (proved)

* Theorems: `C81_horn` in `Props/Horn.lean`.
* Modelled: all of solve() and the values
* Proof: after propagation without a conflict at the top level, the assignment that makes only the assigned positive literals true satisfies every clause, since a clause without a true literal has two unassigned positions and so a negative one (`horn_model`), and it is below every model (`least_of_top`); from then on all decisions and implied literals agree with it (`Follows` of C68), so no conflict occurs

### C82 — Formulas with binary clauses are solved in quadratic time (proved)

* Theorems: `C82_unit`, `C82_conflicts`, `C82_quadratic` in `Props/TwoSat.lean`.
* Modelled: all of solve() and the proof log
* Proof: a binary clause with a literal that was processed earlier is satisfied (`PInv.bsat`), so both literals of a conflict are of the current level (`binary_conflict`), and reasons with one other literal stay in their level (`PInv.reason_level`); so the learned clause has no literal of a lower level (`two_unit`); each learned clause assigns a new variable at the top level (`TwoInv`); C60 bounds the iterations between conflicts

### C83 — All the work of solve() is polynomial in the formula and the number of conflicts (proved)

* Theorems: `C83_total`, `C83_every`, `C83_counts`, `C83_two`, `C83_horn`, `C83_two_every`, `C83_horn_every` in `Props/SolveCost.lean`, `Props/SolveEvery.lean`.
* Modelled: all of solve() with one counter for loops and one for rescales (Props/SolveCost.lean, Props/GcScan.lean)
* Proof: watch lists have at most two entries for each clause added, since visiting a list moves entries and collections drop them, and the arena grows by the clauses added (`Grow`, `Solver.Reachable.sizes`); each clause is the reason of at most one literal, so the implication graph is at most the trail and the arena (`graphSize_le`); these sizes bound C69, C71, C78, C80 and garbage collections for one iteration (`scheduleStepT_le`); C60 bounds the iterations; erasing the counters gives the model functions
* Limits: `C83_total` excludes repeated unit clauses; `C83_every` (Props/SolveEvery.lean) has a larger bound without this condition, in which a clause may be the reason of repeated literals; `select_nth_unstable` is counted by the length of its argument; writing of reports and of the proof is not counted except for the literals of deleted clauses

### C84 — Runs of solve() are resolution proofs (proved)

* Theorems: `C84_refutation`, `C84_learned`, `C84_conflicts` in `Props/ResolutionRun.lean`.
* Modelled: all of solve(); resolution is specified on sets of literals, independent of the solver (Resolution.lean)
* Proof: every learned clause passes the check by unit propagation (C39 adds a log to a run without one, `Solver.Input.logged`; `solve_log`); the order in which unit propagation assigns literals is a list with each variable once, and resolving backwards along it derives a part of the clause in at most one step per variable (`UpSeq.resolve`, `UpConflict.derive`)

### C85 — Pigeonhole formulas need exponentially many conflicts (proved)

* Theorems: `C85_pigeons`, `C85_exponential`, `C85_never` in `Props/PigeonRun.lean`.
* Modelled: as C84, and the pigeonhole formulas as DIMACS literals
* Proof: the lower bound of Beame and Pitassi for every resolution refutation (Pigeons.lean): clauses are evaluated under assignments that match pigeons with holes, with all other variables of a hole determined; matching the pair that occurs in most of the large clauses removes a tenth of them (`exists_matching`), and each refutation has a clause that is large (`exists_large`); C84 transfers the bound to conflicts

### C86 — Learned clauses are new for unit propagation (proved)

* Theorems: `C86_empower`, `C86_conflict`, `C86_new` in `Props/Empower.lean`.
* Modelled: propagate() and analyze_conflict in every state of the run, the proof log
* Proof: after propagation without conflict the literals of the trail below the current level are closed under unit propagation with all known clauses (`PInv.closed_below`, `Solver.Propagating.closed_below`); the learned clause has only one literal of the current level (`Asserting.on_trail`), so its negated other literals derive neither this one nor a conflict

### C87 — solve() answers after at most exponentially many conflicts (proved)

* Theorems: `C87_conflicts`, `C87_answer`, `C87_small` in `Props/Exponential.lean`.
* Modelled: all of solve(), the trail and the Luby sequence
* Proof: the trail is read as a binary number with one digit per position, 1 for propagated and 0 for decided literals (`Trail.code`); a conflict without restart makes this number larger, since a propagated literal replaces a decision (`code_learn`, `StepPost.code`), so between two restarts there are fewer than 2^n conflicts; the Luby sequence gives an interval of 2^n conflicts after at most (n - 9 + 1) * 2^n conflicts in total (`lubySum_pow`); C60 bounds the iterations between conflicts
* Limits: that the arena is full or larger than the model covers are the other outcomes, as for C04

### C88 — Proofs are linear in the number of conflicts (proved)

* Theorems: `C88_lines`, `C88_bytes` in `Props/ProofSize.lean`.
* Modelled: the proof log and the writers of both formats
* Proof: each learned clause has no repeated variable (`Asserting.length_le`), deletions take back additions (`Accepted.lines`), additions are counted by conflicts (C55); the length of a literal in each format
* Limits: literals have at most 11 characters or 5 bytes since variables are 31 bit numbers

### C89 — Runs of solve() are runs of the CDCL calculus (proved)

* Theorems: `C89_run`, `C89_answer`, `C89_calculus` in `Props/Calculus.lean`.
* Modelled: all of solve(), the trail and the proof log; the calculus is specified without the solver (Cdcl.lean)
* Proof: propagated literals have stored clauses as reasons (C07), decisions come after complete propagation (C08, `Solver.Propagating.complete`), learned clauses are asserting and the level is the lowest one (`Asserting.rule`), restarts keep the part of the trail before the first decision, reductions keep reasons (`PInv.justified`); induction over runs with the counters (`Traced`); soundness of the calculus by induction over its rules (`Cdcl.Run.unsat`, `Cdcl.Run.sat`)
* Limits: runs with a proof log, since the learned clauses are read from it; by C39 runs without a proof are the same

### C90 — Proofs do not depend on how a checker treats deletions and copies (proved)

* Theorems: `C90_sets`, `C90_copies`, `C90_refuted` in `Props/OtherCheckers.lean`.
* Modelled: the proof log of every run; the checkers are specified without the solver (SetChecker.lean)
* Proof: by C59 no learned clause is equal to a formula clause or to a learned clause that is still known, and none has repeated literals, so the known clauses are a set (`Accepted.fresh`) and a deletion removes exactly one clause from each of the checkers; all of them know at least the clauses of the solver (`Accepted.reads`, `Accepted.readsCopies`), and unit propagation is monotone (`rup_of`)
* Limits: for checkers with sets the clauses of the formula may not have repeated literals: by C59_repeated a learned clause can be such a clause without the repetition, and a deletion of it could delete both; a run in which this makes a later line fail was searched for and not found

### C91 — Propagation complete formulas are solved without search (proved)

* Theorems: `C91_search`, `C91_decisions`, `C91_implicates` in `Props/Complete.lean`.
* Modelled: all of solve(); propagation complete formulas are specified with unit propagation alone
* Proof: what unit propagation derives from the formula and the decisions is assigned when propagate() is done (`formula_implied`, `formula_open`), so for each variable without value both values are possible in a model that extends the decisions (`free`): decisions stay part of a model (`Solver.Right`), which excludes conflicts; each iteration adds a decision

### C92 — The number of restarts is determined by the number of conflicts (proved)

* Theorems: `C92_sum`, `C92_exact`, `C92_count` in `Props/LubySum.lean`.
* Modelled: the schedule, the Luby sequence and all of solve()
* Proof: invariant over the iterations of solve() (`OnTime`): the next restart is due at 512 times the sum of as many terms as there were restarts; an iteration has at most one conflict and restarts are due before it; the sum by induction from the definition of the Luby sequence, whose second half repeats the first
* Limits: the model uses the constants of the code (512)

### C93 — Learned clauses are resolvents (proved)

* Theorems: `C93_resolved`, `C93_stored`, `C93_closed`, `C93_parts`, `C93_autarky`, `C93_horn` in `Props/Resolvents.lean`.
* Modelled: all of solve(), the stored clauses and the proof log; resolution is that of C84
* Proof: the implication graph is walked from the conflict backwards along the trail: at each step the current clause is resolved with the reason of the last literal (`Resolving.down`, `FirstUip.resolved`), and literals removed by minimization are resolved in the same order (`Recorded`, `analyzeConflict_resolved`); all reasons are stored clauses, which are derived already (`ResolvedInv`); the other theorems by induction over derivations
* Limits: C84 bounds the number of steps for a part of the clause; here the clause itself is derived, without a bound

### C94 — The memory of the solver is linear in what it stores (proved)

* Theorems: `C94_state`, `C94_stored`, `C94_total` in `Props/Footprint.lean`.
* Modelled: all vectors of the state of the solver (Props/Footprint.lean, `Search.cells`)
* Proof: buffers of conflict analysis keep their lengths except when they are resized to the trail and the levels (`Analysis.room_analyzeConflict`), which are bounded by the variables and unit clauses (C56); each long clause has at least six words and brings two watches, visiting and deleting clauses never adds a watch without removing one (`Grow`), and a collection leaves exactly two watches for each clause (`WatchStruct.sum_le`, `collectGarbage_watches`)
* Limits: lengths are counted, not capacities (vectors grow by doubling); the stack of the minimization (empty between calls, C108) and vectors that live only during a call are not part of the state

### C95 — Small formulas are always decided (proved)

* Theorems: `C95_answer`, `C95_small`, `C95_cli` in `Props/Decides.lean`.
* Modelled: adding clauses, all of solve(), and main of the command line
* Proof: conflicts are bounded by the number of variables (C87), the arena by the number of conflicts (`Solver.Reachable.sizes` of C83), solve() fails only with 2^32 words in the arena (C58), answers are right (C01, C02), and outcomes of main too (C52)
* Limits: 23 variables is the largest number for which the bound of C87 leaves room; parsing and file operations as for C52

### C96 — Proof writers can be exchanged between calls (proved)

* Theorems: `C96_exchange`, `C96_files`, `C96_refuted` in `Props/ProofParts.lean`.
* Modelled: write_proof, and all calls with and without an earlier log (Props/ProofParts.lean)
* Proof: every function of the model that logs commutes with a prefix of the log (`*_prepend`), so the later log is the same; the checker run on both parts is the run on the first part followed by that on the second (`DratCheck.check_append`)

### C97 — Asking again gives the same answer (proved)

* Theorems: `C97_true`, `C97_same`, `C97_false`, `C97_never` in `Props/Again.lean`.
* Modelled: solve() from states in which it has answered (Props/Again.lean)
* Proof: after a complete propagation without an unassigned variable, collecting garbage (nothing to collect, or an arena without clauses), propagation (nothing queued) and picking a variable (empty heap) are identities; no restart or reduction is due since neither was after the schedule ran in the last step; the flag for unsatisfiable formulas is never cleared

### C98 — Learned clauses do not pile up (proved)

* Theorems: `C98_few`, `C98_solver` in `Props/Few.lean`.
* Modelled: reduce, the schedule and the counters (Props/Few.lean)
* Proof: the counter is the number of stored learned clauses (`Solver.Reachable.learnedList`); by C28 a reduction leaves at most half of the sum of what was there and what it keeps, and one (`maybeReduce_half`); between reductions one clause is added for each conflict (`searchStep_learned`); the invariant of `few_run` relates the counter to the conflicts left until the next reduction

### C99 — What contains a hard formula is hard (proved)

* Theorems: `C99_instance`, `C99_pigeons`, `C99_parts` in `Props/HardParts.lean`.
* Modelled: runs as resolution refutations (C84), substitutions (Props/HardParts.lean)
* Proof: a derivation stays one after a substitution, line by line: the image of a line becomes true, or contains a line of the new derivation (`Derivation.substitute`); then the lower bound of C85

### C100 — Standard output is the banner, the reports, the statistics and the answer (proved)

* Theorems: `C100_report_line`, `C100_answer`, `C100_default`, `C100_quiet`, `C100_complete` in `Props/Stdout.lean`.
* Modelled: the text and the places of progress reports, and all output of main at level info (Solver/Output.lean)
* Proof: printing leaves the run as it is (`solveOut_eq`), so outcomes are right by C52; by C44 each message is one line that starts with `c`, and lines that can be parsed as a model contain no line feed (`parseModel_lines`); an iteration prints one report if it reduces (`scheduleStepOut_reports`), and reductions are due as in C46; padding disappears when a line is cut at spaces
* Limits: times, `f64` quotients in the statistics and messages of the more verbose levels are arbitrary texts without line feeds; writing to standard output does not fail

### C101 — MutScan works for items of every size (partial)

* Theorems: `C101_sized_partial`, `C101_zero`, `C101_false` in `Props/MutScanSize.lean`.
* Modelled: MutScan with addresses and the size of items (MutScanPtr.lean)
* Proof: for sizes other than zero each operation on addresses is that on offsets (`next_lift`, `keep_lift`, `drop_lift`), so C32 carries over; for size zero no item is visited and `offset_from` panics
* Limits: addresses do not wrap around (a buffer has at most 2^63 - 1 bytes)

### C102 — Safe code only makes literals and variables in the documented range (proved)

* Theorems: `C102_safe`, `C102_all`, `C102_fits`, `C102_unchecked`, `C102_unchecked_false`, `C102_select_other`, `C102_order`, `C102_text` in `Props/LitApi.lean`.
* Modelled: all functions of lit.rs, and client programs as lists of calls with numbered results (LitApi.lean)
* Proof: induction over the program; xor of numbers below 2^31 is below 2^31, the arithmetic lemmas of C24 for the rest; the text is read back by the parser of C26
* Limits: the format `{}` only (no width or sign flags); fields are private, so clients get values from calls only

### C103 — The log macros print every argument with its name (partial)

* Theorems: `C103_args_partial`, `C103_name_false`, `C103_equals_false` in `Props/LogMacro.lean`.
* Modelled: parsing of the arguments and expansion of the log macros on tokens (LogMacro.lean), with the logger of C44
* Proof: induction over the arguments; the forms are told apart by the first two tokens
* Limits: the parser for expressions is a parameter that reads each of the expressions up to the next comma; that `Token![=]` matches the first character of `==` is the behaviour of `syn`; without source locations (with them see C44)

### C104 — Adding clauses takes linear time (proved)

* Theorems: `C104_add`, `C104_new`, `C104_counted` in `Props/LoadCost.lean`.
* Modelled: add_clause and everything it resizes, with counters (Props/LoadCost.lean)
* Proof: the counted functions erase to those of the model (`C104_counted`); all vectors have the length that the number of variables asks for (`Fitted`), so a resize only adds entries; a new variable has activity zero, the least value, so the loop that moves it towards the root stops at once (`rootLoopT_least`)
* Limits: extending a vector counts one step for each new entry (amortised), allocation is not modelled

### C105 — The log of a run is a record of it (proved)

* Theorems: `C105_read`, `C105_count`, `C105_clauses`, `C105_text`, `C105_follow`, `C105_same`, `C105_known` in `Props/Trace.lean`.
* Modelled: all log messages of the search with their texts and places (Solver/Trace.lean); the reader of messages (`readLog`) and of lines (`readLine`) are specifications
* Proof: the functions with messages erase to those of the model (`C105_same`); a record of a step (`Records`) says what the reader does with its messages, and records of consecutive steps compose; the decisions on the trail are those of the implication graph, one for each level (`PInv.decided_length`), so cutting the trail cuts the list; lines are read back word by word
* Limits: `C105_text` and `C105_follow` are for logs without source locations; reports are not part of the list of messages (C100); a solver that already knows that the formula is unsatisfiable answers without a message (`C105_known`)

### C106 — What a whole run needs is bounded by the formula (proved)

* Theorems: `C106_total`, `C106_every`, `C106_time`, `C106_time_every`, `C106_memory`, `C106_proof` in `Props/SolveEvery.lean`, `Props/WholeRun.lean`.
* Modelled: the counted versions of add_clause (C104) and solve (C83)
* Proof: the number of conflicts is bounded by the formula (C87), everything else by the number of conflicts (C83, C88, C94); the answer is C95
* Limits: as in C83, `C106_total` is for formulas without repeated unit clauses and `C106_every` for all

### C107 — Standard output is right at every level of verbosity (proved)

* Theorems: `C107_answer`, `C107_default`, `C107_quiet`, `C107_levels`, `C107_follow`, `C107_counts`, `C107_complete` in `Props/FullOutput.lean`.
* Modelled: main, solve and schedule_search_step with all calls of the logger in order (Solver/FullOutput.lean)
* Proof: the calls are those of C100 and C105 merged (`solveSaid_ok`: leaving out one kind gives the other model), so the theorems of C100 apply without their hypothesis about other messages; the counters of every state are the tally of the messages before it (`Counts`)
* Limits: for `C107_follow` the four lines of statistics, whose items are parameters (C100), must not look like messages; a formula that is found to be unsatisfiable while it is read is answered without a message

### C108 — The stack of the iterative minimisation is small, ordered, and empty between calls (proved)

* Theorems: `C108_empty`, `C108_frames`, `C108_same` in `Props/MinimizeStack.lean`.
* Modelled: literal_index_is_redundant_iter with its buffer (Solver/MinimizeStack.lean)
* Proof: induction over the iterations: a literal of a reason is on the trail before the literal it is a reason for, unless it has level zero (`PInv.position`); those of level zero are never pushed (`cached_none`)
* Limits: memory and lifetimes are not modelled: that the slices stay valid follows from the signature, which borrows `prop` for the call

### C109 — The program fails only for a cause outside of it (proved)

* Theorems: `C109_room`, `C109_proof`, `C109_always` in `Props/Always.lean`.
* Modelled: main with files that can fail (C76)
* Proof: without failures the program finishes (C95), and with them nothing else is done (`Cli.mainIO_finishes`); what the writer has passed on and what it holds are together the bytes given to it (`Holds`), so no write goes beyond the length of the proof (`foldl_room`), which is bounded by C106
* Limits: as in C76, the buffered writer is modelled after the documentation of flussab

### C110 — A run that is stopped leaves nothing wrong behind (proved)

* Theorems: `C110_proof`, `C110_status`, `C110_model` in `Props/Stopped.lean`.
* Modelled: standard output (C107) and proof files (C25, C26), cut off after any byte
* Proof: parsers of both proof formats work locally: bytes after a step do not change how it is read (`parse_local`), so a first part that can be read ends where the file of a first part of the steps ends (`parse_prefix`), and the steps are accepted one by one; the lines of a first part of a text are its first lines and perhaps a first part of the next (`answer_prefix`)
* Limits: bytes are taken to reach the files in order; that a run is stopped is not modelled as an event, only what it leaves

### C111 — Wrong decisions are found at once on formulas that unit propagation refutes (proved)

* Theorems: `C111_search`, `C111_time`, `C111_decisions`, `C111_horn`, `C111_complete` in `Props/Refutation.lean`.
* Modelled: `solve()` with restarts and reductions; refutation completeness is stated with unit propagation as an inductive relation (Spec.lean)
* Proof: propagation without a conflict means that unit propagation with the formula alone finds none (C08), so the decisions have a model; an invariant says that all decisions but one not yet propagated are right, and that this one pays for the conflict it may lead to; for renamed Horn formulas what is derived, completed by the renaming, is a model
* Limits: the number of conflicts itself is not bounded by a polynomial here; for Horn formulas it is, see C81

### C112 — Runs that answer unsatisfiable give small interpolants (proved)

* Theorems: `C112_interpolant`, `C112_conflicts` in `Props/Interpolant.lean`.
* Modelled: runs of `solve()`; circuits are lists of gates (constants, and, or, choice by a variable)
* Proof: feasible interpolation (Krajíček, Pudlák) for the resolution refutation of C84: each derived clause has a gate that is true where A holds and the literals of A in the clause are false, and false where B holds and the literals of B in the clause are false
* Limits: the code does not compute interpolants; this is a property of its runs

## Wrong programs

`seeded/LOG.jsonl` has one line per deliberately wrong edit of a definition, with the theorems that no longer
prove. Lemma failures block all property theorems above them; `evidence` names the property whose statement a
separate executable test of the edited model saw violated on a concrete run.
