{
 "claims": [
  {
   "property": "C01",
   "status": "proved",
   "theorems": [
    "Starlit.C01_unsat_correct",
    "Starlit.C01_fresh"
   ],
   "note": "every run of every formula, any number of calls of solve"
  },
  {
   "property": "C02",
   "status": "proved",
   "theorems": [
    "Starlit.C02_sat_correct",
    "Starlit.C02_fresh"
   ],
   "note": "every run of every formula"
  },
  {
   "property": "C03",
   "status": "proved",
   "theorems": [
    "Starlit.C03_terminates",
    "Starlit.C03_resume"
   ],
   "note": "bound on the iterations of solve depends on the number of variables only; Luby counters are unbounded in the model and agree with u64 for the first 2^63 restarts; a full arena ends the run with a panic, as in the code"
  },
  {
   "property": "C04",
   "status": "proved",
   "theorems": [
    "Starlit.C04_no_panic",
    "Starlit.C04_add_no_panic",
    "Starlit.C04_value_no_panic"
   ],
   "note": "panics, out-of-range indices and exhausted fuel are errors of the model; debug assertions are errors of the model too (see C53), and so are underflows of subtractions; overflows of additions are not modelled"
  },
  {
   "property": "C05",
   "status": "proved",
   "theorems": [
    "Starlit.C05_additions_rup",
    "Starlit.C05_refuted"
   ],
   "note": "the empty clause itself is not logged: it is RUP for the final clause set"
  },
  {
   "property": "C06",
   "status": "proved",
   "theorems": [
    "Starlit.C06_deletions"
   ],
   "note": ""
  },
  {
   "property": "C07",
   "status": "proved",
   "theorems": [
    "Starlit.C07_reasons",
    "Starlit.C07_implied"
   ],
   "note": ""
  },
  {
   "property": "C08",
   "status": "proved",
   "theorems": [
    "Starlit.C08_complete"
   ],
   "note": "second part for clauses without duplicate literals"
  },
  {
   "property": "C09",
   "status": "proved",
   "theorems": [
    "Starlit.C09_conflict"
   ],
   "note": ""
  },
  {
   "property": "C10",
   "status": "proved",
   "theorems": [
    "Starlit.C10_asserting"
   ],
   "note": ""
  },
  {
   "property": "C11",
   "status": "proved",
   "theorems": [
    "Starlit.C11_minimize"
   ],
   "note": ""
  },
  {
   "property": "C12",
   "status": "proved",
   "theorems": [
    "Starlit.C12_backtrack"
   ],
   "note": ""
  },
  {
   "property": "C13",
   "status": "proved",
   "theorems": [
    "Starlit.C13_decision",
    "Starlit.C13_max"
   ],
   "note": "the maximality part needs a monotone bump and order-preserving rescale (C41)"
  },
  {
   "property": "C14",
   "status": "partial",
   "theorems": [
    "Starlit.Heap.C14_false",
    "Starlit.Heap.C14_pop_max_partial"
   ],
   "note": "false of the code: dequeue moves the replacement key in the wrong direction, counterexample; proved for histories in which dequeue is not used"
  },
  {
   "property": "C15",
   "status": "proved",
   "theorems": [
    "Starlit.Heap.C15_set_semantics"
   ],
   "note": "any history refines a set of keys plus a value table"
  },
  {
   "property": "C16",
   "status": "proved",
   "theorems": [
    "Starlit.Arena.C16_faithful_store"
   ],
   "note": "any history of add/update/shrink/delete/gc on the word buffer refines a store of entries"
  },
  {
   "property": "C17",
   "status": "proved",
   "theorems": [
    "Starlit.Arena.C17_iteration"
   ],
   "note": "after any history, for the next_clause loop"
  },
  {
   "property": "C18",
   "status": "proved",
   "theorems": [
    "Starlit.Arena.C18_no_undefined_behaviour",
    "Starlit.Arena.C18_invalid_refs_panic"
   ],
   "note": "out-of-range unsafe accesses are an explicit error of the model"
  },
  {
   "property": "C19",
   "status": "partial",
   "theorems": [
    "Starlit.Arena.C19_garbage_collection_partial",
    "Starlit.Arena.C19_false_big"
   ],
   "note": "proved for buffers below 2^32 words; false for longer ones (offsets are truncated to u32): C19_false_big has two deleted clauses, one of which the map sends to a reference"
  },
  {
   "property": "C20",
   "status": "partial",
   "theorems": [
    "Starlit.Arena.C20_false",
    "Starlit.Arena.C20_utilization_partial"
   ],
   "note": "false if a clause is deleted twice: counterexample; proved for histories without double deletion"
  },
  {
   "property": "C21",
   "status": "proved",
   "theorems": [
    "Starlit.C21_header_fields",
    "Starlit.C21_new_headers"
   ],
   "note": "header words at machine width; values below the truncation limits of the casts"
  },
  {
   "property": "C22",
   "status": "partial",
   "theorems": [
    "Starlit.C22_false",
    "Starlit.C22_shrink_search_pos_partial"
   ],
   "note": "false of the code: counterexample; exact condition proved"
  },
  {
   "property": "C23",
   "status": "proved",
   "theorems": [
    "Starlit.C23_refines_map"
   ],
   "note": "any history of resize/assign/unassign refines a map"
  },
  {
   "property": "C24",
   "status": "proved",
   "theorems": [
    "Starlit.C24_code_roundtrip",
    "Starlit.C24_index_roundtrip",
    "Starlit.C24_dimacs_roundtrip",
    "Starlit.C24_negation",
    "Starlit.C24_select_other",
    "Starlit.C24_injective"
   ],
   "note": "lit.rs at machine width"
  },
  {
   "property": "C25",
   "status": "proved",
   "theorems": [
    "Starlit.C25_binary_drat"
   ],
   "note": "independent decoder for the binary grammar"
  },
  {
   "property": "C26",
   "status": "proved",
   "theorems": [
    "Starlit.C26_text_drat"
   ],
   "note": "independent parser for the text grammar"
  },
  {
   "property": "C27",
   "status": "proved",
   "theorems": [
    "Starlit.C27_luby"
   ],
   "note": "64-bit arithmetic, all n < 2^63"
  },
  {
   "property": "C28",
   "status": "proved",
   "theorems": [
    "Starlit.C28_reduce"
   ],
   "note": ""
  },
  {
   "property": "C29",
   "status": "proved",
   "theorems": [
    "Starlit.C29_garbage_collection",
    "Starlit.C29_collect_garbage"
   ],
   "note": ""
  },
  {
   "property": "C30",
   "status": "proved",
   "theorems": [
    "Starlit.C30_score_order",
    "Starlit.C30_bitfield_accessors"
   ],
   "note": "score of a clause at machine width; accessors of the derive macro for any list of fields up to 64 bits wide"
  },
  {
   "property": "C31",
   "status": "proved",
   "theorems": [
    "Starlit.C31_compute_glue",
    "Starlit.C31_reachable"
   ],
   "note": ""
  },
  {
   "property": "C32",
   "status": "proved",
   "theorems": [
    "Starlit.MutScan.C32_mut_scan",
    "Starlit.MutScan.C32_items",
    "Starlit.MutScan.C32_leak"
   ],
   "note": "buffer cells are initialised or moved out; reading or overwriting the wrong kind is an explicit error"
  },
  {
   "property": "C33",
   "status": "proved",
   "theorems": [
    "Starlit.C33_watch_lists",
    "Starlit.C33_rebuild"
   ],
   "note": ""
  },
  {
   "property": "C34",
   "status": "proved",
   "theorems": [
    "Starlit.C34_restart"
   ],
   "note": ""
  },
  {
   "property": "C35",
   "status": "proved",
   "theorems": [
    "Starlit.C35_formula_stats"
   ],
   "note": ""
  },
  {
   "property": "C36",
   "status": "proved",
   "theorems": [
    "Starlit.C36_restart_schedule"
   ],
   "note": "for the first 2^63 restarts, where the u64 Luby counters do not wrap"
  },
  {
   "property": "C37",
   "status": "partial",
   "theorems": [
    "Starlit.C37_cli_output_partial",
    "Starlit.C37_false"
   ],
   "note": "model lines proved; the exit code claim is false of the code (20 for both answers)"
  },
  {
   "property": "C38",
   "status": "proved",
   "theorems": [
    "Starlit.C38_order_independent"
   ],
   "note": ""
  },
  {
   "property": "C39",
   "status": "proved",
   "theorems": [
    "Starlit.C39_logging_irrelevant",
    "Starlit.C39_fresh",
    "Starlit.C39_value"
   ],
   "note": "from every state of every run, for any number of iterations; writers that fail or panic are outside of the model"
  },
  {
   "property": "C40",
   "status": "partial",
   "theorems": [
    "Starlit.C40_false",
    "Starlit.C40_false_sat",
    "Starlit.C40_add_then_solve_partial",
    "Starlit.C40_incremental_partial",
    "Starlit.C40_history_partial",
    "Starlit.C40_safe_input",
    "Starlit.C40_safe_value"
   ],
   "note": "false of the code: counterexamples in both directions; proved when every clause is added before the first solve, or in a state in which it does no harm (SafeAdd: for instance, its first two literals are not false), or after an answer false"
  },
  {
   "property": "C41",
   "status": "proved",
   "theorems": [
    "Starlit.C41_order",
    "Starlit.C41_rounding",
    "Starlit.C41_constants",
    "Starlit.C41_range",
    "Starlit.C41_strict",
    "Starlit.C41_decision"
   ],
   "note": "f32 operations are modelled on bit patterns of non-negative numbers and proved to round to nearest even"
  },
  {
   "property": "C42",
   "status": "proved",
   "theorems": [
    "Starlit.C42_top_level"
   ],
   "note": ""
  },
  {
   "property": "C43",
   "status": "proved",
   "theorems": [
    "Starlit.C43_phases",
    "Starlit.C43_decisions"
   ],
   "note": ""
  },
  {
   "property": "C44",
   "status": "proved",
   "theorems": [
    "Starlit.C44_log_filtering",
    "Starlit.C44_cli_flags",
    "Starlit.C44_log_line"
   ],
   "note": ""
  },
  {
   "property": "C45",
   "status": "proved",
   "theorems": [
    "Starlit.C45_prepare",
    "Starlit.C45_plain"
   ],
   "note": "the code is dead; C45_plain is about analyze_conflict with the other branch of `if true`"
  },
  {
   "property": "C46",
   "status": "proved",
   "theorems": [
    "Starlit.C46_interval",
    "Starlit.C46_schedule",
    "Starlit.C46_reductions",
    "Starlit.C46_covers"
   ],
   "note": "first 2^26 reductions; f64 operations are modelled on bit patterns and proved to round to nearest even"
  },
  {
   "property": "C47",
   "status": "proved",
   "theorems": [
    "Starlit.C47_conflict",
    "Starlit.C47_unique",
    "Starlit.C47_other",
    "Starlit.C47_start"
   ],
   "note": ""
  },
  {
   "property": "C48",
   "status": "proved",
   "theorems": [
    "Starlit.C48_score",
    "Starlit.C48_decision",
    "Starlit.C48_conflicts"
   ],
   "note": ""
  },
  {
   "property": "C49",
   "status": "proved",
   "theorems": [
    "Starlit.C49_minimal"
   ],
   "note": ""
  },
  {
   "property": "C50",
   "status": "partial",
   "theorems": [
    "Starlit.C50_report_partial",
    "Starlit.C50_propagations",
    "Starlit.C50_underflow"
   ],
   "note": "C50_report_partial is for formulas without repeated unit clauses, C50_underflow is the negation for the others; calls that end in a conflict count no propagations"
  },
  {
   "property": "C51",
   "status": "proved",
   "theorems": [
    "Starlit.C51_headers"
   ],
   "note": ""
  },
  {
   "property": "C52",
   "status": "proved",
   "theorems": [
    "Starlit.C52_cli_right",
    "Starlit.C52_cli_finishes"
   ],
   "note": ""
  },
  {
   "property": "C53",
   "status": "partial",
   "theorems": [
    "Starlit.C53_solve",
    "Starlit.C53_add",
    "Starlit.C53_formula_partial",
    "Starlit.C53_repeated"
   ],
   "note": "C53_formula_partial is for formulas without repeated unit clauses; C53_repeated is the negation for the others and C53_add says exactly when it fails; assertions that the given length is the length of the clause (clause_arena.rs) are not in the model because it has no such argument"
  },
  {
   "property": "C54",
   "status": "proved",
   "theorems": [
    "Starlit.C54_utilization",
    "Starlit.C54_bound"
   ],
   "note": ""
  },
  {
   "property": "C55",
   "status": "proved",
   "theorems": [
    "Starlit.C55_step",
    "Starlit.C55_restart",
    "Starlit.C55_reduce",
    "Starlit.C55_run"
   ],
   "note": ""
  },
  {
   "property": "C56",
   "status": "proved",
   "theorems": [
    "Starlit.C56_range",
    "Starlit.C56_u32",
    "Starlit.C53_solve"
   ],
   "note": "subtractions that are not guarded by a comparison are checks with Err.debug in the model, which C53_solve excludes; the subtraction in report.rs is C50"
  },
  {
   "property": "C57",
   "status": "proved",
   "theorems": [
    "Starlit.C57_keys",
    "Starlit.C57_lookup",
    "Starlit.C57_roundtrip",
    "Starlit.C57_key_types",
    "Starlit.C57_lit_via_var"
   ],
   "note": ""
  },
  {
   "property": "C58",
   "status": "proved",
   "theorems": [
    "Starlit.C58_step",
    "Starlit.C58_solve",
    "Starlit.C58_cause",
    "Starlit.C58_needed",
    "Starlit.C58_add",
    "Starlit.C58_addClauses",
    "Starlit.C58_total"
   ],
   "note": "the arena of the model can hold 2^32 words or more, where the code panics or truncates (C19)"
  },
  {
   "property": "C59",
   "status": "proved",
   "theorems": [
    "Starlit.C59_new",
    "Starlit.C59_conflict",
    "Starlit.C59_distinct",
    "Starlit.C59_literals"
   ],
   "note": "clauses of the formula with repeated literals are left out of the comparison; C59_repeated shows this is needed"
  },
  {
   "property": "C60",
   "status": "proved",
   "theorems": [
    "Starlit.C60_effort",
    "Starlit.C60_iterations",
    "Starlit.C60_bound"
   ],
   "note": ""
  },
  {
   "property": "C61",
   "status": "proved",
   "theorems": [
    "Starlit.C61_log",
    "Starlit.C61_file",
    "Starlit.C61_append",
    "Starlit.C61_refuted",
    "Starlit.C61_refuted_first"
   ],
   "note": "for clauses added in a state where they do no harm (SafeAdd), as in C40"
  },
  {
   "property": "C62",
   "status": "proved",
   "theorems": [
    "Starlit.C62_first",
    "Starlit.C62_clause",
    "Starlit.C62_learned",
    "Starlit.C62_decision"
   ],
   "note": ""
  },
  {
   "property": "C63",
   "status": "proved",
   "theorems": [
    "Starlit.C63_long",
    "Starlit.C63_binary",
    "Starlit.C63_unit",
    "Starlit.C63_same"
   ],
   "note": ""
  },
  {
   "property": "C64",
   "status": "proved",
   "theorems": [
    "Starlit.C64_bounds",
    "Starlit.C64_u64",
    "Starlit.C64_any"
   ],
   "note": ""
  },
  {
   "property": "C65",
   "status": "proved",
   "theorems": [
    "Starlit.C65_graph"
   ],
   "note": ""
  },
  {
   "property": "C66",
   "status": "proved",
   "theorems": [
    "Starlit.C66_linear",
    "Starlit.C66_counted"
   ],
   "note": ""
  },
  {
   "property": "C67",
   "status": "proved",
   "theorems": [
    "Starlit.C67_limit",
    "Starlit.C66_counted"
   ],
   "note": ""
  },
  {
   "property": "C68",
   "status": "proved",
   "theorems": [
    "Starlit.C68_guided",
    "Starlit.C68_again",
    "Starlit.C68_false"
   ],
   "note": ""
  },
  {
   "property": "C69",
   "status": "proved",
   "theorems": [
    "Starlit.C69_linear",
    "Starlit.C69_every",
    "Starlit.C69_counted"
   ],
   "note": "C69_repeated shows that the condition of C69_linear on repeated unit clauses is needed; C69_every has none"
  },
  {
   "property": "C70",
   "status": "proved",
   "theorems": [
    "Starlit.Heap.C70_enqueue",
    "Starlit.Heap.C70_increase",
    "Starlit.Heap.C70_popMax",
    "Starlit.Heap.C70_dequeue",
    "Starlit.Heap.C70_counted"
   ],
   "note": ""
  },
  {
   "property": "C71",
   "status": "proved",
   "theorems": [
    "Starlit.C71_linear",
    "Starlit.C71_counted"
   ],
   "note": ""
  },
  {
   "property": "C72",
   "status": "proved",
   "theorems": [
    "Starlit.C72_once",
    "Starlit.C72_run",
    "Starlit.C72_stretch",
    "Starlit.C72_numbers"
   ],
   "note": ""
  },
  {
   "property": "C73",
   "status": "partial",
   "theorems": [
    "Starlit.C73_run_partial",
    "Starlit.C73_counted",
    "Starlit.C73_numbers",
    "Starlit.C73_steps",
    "Starlit.C73_every_step",
    "Starlit.C73_false"
   ],
   "note": "C73_run_partial is for formulas with a clause of three or more literals; C73_false and C73_every_step are the negation for the others"
  },
  {
   "property": "C74",
   "status": "proved",
   "theorems": [
    "Starlit.C74_order",
    "Starlit.C74_reduce",
    "Starlit.C74_run"
   ],
   "note": ""
  },
  {
   "property": "C75",
   "status": "proved",
   "theorems": [
    "Starlit.C75_conflict",
    "Starlit.C75_sound",
    "Starlit.C75_complete",
    "Starlit.C75_determined"
   ],
   "note": ""
  },
  {
   "property": "C76",
   "status": "proved",
   "theorems": [
    "Starlit.C76_answer",
    "Starlit.C76_failure",
    "Starlit.C76_no_overwrite",
    "Starlit.C76_success"
   ],
   "note": ""
  },
  {
   "property": "C77",
   "status": "proved",
   "theorems": [
    "Starlit.Bitfield.C77_accepted",
    "Starlit.Bitfield.C77_layout",
    "Starlit.Bitfield.C77_disjoint",
    "Starlit.Bitfield.C77_get",
    "Starlit.Bitfield.C77_set",
    "Starlit.Bitfield.C77_panic",
    "Starlit.Bitfield.C77_roundtrip",
    "Starlit.Bitfield.C77_order",
    "Starlit.Bitfield.C77_score",
    "Starlit.Bitfield.C77_clamp_false"
   ],
   "note": ""
  },
  {
   "property": "C78",
   "status": "proved",
   "theorems": [
    "Starlit.C78_run",
    "Starlit.C78_bound",
    "Starlit.C78_counted"
   ],
   "note": ""
  },
  {
   "property": "C79",
   "status": "proved",
   "theorems": [
    "Starlit.Transparent.C79_accepted",
    "Starlit.Transparent.C79_contract",
    "Starlit.Transparent.C79_into",
    "Starlit.Transparent.C79_back",
    "Starlit.Transparent.C79_single",
    "Starlit.Transparent.C79_crate",
    "Starlit.Transparent.C79_align_false"
   ],
   "note": ""
  },
  {
   "property": "C80",
   "status": "proved",
   "theorems": [
    "Starlit.C80_linear",
    "Starlit.C80_counted"
   ],
   "note": ""
  },
  {
   "property": "C81",
   "status": "proved",
   "theorems": [
    "Starlit.C81_horn"
   ],
   "note": ""
  },
  {
   "property": "C82",
   "status": "proved",
   "theorems": [
    "Starlit.C82_unit",
    "Starlit.C82_conflicts",
    "Starlit.C82_quadratic"
   ],
   "note": ""
  },
  {
   "property": "C83",
   "status": "proved",
   "theorems": [
    "Starlit.C83_total",
    "Starlit.C83_every",
    "Starlit.C83_counts",
    "Starlit.C83_two",
    "Starlit.C83_horn",
    "Starlit.C83_two_every",
    "Starlit.C83_horn_every"
   ],
   "note": ""
  },
  {
   "property": "C84",
   "status": "proved",
   "theorems": [
    "Starlit.C84_refutation",
    "Starlit.C84_learned",
    "Starlit.C84_conflicts"
   ],
   "note": ""
  },
  {
   "property": "C85",
   "status": "proved",
   "theorems": [
    "Starlit.C85_pigeons",
    "Starlit.C85_exponential",
    "Starlit.C85_never"
   ],
   "note": ""
  },
  {
   "property": "C86",
   "status": "proved",
   "theorems": [
    "Starlit.C86_empower",
    "Starlit.C86_conflict",
    "Starlit.C86_new"
   ],
   "note": ""
  },
  {
   "property": "C87",
   "status": "proved",
   "theorems": [
    "Starlit.C87_conflicts",
    "Starlit.C87_answer",
    "Starlit.C87_small"
   ],
   "note": ""
  },
  {
   "property": "C88",
   "status": "proved",
   "theorems": [
    "Starlit.C88_lines",
    "Starlit.C88_bytes"
   ],
   "note": ""
  },
  {
   "property": "C89",
   "status": "proved",
   "theorems": [
    "Starlit.C89_run",
    "Starlit.C89_answer",
    "Starlit.C89_calculus"
   ],
   "note": ""
  },
  {
   "property": "C90",
   "status": "proved",
   "theorems": [
    "Starlit.C90_sets",
    "Starlit.C90_copies",
    "Starlit.C90_refuted"
   ],
   "note": ""
  },
  {
   "property": "C91",
   "status": "proved",
   "theorems": [
    "Starlit.C91_search",
    "Starlit.C91_decisions",
    "Starlit.C91_implicates"
   ],
   "note": ""
  },
  {
   "property": "C92",
   "status": "proved",
   "theorems": [
    "Starlit.C92_sum",
    "Starlit.C92_exact",
    "Starlit.C92_count"
   ],
   "note": ""
  },
  {
   "property": "C93",
   "status": "proved",
   "theorems": [
    "Starlit.C93_resolved",
    "Starlit.C93_stored",
    "Starlit.C93_closed",
    "Starlit.C93_parts",
    "Starlit.C93_autarky",
    "Starlit.C93_horn"
   ],
   "note": ""
  },
  {
   "property": "C94",
   "status": "proved",
   "theorems": [
    "Starlit.C94_state",
    "Starlit.C94_stored",
    "Starlit.C94_total"
   ],
   "note": ""
  },
  {
   "property": "C95",
   "status": "proved",
   "theorems": [
    "Starlit.C95_answer",
    "Starlit.C95_small",
    "Starlit.C95_cli"
   ],
   "note": ""
  },
  {
   "property": "C96",
   "status": "proved",
   "theorems": [
    "Starlit.C96_exchange",
    "Starlit.C96_files",
    "Starlit.C96_refuted"
   ],
   "note": ""
  },
  {
   "property": "C97",
   "status": "proved",
   "theorems": [
    "Starlit.C97_true",
    "Starlit.C97_same",
    "Starlit.C97_false",
    "Starlit.C97_never"
   ],
   "note": ""
  },
  {
   "property": "C98",
   "status": "proved",
   "theorems": [
    "Starlit.C98_few",
    "Starlit.C98_solver"
   ],
   "note": ""
  },
  {
   "property": "C99",
   "status": "proved",
   "theorems": [
    "Starlit.C99_instance",
    "Starlit.C99_pigeons",
    "Starlit.C99_parts"
   ],
   "note": ""
  },
  {
   "property": "C100",
   "status": "proved",
   "theorems": [
    "Starlit.C100_report_line",
    "Starlit.C100_answer",
    "Starlit.C100_default",
    "Starlit.C100_quiet",
    "Starlit.C100_complete"
   ],
   "note": ""
  },
  {
   "property": "C101",
   "status": "partial",
   "theorems": [
    "Starlit.PtrScan.C101_sized_partial",
    "Starlit.PtrScan.C101_zero",
    "Starlit.PtrScan.C101_false"
   ],
   "note": "false for items of size zero (the scan visits nothing and panics when it is dropped); proved for all other sizes"
  },
  {
   "property": "C102",
   "status": "proved",
   "theorems": [
    "Starlit.C102_safe",
    "Starlit.C102_all",
    "Starlit.C102_fits",
    "Starlit.C102_unchecked",
    "Starlit.C102_unchecked_false",
    "Starlit.C102_select_other",
    "Starlit.C102_order",
    "Starlit.C102_text"
   ],
   "note": ""
  },
  {
   "property": "C103",
   "status": "partial",
   "theorems": [
    "Starlit.LogMacro.C103_args_partial",
    "Starlit.LogMacro.C103_name_false",
    "Starlit.LogMacro.C103_equals_false"
   ],
   "note": "false for string literals with a name (the name is not printed) and for expressions such as a == b (not accepted); proved for all other arguments"
  },
  {
   "property": "C104",
   "status": "proved",
   "theorems": [
    "Starlit.C104_add",
    "Starlit.C104_new",
    "Starlit.C104_counted"
   ],
   "note": ""
  },
  {
   "property": "C105",
   "status": "proved",
   "theorems": [
    "Starlit.C105_read",
    "Starlit.C105_count",
    "Starlit.C105_clauses",
    "Starlit.C105_text",
    "Starlit.C105_follow",
    "Starlit.C105_same",
    "Starlit.C105_known"
   ],
   "note": ""
  },
  {
   "property": "C106",
   "status": "proved",
   "theorems": [
    "Starlit.C106_total",
    "Starlit.C106_every",
    "Starlit.C106_time",
    "Starlit.C106_time_every",
    "Starlit.C106_memory",
    "Starlit.C106_proof"
   ],
   "note": ""
  },
  {
   "property": "C107",
   "status": "proved",
   "theorems": [
    "Starlit.C107_answer",
    "Starlit.C107_default",
    "Starlit.C107_quiet",
    "Starlit.C107_levels",
    "Starlit.C107_follow",
    "Starlit.C107_counts",
    "Starlit.C107_complete"
   ],
   "note": ""
  },
  {
   "property": "C108",
   "status": "proved",
   "theorems": [
    "Starlit.C108_empty",
    "Starlit.C108_frames",
    "Starlit.C108_same"
   ],
   "note": ""
  },
  {
   "property": "C109",
   "status": "proved",
   "theorems": [
    "Starlit.C109_room",
    "Starlit.C109_proof",
    "Starlit.C109_always"
   ],
   "note": ""
  },
  {
   "property": "C110",
   "status": "proved",
   "theorems": [
    "Starlit.C110_proof",
    "Starlit.C110_status",
    "Starlit.C110_model"
   ],
   "note": ""
  },
  {
   "property": "C111",
   "status": "proved",
   "theorems": [
    "Starlit.C111_search",
    "Starlit.C111_time",
    "Starlit.C111_decisions",
    "Starlit.C111_horn",
    "Starlit.C111_complete"
   ],
   "note": ""
  },
  {
   "property": "C112",
   "status": "proved",
   "theorems": [
    "Starlit.C112_interpolant",
    "Starlit.C112_conflicts"
   ],
   "note": ""
  }
 ]
}
