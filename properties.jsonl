{"id": "C01", "title": "UNSAT answers are correct", "statement": "If clauses are added to a fresh Solver with add_clause and solve() returns false, then no Boolean assignment satisfies all added clauses.", "quantifier": "every list of clauses (any literals, lengths, duplicates, tautologies, empty clauses), every number of search steps, every activity arithmetic and every reduction schedule", "why_tests_cant": "A wrong UNSAT may need a specific interaction of watch lists, minimisation, restarts, reduction and garbage collection on some formula; a finite set of formulas cannot exclude it.", "anchors": ["starlit/src/solver.rs: Solver::add_clause, Solver::solve", "starlit/src/search.rs: search_step", "starlit/src/conflict_analysis.rs: analyze_conflict"]}
{"id": "C02", "title": "SAT answers come with a satisfying assignment", "statement": "If clauses are added to a fresh Solver and solve() returns true, then value() is defined on every variable up to the largest one mentioned and the assignment it describes satisfies every added clause.", "quantifier": "every list of clauses, every search history", "why_tests_cant": "Depends on the two-watched-literal invariant surviving every interleaving of propagation, conflict, backtracking, restart, reduction and garbage collection.", "anchors": ["starlit/src/solver.rs: Solver::solve, Solver::value", "starlit/src/prop/unit_prop.rs: propagate", "starlit/src/prop/watch.rs"]}
{"id": "C03", "title": "solve() terminates", "statement": "For every formula there is a number of scheduled search steps after which solve() has returned an answer (or the clause arena is full); restarts and clause deletion never make it loop for ever.", "quantifier": "every list of clauses, every reduction schedule, every activity arithmetic", "why_tests_cant": "Termination is a statement about an unbounded loop; restarts plus clause deletion can livelock a CDCL solver only in the limit.", "anchors": ["starlit/src/solver.rs: Solver::solve", "starlit/src/state.rs: schedule_search_step, should_restart", "starlit/src/state/luby.rs: LubySequence::advance"]}
{"id": "C04", "title": "The solver never panics", "statement": "Adding any clauses to a fresh solver and calling solve() never hits an out-of-bounds index, a failed assert!, an unwrap of None or an out-of-bounds unchecked access, except for the documented full clause arena.", "quantifier": "every list of clauses, every search history shorter than arena exhaustion", "why_tests_cant": "Every indexing operation depends on invariants relating a dozen vectors over the whole history.", "anchors": ["starlit/src/prop.rs", "starlit/src/prop/trail.rs", "starlit/src/conflict_analysis.rs", "starlit/src/minimize.rs", "starlit/src/search/reduce.rs", "starlit/src/clause_arena.rs"]}
{"id": "C05", "title": "DRAT proofs are accepted", "statement": "When a proof writer is attached from the start, every clause logged as an addition has the RUP property with respect to the input clauses plus the earlier additions minus the earlier deletions, and when solve() returns false unit propagation on the final clause set derives a conflict.", "quantifier": "every formula and every run", "why_tests_cant": "The proof log interleaves additions and deletions over a run of unbounded length; each line must be checkable at its own position.", "anchors": ["starlit/src/conflict_analysis.rs: learn_and_assign", "starlit/src/search/reduce.rs: reduce", "starlit/src/proof.rs: Proof"]}
{"id": "C06", "title": "Proof deletions name clauses that are present and learned", "statement": "Every clause logged as deleted is, as a multiset of literals, present in the clause set of the proof at that point, is a learned clause that was logged as added earlier, and has at least three literals; input clauses are never deleted.", "quantifier": "every formula and every run", "why_tests_cant": "Propagation permutes clause literals in place and garbage collection moves clauses; any corruption only shows on particular histories.", "anchors": ["starlit/src/search/reduce.rs: reduce", "starlit/src/prop/unit_prop.rs: propagate_long_clauses"]}
{"id": "C07", "title": "Unit propagation only assigns consequences", "statement": "Every literal that propagate() puts on the trail follows by unit propagation from the stored clauses together with the literals already on the trail, and records as its reason a stored clause all of whose other literals are false earlier on the trail.", "quantifier": "every solver state reachable through the API, every order of watch list entries", "why_tests_cant": "Holds only with an invariant over all reachable watch lists and permuted clauses.", "anchors": ["starlit/src/prop/unit_prop.rs: propagate, propagate_literal", "starlit/src/prop/trail.rs: Reason::lits"]}
{"id": "C08", "title": "Unit propagation misses nothing", "statement": "When propagate() returns Ok, no stored clause is falsified, and every stored clause without repeated literals that is not satisfied has at least two unassigned literals.", "quantifier": "every reachable solver state", "why_tests_cant": "Completeness of watch lists is the invariant that backtracking must preserve without touching the watches; tests see only a few interleavings.", "anchors": ["starlit/src/prop/unit_prop.rs: propagate", "starlit/src/prop/watch.rs: Watches"]}
{"id": "C09", "title": "Reported conflicts are real", "statement": "When propagate() returns Err(conflict), the referenced clause is a stored clause and each of its literals is false, and at least one of them was assigned at the current decision level.", "quantifier": "every reachable solver state", "why_tests_cant": "Needs the invariant that the unpropagated part of the trail belongs to the current decision level.", "anchors": ["starlit/src/prop/unit_prop.rs", "starlit/src/prop.rs: ConflictClause::lits"]}
{"id": "C10", "title": "Conflict analysis learns an asserting clause", "statement": "After analyze_conflict the learned clause has exactly one literal of the conflict level, follows from the stored clauses, the solver has backtracked to the highest level among its other literals (or to the top), all other literals of the learned clause are false, and its first literal is now true with the learned clause as its reason.", "quantifier": "every reachable conflict", "why_tests_cant": "The 1-UIP traversal depends on the whole implication graph; only some graphs expose an error.", "anchors": ["starlit/src/conflict_analysis.rs: analyze_conflict, derive_1uip_clause, learn_and_assign"]}
{"id": "C11", "title": "Clause minimisation is sound", "statement": "minimize() returns a clause that contains the asserting literal, is a subset of the 1-UIP clause and is still implied (by reverse unit propagation) by the stored clauses; its temporary buffers are clean again for the next call.", "quantifier": "every implication graph, every recursion depth (recursive and iterative fallback alike)", "why_tests_cant": "The cached DFS and its iterative fallback beyond depth 20 are only exercised on deep graphs; stale cache entries only hurt a later call.", "anchors": ["starlit/src/minimize.rs: minimize, literal_index_is_redundant_rec_uncached, literal_index_is_redundant_iter"]}
{"id": "C12", "title": "Backtracking undoes exactly the higher levels", "statement": "backtrack_to_level(d) unassigns exactly the variables assigned at a level above d, keeps every other assignment, its level and its reason, calls the unassign callback once per undone literal, and leaves d as the decision level.", "quantifier": "every reachable state and every target level below the current one", "why_tests_cant": "A universally quantified statement over trails and levels.", "anchors": ["starlit/src/prop/trail.rs: backtrack_to_level"]}
{"id": "C13", "title": "Decisions are made on unassigned variables, and SAT is only reported when none is left", "statement": "pop_decision_var returns a variable that is unassigned, and returns None only if every variable is assigned; the heap always contains all unassigned variables.", "quantifier": "every history of assignments, backtracks, bumps and pops", "why_tests_cant": "Superset invariant over the whole history with lazy removal.", "anchors": ["starlit/src/search/vsids.rs: Vsids::pop_decision_var, unassign", "starlit/src/search.rs: search_step"]}
{"id": "C14", "title": "The decision heap returns a maximum", "statement": "pop_max returns an enqueued key whose value is at least the value of every other enqueued key, and dequeues exactly that key.", "quantifier": "every history of resize, enqueue, dequeue, increase (non-decreasing), apply_monotone and pop_max", "why_tests_cant": "Heap order is an invariant over arbitrary operation sequences; the only test performs a single fixed sequence without dequeue.", "anchors": ["starlit/src/heap.rs: MaxHeap::pop_max, dequeue, enqueue, increase, apply_monotone"]}
{"id": "C15", "title": "The heap behaves like a set of keys with values", "statement": "is_enqueued, enqueue, dequeue, pop_max, increase and Index behave like operations on a set of enqueued keys plus a value table: each operation changes membership and value of only the key it names.", "quantifier": "every operation history and every value type", "why_tests_cant": "The position array must remain the inverse of the heap array through every swap.", "anchors": ["starlit/src/heap.rs: MaxHeap"]}
{"id": "C16", "title": "The clause arena is a faithful clause store", "statement": "After any history of add_clause, literal and header updates, shrink_clause and delete_clause, lits/header/clause_len of a reference return exactly what was last stored for that clause; deleted clauses read as empty; other clauses are unaffected.", "quantifier": "every operation history", "why_tests_cant": "Clauses are words in one buffer; interference would need specific layouts.", "anchors": ["starlit/src/clause_arena.rs: ClauseArena"]}
{"id": "C17", "title": "Arena iteration visits exactly the live clauses", "statement": "Iterating with next_clause from None visits every clause that is not deleted exactly once, in insertion order, skips deleted clauses and padding left by shrink_clause, and terminates.", "quantifier": "every arena history", "why_tests_cant": "Word-level scanning with markers; correctness depends on no other word having its top bit set.", "anchors": ["starlit/src/clause_arena.rs: next_clause, find_clause"]}
{"id": "C18", "title": "Invalid clause references panic instead of reading out of bounds", "statement": "For every 32-bit reference, valid or not, clause_len, lits, lits_mut, header, header_mut, shrink_clause and delete_clause either panic or access only words inside the buffer that belong to one clause.", "quantifier": "every reference value and every arena history", "why_tests_cant": "Memory safety of unchecked accesses for all inputs.", "anchors": ["starlit/src/clause_arena.rs: clause_len, lits_unchecked_with_len, header_unchecked"]}
{"id": "C19", "title": "Garbage collection keeps live clauses and remaps references", "statement": "collect_garbage keeps every live clause with its header and literals in order, drops all deleted storage and padding, and the returned map sends the reference of each live clause to a reference of the same clause and the reference of each deleted clause to None.", "quantifier": "every arena history", "why_tests_cant": "Compaction plus binary search over gaps over unboundedly many layouts, including the 32-bit truncation of offsets.", "anchors": ["starlit/src/clause_arena.rs: collect_garbage, ClauseRefGcMap::update"]}
{"id": "C20", "title": "Arena utilisation accounting is exact", "statement": "utilization().used equals the number of words occupied by live clauses (and allocated the buffer length) after any history.", "quantifier": "every arena history", "why_tests_cant": "A counter kept incrementally over arbitrary histories.", "anchors": ["starlit/src/clause_arena.rs: utilization, delete_clause, shrink_clause, should_collect_garbage"]}
{"id": "C21", "title": "Clause header fields are independent and saturate", "statement": "Setting one of redundant, protected, glue, used, search_pos never changes the others or the top bit; reading back yields the value, clamped to the largest representable one for glue (63) and used (3).", "quantifier": "all header words and all values", "why_tests_cant": "Bit-field arithmetic over all 2^64 headers.", "anchors": ["starlit/src/prop/long.rs: LongHeader", "starlit/src/clause_arena.rs: HeaderWord"]}
{"id": "C22", "title": "Shrinking a clause keeps its search position valid", "statement": "After shrink_clause on a long clause (new length at least 3) the stored circular search position still addresses one of the unwatched literals, so later propagation cannot index out of bounds.", "quantifier": "every clause length, search position and new length", "why_tests_cant": "Off-by-two boundary only visible for particular positions.", "anchors": ["starlit/src/prop/long.rs: LongHeader::shrink_clause", "starlit/src/prop/unit_prop.rs: propagate_long_clauses"]}
{"id": "C23", "title": "PartialAssignment is a map from variables to optional Booleans", "statement": "After any history of resize, assign and unassign, value, is_true, is_false and is_assigned agree with the map that records the last assignment of each variable; literals and their negations get opposite values.", "quantifier": "every history and every variable index, including indices beyond the 7 bits kept by the byte encoding", "why_tests_cant": "The byte encoding drops high bits of the literal code; correctness for all indices is arithmetic.", "anchors": ["starlit/src/partial_assignment.rs: PartialAssignment"]}
{"id": "C24", "title": "Literal encodings round-trip", "statement": "from_dimacs/dimacs, from_code/code, from_index+is_positive/index are mutually inverse on their documented ranges and panic outside; negation is an involution without fixed points that keeps the variable; select_other returns the other literal.", "quantifier": "all representable variables and literals, all isize inputs", "why_tests_cant": "2^31 literals and 2^64 inputs.", "anchors": ["starlit/src/lit.rs: Var, Lit"]}
{"id": "C25", "title": "Binary DRAT output decodes to the logged steps", "statement": "The bytes written by BinaryDrat for any sequence of add_clause/delete_clause calls decode, under the binary DRAT grammar, to exactly that sequence of steps and literals.", "quantifier": "all sequences of steps and all literals", "why_tests_cant": "Variable-length encoding over all literal codes and unbounded sequences.", "anchors": ["starlit/src/proof/drat.rs: BinaryDrat"]}
{"id": "C26", "title": "Text DRAT output decodes to the logged steps", "statement": "The text written by Drat for any sequence of add_clause/delete_clause calls parses, under the DRAT text grammar, to exactly that sequence of steps and literals.", "quantifier": "all sequences of steps and all literals", "why_tests_cant": "Unbounded sequences and all integers.", "anchors": ["starlit/src/proof/drat.rs: Drat"]}
{"id": "C27", "title": "advance() yields the Luby sequence", "statement": "The n-th call to LubySequence::advance returns the n-th term of the Luby sequence (2^(k-1) at positions 2^k-1, self-similar otherwise).", "quantifier": "every n (below 64-bit overflow)", "why_tests_cant": "The unit test checks 64 terms of an infinite sequence.", "anchors": ["starlit/src/state/luby.rs: LubySequence::advance"]}
{"id": "C28", "title": "Reduction deletes only expendable clauses", "statement": "reduce() deletes only clauses that are redundant, are not the reason of an assignment on the trail, have glue above 2, and (for glue up to 5) were not used since the last reduction; of k candidates it deletes exactly the k-1-k/2 with the largest score; no other clause changes its literals, and no clause stays protected.", "quantifier": "every reachable state", "why_tests_cant": "Selection by score over unboundedly many clauses and headers.", "anchors": ["starlit/src/search/reduce.rs: reduce, protect_clauses, Score"]}
{"id": "C29", "title": "Garbage collection is invisible to the search", "statement": "collect_garbage on the propagation state keeps the set of stored clauses, all assignments, levels and reasons (remapped), and every live clause is still watched exactly by its first two literals; no reason is dropped.", "quantifier": "every reachable state", "why_tests_cant": "References are spread over trail and watch lists; a stale one only matters later.", "anchors": ["starlit/src/prop.rs: collect_garbage, collect_garbage_now", "starlit/src/prop/watch.rs: update_clause_references", "starlit/src/prop/trail.rs: update_clause_references"]}
{"id": "C30", "title": "Reduction scores order lexicographically", "statement": "Scores compare lexicographically by (less used, higher glue, longer), with the length clamped to 24 bits, and the derived bit-field accessors read back what was set without disturbing other fields.", "quantifier": "all usage counts, glues and lengths", "why_tests_cant": "Bit packing over all values.", "anchors": ["starlit/src/search/reduce.rs: Score", "starlit-macros/src/bitfield.rs: derive_bitfield"]}
{"id": "C31", "title": "compute_glue counts decision levels", "statement": "compute_glue returns the number of distinct decision levels among the clause's literals and leaves the temporary flags all false.", "quantifier": "all clauses and trails", "why_tests_cant": "Flag reuse between calls over all histories.", "anchors": ["starlit/src/glue.rs: compute_glue"]}
{"id": "C32", "title": "MutScan keeps exactly the kept items in order", "statement": "Scanning a vector with keep/remove/replace decisions and dropping the scan at any point leaves exactly the kept (possibly modified) items followed by the unvisited suffix, in order; every item is read at most once and never after being overwritten.", "quantifier": "every vector, every decision sequence and every drop point", "why_tests_cant": "Pointer arithmetic on all layouts.", "anchors": ["starlit/src/util/mut_scan.rs: MutScan"]}
{"id": "C33", "title": "Watch lists mirror the clauses", "statement": "At every point between solver steps each live long clause occurs in the watch lists exactly at its first two literals, with another literal of the clause as blocking literal, and rebuilding the lists from scratch (enable_watch_lists) establishes the same.", "quantifier": "every reachable state", "why_tests_cant": "Invariant over all histories of watch moves, reduction and collection.", "anchors": ["starlit/src/prop/watch.rs: Watches, enable_watch_lists", "starlit/src/prop/unit_prop.rs"]}
{"id": "C34", "title": "Restarts lose nothing but the search position", "statement": "restart() keeps all stored clauses and all top-level assignments, drops all decisions, and saves the phase of every undone literal so that a later decision on that variable uses it.", "quantifier": "every reachable state", "why_tests_cant": "Universally quantified over states.", "anchors": ["starlit/src/search.rs: restart", "starlit/src/search/phases.rs: Phases"]}
{"id": "C35", "title": "Formula statistics are exact", "statement": "stats.formula.binary/redundant/irredundant equal the numbers of stored binary, learned long and input long clauses, and stats.formula.vars the number of variables, at every point between API calls and search steps.", "quantifier": "every history", "why_tests_cant": "Incremental counters (with an unchecked decrement) over arbitrary histories.", "anchors": ["starlit/src/prop.rs: add_clause_verbatim, FormulaStats", "starlit/src/search/reduce.rs"]}
{"id": "C36", "title": "Restarts follow the Luby schedule", "statement": "Restarts happen exactly when the number of conflicts reaches the current threshold, and consecutive thresholds set at conflict count c are c + 512 * (next Luby term).", "quantifier": "every run", "why_tests_cant": "Statement about the whole run.", "anchors": ["starlit/src/state.rs: should_restart, schedule_search_step"]}
{"id": "C37", "title": "CLI output reports the model", "statement": "For a satisfiable input the v-lines, concatenated and terminated by 0, list exactly one literal per assigned variable in increasing order with the sign given by value(), no line is longer than 78 characters, and the exit code distinguishes SAT (10) from UNSAT (20).", "quantifier": "every assignment and variable count", "why_tests_cant": "Line wrapping boundary for all literal lengths.", "anchors": ["starlit-cli/src/main.rs: main"]}
{"id": "C38", "title": "The answer depends only on the set of clauses", "statement": "Adding the same clauses in another order, with repetitions or with literals permuted inside clauses gives the same solve() result (when neither run exhausts the arena).", "quantifier": "all pairs of clause lists with the same clause sets", "why_tests_cant": "Relational property over all formulas and runs.", "anchors": ["starlit/src/solver.rs: Solver"]}
{"id": "C39", "title": "Proof logging does not influence solving", "statement": "With and without a proof writer attached the solver performs the same steps, returns the same result and the same assignment.", "quantifier": "all formulas and run lengths", "why_tests_cant": "Relational property over all runs.", "anchors": ["starlit/src/conflict_analysis.rs: learn_and_assign", "starlit/src/search/reduce.rs: reduce", "starlit/src/solver.rs: write_proof"]}
{"id": "C40", "title": "Incremental solving is correct", "statement": "After any interleaving of add_clause and solve calls each solve() answer is correct for all clauses added so far.", "quantifier": "every interleaving of API calls", "why_tests_cant": "Depends on the solver state left behind by previous calls.", "anchors": ["starlit/src/solver.rs: Solver::add_clause, Solver::solve", "starlit/src/prop.rs: add_clause_verbatim"]}
{"id": "C41", "title": "Activity bits order like activities", "statement": "For the non-negative finite f32 values used as activities, comparing the bit patterns as u32 is the same as comparing the real values; the operations are IEEE operations rounded to nearest even; in every state of every run all activities and the increment are at most RESCALE_LIMIT and the increment is at least 1/32, each bump makes an activity strictly larger and stays finite, and decisions take a variable with the largest activity.", "quantifier": "all activities and increments up to the rescale limit", "why_tests_cant": "2^31 bit patterns squared.", "anchors": ["starlit/src/search/vsids.rs: Vsids::bump_var, rescale, decay"]}
{"id": "C42", "title": "Top-level assignments are permanent", "statement": "Once a literal is assigned at decision level zero it stays assigned with that value in every later state of the same solve() call.", "quantifier": "every reachable state and continuation", "why_tests_cant": "Quantifies over all continuations.", "anchors": ["starlit/src/prop/trail.rs: backtrack_to_level", "starlit/src/search.rs: search_step, restart"]}
{"id": "C43", "title": "Phase saving", "statement": "A decision on a variable uses the polarity that the variable had when it was last unassigned, or negative if it never was assigned and undone.", "quantifier": "every history", "why_tests_cant": "Statement about histories.", "anchors": ["starlit/src/search/phases.rs: Phases"]}
{"id": "C44", "title": "Log level filtering", "statement": "A message of level l is emitted exactly when the configured level is at least as verbose as l, and never when logging is off; the CLI maps its -v/-q flags to the documented levels.", "quantifier": "all levels and flag counts", "why_tests_cant": "Finite but total over flag counts.", "anchors": ["starlit/src/log.rs: Logger::log, set_log_level", "starlit-cli/src/main.rs: main"]}
{"id": "C45", "title": "Preparing an unminimised clause for backtracking", "statement": "prepare_for_backtracking, the branch of analyze_conflict that is compiled but never taken, cannot panic on a derived clause, only permutes it, puts the asserting literal first and the most recently assigned other literal second, and returns that literal's level (the top level for a unit clause); taking this branch would keep every guarantee about learned clauses.", "quantifier": "every reachable conflict above the top level", "why_tests_cant": "The code is dead, so no test executes it.", "anchors": ["starlit/src/conflict_analysis.rs: prepare_for_backtracking, analyze_conflict"]}
{"id": "C46", "title": "Reductions follow the square-root schedule", "statement": "The k-th reduction of the clause database happens exactly when the number of conflicts reaches the sum of floor(2000*sqrt(i)) for i from 1 to k, in spite of the f64 rounding of the square root, the product and the conversion to u64.", "quantifier": "every run, for the first 2^26 reductions", "why_tests_cant": "Rounding of an irrational square root has to be right for every counter value, and runs with millions of conflicts are out of reach.", "anchors": ["starlit/src/state.rs: should_reduce, schedule_search_step"]}
{"id": "C47", "title": "A conflict bumps exactly the involved variables, once each", "statement": "A conflict above the top level bumps each variable of the falsified clause and of the reasons resolved with down to the asserting literal, except for those assigned at the top level, exactly once, and no other; then the increment is enlarged. Restarts, reductions, decisions and propagations leave all activities unchanged.", "quantifier": "every reachable state, every step", "why_tests_cant": "The set is defined by a recursion through the implication graph of an arbitrary history.", "anchors": ["starlit/src/conflict_analysis.rs: derive_1uip_clause, add_literal", "starlit/src/search/vsids.rs: Vsids::bump_var, decay"]}
{"id": "C48", "title": "Activities represent the documented VSIDS scores", "statement": "With IEEE f32 arithmetic, in every state of every run the activity of a variable divided by the increment differs by at most 0.001 from its documented score (1 is added for each conflict the variable is involved in, all scores are multiplied by 0.95 after each conflict), through any number of rescalings; no decision picks a variable whose score is more than 0.002 below the best unassigned one.", "quantifier": "every formula, runs of any length", "why_tests_cant": "Rounding errors accumulate over unbounded runs, and rescaling first happens after about 1600 conflicts.", "anchors": ["starlit/src/search/vsids.rs: module documentation, Vsids::bump_var, decay, rescale, pop_decision_var"]}
{"id": "C49", "title": "Minimisation removes every redundant literal and no other", "statement": "Clause minimisation removes a literal exactly when its negation follows from the negations of the remaining literals through the implications recorded on the trail: each removed literal is redundant in this sense, no remaining literal is. The result cache, the per-level shortcut, the recursion limit and the switch to an explicit stack do not change the result.", "quantifier": "every reachable conflict above the top level", "why_tests_cant": "Too weak a minimisation gives correct answers with longer clauses, so no test of the answers can notice it.", "anchors": ["starlit/src/minimize.rs: minimize, literal_index_is_redundant_cached, literal_index_is_redundant_rec, literal_index_is_redundant_rec_uncached, literal_index_is_redundant_iter"]}
{"id": "C50", "title": "Progress reports count the fixed variables", "statement": "The counter behind the `vars=` column of a report is the number of variables with a top-level assignment: never more, and all of them when a decision has been made or the formula was found satisfiable; the remaining variables and their percentage (at most 100) are computed without overflow. The propagation counter counts each assignment propagated by a call of propagate() that ends without a conflict.", "quantifier": "every formula, every reachable state", "why_tests_cant": "Counters are spread over calls and steps of a whole run, and the failure needs an unusual input: a repeated unit clause.", "anchors": ["starlit/src/report.rs: report", "starlit/src/prop/unit_prop.rs: propagate", "starlit/src/prop/trail.rs: fixed_var_count"]}
{"id": "C51", "title": "Conflicts update glue and usage of exactly the clauses they are derived from", "statement": "A conflict above the top level sets the glue of the falsified clause and of the reasons resolved with, as far as they are long, to the number of different levels of their literals (at most 63), and increments their usage counters (at most 3), once each; no other clause changes. A long learned clause is stored with its number of levels as glue and a usage counter of 1.", "quantifier": "every reachable conflict", "why_tests_cant": "The set of clauses is defined by the implication graph of an arbitrary history, and wrong glue values change no answer.", "anchors": ["starlit/src/conflict_analysis.rs: bump_long_clause, learn_and_assign", "starlit/src/glue.rs: compute_glue"]}
{"id": "C52", "title": "The command line program as a whole is right", "statement": "For every CNF file content (variable count up to 2^30, literals within it), the program finishes with a right outcome or stops for a full clause arena: `s UNSATISFIABLE` with exit code 20 only for an unsatisfiable formula, with a proof file (text or binary) that a forward RUP checker working on the DIMACS numbers accepts; `s SATISFIABLE` followed by `v` lines that list, in increasing order of variables up to the declared count, one literal at most per variable and at least one of every clause, with a proof file every line of which the checker accepts.", "quantifier": "every formula, every proof format, every floating point environment", "why_tests_cant": "The statement joins parsing of literals, solving, model printing and proof encoding for all formulas; a run of the program covers one formula.", "anchors": ["starlit-cli/src/main.rs: main", "starlit/src/solver.rs: solve, value", "starlit/src/proof/drat.rs: add_clause, delete_clause"]}
{"id": "C53", "title": "No debug assertion ever fails", "statement": "In a debug build no `debug_assert!` fails: during solve() none of them does, in any state of any run. When clauses are added, exactly one case fails: the unit clause of a literal for which the same unit clause was added before (and was the first on its variable). For formulas without repeated unit clauses the debug build and the release build do the same.", "quantifier": "every formula, every reachable state, every floating point environment", "why_tests_cant": "The assertions are about intermediate states of an arbitrary history, and tests run in release mode skip them.", "anchors": ["starlit/src/prop/trail.rs: trail_index, advance_propagated, assign_raw", "starlit/src/prop/watch.rs: take, restore, push_watch, update_clause_references", "starlit/src/lit.rs: select_other", "starlit/src/clause_arena.rs: ClauseRefGcMap::update", "starlit/src/conflict_analysis.rs: learn_and_assign"]}
{"id": "C54", "title": "The clause arena is never more than half garbage when propagation starts", "statement": "In every state of every run the garbage counter of the long clause arena plus the words needed for the stored long clauses (two header words, length word, literals) is the allocated size, so utilization() is exact; and whenever propagation starts, the allocated size is at most twice the needed size, with the same clauses stored in the same order as before the garbage collection.", "quantifier": "every formula, every reachable state", "why_tests_cant": "The counter is updated by deletions spread over a whole run; a leak shows up only as memory use.", "anchors": ["starlit/src/prop.rs: collect_garbage", "starlit/src/clause_arena.rs: should_collect_garbage, collect_garbage, utilization, delete_clause, add_clause"]}
{"id": "C55", "title": "The search counters count what happened", "statement": "A search step counts one conflict exactly if propagation ended with one and one decision exactly if it put one on the trail; a restart or reduction is counted exactly if it was due and done, and changes no other counter. In every state of every run the number of conflicts is the number of clauses added to the proof, plus one if the search found the formula unsatisfiable (zero of both if the input was found unsatisfiable before the search); the decisions on the trail are at most the counted ones, and the reductions counted are those of the schedule.", "quantifier": "every formula, every reachable state", "why_tests_cant": "Counters drive restarts, reductions and reports over a whole run; wrong counts change no answer.", "anchors": ["starlit/src/search.rs: search_step, restart", "starlit/src/search/reduce.rs: reduce", "starlit/src/state.rs: schedule_search_step", "starlit/src/conflict_analysis.rs: analyze_conflict"]}
{"id": "C56", "title": "Trail positions and decision levels fit into 32 bits, and subtractions do not underflow", "statement": "In every state of every run, also after propagation, the trail has at most as many entries as there are variables (at most 2^30) and unit clauses, the decision level is at most the number of variables, there is always a level to subtract one from, and every stored position is below the length of the trail; with fewer than 2^31 unit clauses all of these are below u32::MAX, so that no cast truncates and no position is mistaken for the marker of a missing index. No subtraction of the solver underflows during solve() (search for clauses, garbage collection, reference update, propagation counter, literal counter of the analysis, used counter, clause counter).", "quantifier": "every formula, every reachable state", "why_tests_cant": "Truncation and wrap-around need inputs of gigabytes or very long runs; release builds do not check arithmetic.", "anchors": ["starlit/src/prop/trail.rs: decision_level, assign_raw, assign_decision, TrailIndex", "starlit/src/clause_arena.rs: find_clause, collect_garbage, update", "starlit/src/prop/unit_prop.rs: propagate", "starlit/src/conflict_analysis.rs: derive_1uip_clause", "starlit/src/search/reduce.rs: reduce"]}
{"id": "C57", "title": "Iterating over the keys of a VecMap visits every key in order from both ends", "statement": "For every map and each of its key types (Var, Lit, DecisionLevel, TrailIndex, usize; up to the largest index of the type), the iterator returned by keys() behaves under every sequence of next, next_back, nth and nth_back calls like a double ended queue of the keys in the order of their values, never panics, and last, count, len and size_hint tell the truth about the remaining keys. Looking up the keys in order gives the values in order, writing through a key changes only the value at its position, a valid key is re-created from its own index, and a literal used as key for a variable finds the value of its variable.", "quantifier": "every map, every sequence of calls", "why_tests_cant": "The iterator is generic in the key type and has two ends that may meet after any sequence of calls; tests try a few.", "anchors": ["starlit/src/util/vec_map.rs: keys, VecMapKeys, VecMapKey, VecMapIndex, index, index_mut", "starlit/src/lit.rs: vec_map_index, vec_map_key_from_index", "starlit/src/prop/trail.rs: DecisionLevel, TrailIndex"]}
{"id": "C58", "title": "solve() never fails while the clause arena has fewer than 2^32 words", "statement": "Whenever the clause arena has fewer than 2^32 words (and the formula fewer than 2^31 unit clauses), an iteration of solve() succeeds: there is no panic of a full arena, no value that leaves its integer type, and no other error; it enlarges the arena by at most one clause with one literal of each variable. The same holds for add_clause with clauses of fewer than 2^31 literals, which enlarges the arena by exactly the clause if it is long. So loading a formula and k iterations succeed if the arena has room for the long clauses and k learned clauses, and an answer given by then is right; if solve() fails, the arena had reached 2^32 words before, and when an iteration makes it reach that size, the stored clauses needed more than 2^30 words, so the failure is never due to garbage alone.", "quantifier": "every formula, every reachable state, every number of iterations, every floating point environment", "why_tests_cant": "The limits need tens of gigabytes of clauses; tests never get near them, and a failure below the limits would depend on an arbitrary history.", "anchors": ["starlit/src/clause_arena.rs: add_clause, collect_garbage", "starlit/src/prop/trail.rs: assign_raw, TrailIndex", "starlit/src/state.rs: schedule_search_step", "starlit/src/solver.rs: add_clause", "starlit/src/search.rs: search_step", "starlit/src/conflict_analysis.rs: analyze_conflict, learn_and_assign"]}
{"id": "C59", "title": "Every learned clause is new", "statement": "In every run, every clause that is learned (and added to the proof) is not empty, has no literal twice and no literal together with its negation, has only literals that occur in clauses of the formula, and contains none of the clauses known at this time: no clause of the formula without repeated literals and no learned clause that has not been deleted is a subset of it. So the learned clauses stored at any time are pairwise different and different from the clauses of the formula, and all stored clauses are made of literals of the formula.", "quantifier": "every formula, every reachable state, every conflict, every floating point environment", "why_tests_cant": "A solver that misses a propagation now and then still answers correctly but learns clauses it has already; that depends on the whole history of the watch lists.", "anchors": ["starlit/src/conflict_analysis.rs: analyze_conflict, derive_1uip_clause", "starlit/src/minimize.rs: minimize", "starlit/src/prop/unit_prop.rs: propagate", "starlit/src/prop/watch.rs: watch_clause"]}
{"id": "C60", "title": "Decisions, propagations and iterations are bounded by the number of conflicts", "statement": "In every state of every run of a formula with n variables that has had c conflicts and r restarts, r is at most c/512 + 1, there were at most n*(c+r+1) decisions, and at most n*(c+r+1) counted propagations plus one for each unit clause of the formula. An iteration of solve() that gives no answer makes exactly one decision or has exactly one conflict, so a run still going on after k iterations has k <= c + n*(c + c/512 + 2).", "quantifier": "every formula, every reachable state, every number of iterations, every floating point environment", "why_tests_cant": "A solver that decides or propagates variables again and again between two conflicts is only slow; no test compares the counters with a bound.", "anchors": ["starlit/src/search.rs: search_step, restart", "starlit/src/prop/unit_prop.rs: propagate", "starlit/src/state.rs: schedule_search_step, should_restart", "starlit/src/state/luby.rs: advance", "starlit/src/prop/trail.rs: backtrack_to_level"]}
{"id": "C61", "title": "The proof file of an incremental run is a proof", "statement": "If clauses are added between calls of solve() (as in the proved part of C40: each in a state where it does no harm), the one proof file of all calls stays valid: it can be read back in both formats, and a checker that is given all clauses added so far accepts every line, also those written before some of the clauses were added; adding clauses writes nothing and solve() only appends. When a call answers false for the first time, the complete file is a refutation of the clauses added so far that the checker accepts, whether unsatisfiability was found by the search or noticed while adding a unit clause and whatever was deleted in between; at any later answer false, a first part of the file is.", "quantifier": "every sequence of such calls, every number of iterations, both formats, every floating point environment", "why_tests_cant": "Clauses learned before and after additions mix in one file with deletions in between; a file is only checked at the end of a run, and a reduction between noticing and answering needs thousands of conflicts first.", "anchors": ["starlit/src/context.rs: Ctx", "starlit/src/proof/drat.rs: add_clause, delete_clause", "starlit/src/solver.rs: add_clause, solve", "starlit/src/state.rs: schedule_search_step", "starlit/src/search/reduce.rs: reduce", "starlit/src/prop.rs: add_clause_verbatim"]}
{"id": "C62", "title": "Conflict analysis stops at the first unique implication point", "statement": "Take the implication graph of a conflict: its nodes are the assignments on the trail, with an edge to each assignment whose reason contains the negated literal, and to the conflict from each literal of the falsified clause. For every conflict above the top level of every run, the clause derived by derive_1uip_clause ends with the negation of the unique implication point closest to the conflict: all paths from the last decision to the conflict go through it, and no later assignment has this property. The other literals of the clause are exactly the negations of the assignments above the top level, not after this point, from which a path leads to the conflict over later assignments only. The learned clause has the literal of the point first. There always is a path from the last decision.", "quantifier": "every formula, every reachable state, every conflict, every floating point environment", "why_tests_cant": "Stopping one resolution step too early or too late, or resolving in another order, still gives implied clauses that assert a literal; answers stay right and only the search gets slower.", "anchors": ["starlit/src/conflict_analysis.rs: derive_1uip_clause, add_literal", "starlit/src/minimize.rs: minimize", "starlit/src/prop/trail.rs: trail_index, steps"]}
{"id": "C63", "title": "The solver and the proof checker have the same clauses", "statement": "If a proof is written, then in every state of every run the clauses stored by the solver are those of a checker that has read the proof so far: the formula plus the clauses added and not deleted. Each clause of three or more literals is in the arena exactly as often as the checker has it, as irredundant clause for the formula and as redundant clause for the proof; each binary clause is in the lists of its two literals exactly as often as the checker has it; unless the formula is known to be unsatisfiable, every unit clause of the checker is assigned at the top level, and every assignment with reason unit clause is a unit clause of the checker.", "quantifier": "every formula, every reachable state, every floating point environment", "why_tests_cant": "A missing or misplaced deletion line leaves the proof acceptable; only the clause database of the checker grows. A clause lost by the solver only makes the search slower. Tests see the final answer and a checker's verdict.", "anchors": ["starlit/src/search/reduce.rs: reduce", "starlit/src/conflict_analysis.rs: learn_and_assign", "starlit/src/prop.rs: add_clause_verbatim", "starlit/src/prop/binary.rs: add_clause", "starlit/src/clause_arena.rs: delete_clause"]}
{"id": "C64", "title": "No 64-bit counter overflows", "statement": "In every state of every run all statistics counters and the fields of the restart and reduction schedule are bounded: restarts, restart threshold and the Luby state linearly in the number of conflicts, decisions and propagations by the number of variables times about the number of conflicts, the clause counts by the number of clauses of the formula and the number of conflicts, the reductions by the sums of their intervals. Hence with the f64 arithmetic of the solver no u64 or usize counter reaches 2^64 as long as there are at most 2^33 conflicts (or, for formulas with fewer variables, up to 2^46), so no addition wraps around or panics.", "quantifier": "every formula with less than 2^62 clauses, every reachable state, IEEE arithmetic for the second part", "why_tests_cant": "An overflow needs days of running; a counter that grows faster than intended is not visible in the answers.", "anchors": ["starlit/src/search.rs: SearchStats", "starlit/src/prop.rs: PropStats, FormulaStats", "starlit/src/state.rs: Schedule, should_restart, should_reduce", "starlit/src/state/luby.rs: advance", "starlit/src/prop/unit_prop.rs: propagations"]}
{"id": "C65", "title": "The trail is the implication graph its documentation describes", "statement": "In every state of every run: a literal is true exactly if it is on the trail and false exactly if its negation is; step_for_var finds for each assigned variable a step with its literal and level, and above the top level that very step; the steps are ordered by level; the decisions are at levels 1, 2, 3 up to the current level, each the first step of its level; the other literals of the reason of each propagated literal are falsified by earlier steps, the reason with the literal is a stored clause, and the level of the literal is the maximum of their levels (zero if there are none); fixed_var_count is the number of steps of level zero; steps not yet propagated have the current level.", "quantifier": "every formula, every reachable state, also inside a search step, every floating point environment", "why_tests_cant": "A step with a level that is too high or a reason that is not quite the right clause still lets most conflicts be analysed; tests do not look at the trail of each state.", "anchors": ["starlit/src/prop/trail.rs: Step, Trail, Reason, step_for_var, fixed_var_count, assign_raw, assign_decision, backtrack_to_level"]}
{"id": "C66", "title": "Clause minimisation takes linear time", "statement": "For every conflict of every run, minimisation of the derived clause takes at most twice as many steps as the implication graph has edges, plus three for each literal on the trail and three for each literal of the clause. Steps are iterations of all loops (lookahead, recursion over reasons, iterative fallback, retain, cleanup of the caches) and calls of the redundancy check. The counted functions are those of the model (erasing the counter gives the same results), and the bound holds for every limit of the recursion depth.", "quantifier": "every formula, every conflict of every run with a derived clause of at least two literals, every recursion limit", "why_tests_cant": "Without the cache of negative results, or with one that is not always filled, minimisation is exponential on some implication graphs and fast on the tested ones.", "anchors": ["starlit/src/minimize.rs: minimize, literal_index_is_redundant_rec, literal_index_is_redundant_rec_uncached, literal_index_is_redundant_iter"]}
{"id": "C67", "title": "The recursion limit of clause minimisation does not matter", "statement": "For every conflict of every run and every limit of the recursion depth, minimisation gives the same clause, the same backtracking level and leaves the same buffers as with the limit 20 of the code: switching to the iterative search at any depth changes nothing, so the iterative version decides exactly like the recursive one.", "quantifier": "every formula, every conflict of every run with a derived clause of at least two literals, every recursion limit", "why_tests_cant": "Test instances hardly reach a recursion depth of 20, so that the iterative version runs rarely; the two versions are only compared on the cases that occur.", "anchors": ["starlit/src/minimize.rs: literal_index_is_redundant_rec_uncached, literal_index_is_redundant_iter, StackItem"]}
{"id": "C68", "title": "A known model is found again without conflicts", "statement": "If all literals on the trail are true in a model of the formula and the model gives the saved phase of every other variable, then solve() meets no conflict, never answers unsatisfiable, is still in this situation whenever it is cut off, answers after at most one more iteration than there are variables, and value() then returns this model. In particular: a fresh solver finds the all-false assignment without conflicts if it satisfies the formula; and solve() called again after a satisfiable answer answers in one iteration, without decisions, conflicts or restart, with the same value for every literal.", "quantifier": "every formula, every reachable state, every model, every number of iterations, every floating point environment", "why_tests_cant": "Phase saving that stores a wrong polarity, or saves on the wrong occasion, and a decision that ignores the saved phase leave all answers right; so do spurious conflicts.", "anchors": ["starlit/src/search/phases.rs: unassign, decide_phase", "starlit/src/search.rs: search_step, restart", "starlit/src/state.rs: schedule_search_step, should_restart", "starlit/src/solver.rs: solve, value"]}
{"id": "C69", "title": "Unit propagation takes linear time", "statement": "Every call of unit propagation in a run takes at most one step for each literal it propagates and each entry of the lists of binary clauses, two for each entry of the watch lists and five for each used word of the clause arena (plus one), no matter how often the watched literals of a clause are replaced during the call. Steps are propagated literals, visited binary clauses, visited watches and inspected literals of clauses. This holds above the top level for every formula and at the top level for formulas that do not repeat a unit clause; for repeated unit clauses it fails, each copy is propagated again. For all formulas, each literal waiting to be propagated that is on the trail before as well takes at most one more walk over the lists of binary clauses and watches, and there are at most as many of them as unit clauses in the formula. The counted functions are those of the model (erasing the counter gives the same results).", "quantifier": "every formula, every call of propagation in every run, every floating point environment", "why_tests_cant": "Searching the new watched literal from the start of the clause every time, the quadratic behaviour the code comments say is avoided, gives the same answers and only shows on long clauses whose literals become false in the order of the search.", "anchors": ["starlit/src/prop/unit_prop.rs: propagate, propagate_literal, propagate_binary_clauses, propagate_long_clauses", "starlit/src/prop/long.rs: search_pos, set_search_pos"]}
{"id": "C70", "title": "Operations of the decision heap take logarithmic time", "statement": "For a heap of n variables: increasing a score runs through the sift loop at most log2(n) times, enqueueing a variable at most log2(n+1) times, removing the maximum or a given variable at most log2(n)+1 times; the bounds hold for every heap on which the operation returns, whatever the order of the scores. The counted functions are those of the model (erasing the counter gives the same results).", "quantifier": "every heap, every comparison of scores, every variable", "why_tests_cant": "A wrong parent or child index that still leads to the root or to a leaf, such as stepping by one position, restores the heap order and gives the same maximum; only the time becomes linear.", "anchors": ["starlit/src/heap.rs: move_towards_root, move_towards_leaves, enqueue, dequeue, pop_max, increase"]}
{"id": "C71", "title": "Conflict analysis takes linear time up to the logarithm for the heap", "statement": "Analysing a conflict in a run (deriving the clause, computing glue, bumping variables, minimising, backtracking and learning) takes at most (13 + log2 n) * (k + e + t) + 8 steps, where n is the number of variables, k the length of the falsified clause, e the number of literals in the reasons of the trail and t the length of the trail. Steps are loop iterations, including those of the heap; rescaling all scores is counted separately (see the next property). The counted function is the one of the model (erasing the counter gives the same results).", "quantifier": "every formula, every conflict above the top level in every run, every floating point environment", "why_tests_cant": "Resolving with a reason twice, bumping per occurrence, searching the trail for each literal or requeueing the whole trail gives the same or equally good clauses, and shows only as time on large formulas.", "anchors": ["starlit/src/conflict_analysis.rs: analyze_conflict, derive_1uip_clause, add_literal, bump_long_clause, minimize_derived_clause, learn_and_assign", "starlit/src/prop/trail.rs: backtrack_to_level", "starlit/src/search/vsids.rs: bump_var, decay, unassign"]}
{"id": "C72", "title": "Scores are rescaled at most once per conflict and in 1600 conflicts", "statement": "With the IEEE 754 single precision arithmetic of the code, one conflict rescales all scores at most once; in a run from the start the number of rescalings is at most a 1600th of the number of conflicts; and in any stretch of a run it is at most one more than that. So the work for rescaling is less than one visit per variable and 1600 conflicts.", "quantifier": "every formula, every run and every part of a run of any length, every order of partition results", "why_tests_cant": "A wrong limit, a wrong factor, or a rescaling that forgets the increment would rescale again and again, at every bump, with the same decisions; with the right constants the first rescaling needs more than 1600 conflicts, more than unit tests have.", "anchors": ["starlit/src/search/vsids.rs: bump_var, decay, rescale, RESCALE_LIMIT, INVERSE_DECAY"]}
{"id": "C73", "title": "Garbage collection pays for itself", "statement": "In a run on a formula with at least one clause of three or more literals, the number of garbage collections is at most the number of reductions, and all collections together copy at most as many words as the clauses removed by reductions had. A collection copies the clauses in use and visits the trail, all watch lists and all watches. (False of the code for formulas without such a clause: should_collect_garbage is true of an empty arena, so that every search step runs a collection that frees nothing and visits all 2n watch lists; proved for all such formulas as long as there is no conflict.)", "quantifier": "every formula, every run of any length, every floating point environment", "why_tests_cant": "Collecting too often changes no answer and no statistic, and the time is hidden behind that of the search; the empty arena needs a formula with units and binary clauses only, and the quadratic time shows for many variables only.", "anchors": ["starlit/src/clause_arena.rs: should_collect_garbage, collect_garbage", "starlit/src/prop.rs: collect_garbage, collect_garbage_now", "starlit/src/prop/trail.rs: update_clause_references", "starlit/src/prop/watch.rs: update_clause_references", "starlit/src/search.rs: search_step"]}
{"id": "C74", "title": "Runs do not depend on the order that the partition leaves", "statement": "`select_nth_unstable` leaves the candidates above the selected one in an unspecified order, and `reduce` deletes clauses in that order. For any two such orders, solving a formula makes the same steps: after any number of iterations there is the same answer or the same panic; assignment, trail, watch lists, clause arena (word for word), scores, statistics and schedule are equal; and the proofs differ at most in the order of consecutive deletion lines.", "quantifier": "every formula, every pair of orders, every number of iterations, every floating point environment", "why_tests_cant": "One build of the standard library has one order; a dependence, such as counting only the last deleted clause or deciding by the position among the candidates, shows after an upgrade of the compiler as a run that cannot be reproduced.", "anchors": ["starlit/src/search/reduce.rs: reduce", "starlit/src/clause_arena.rs: delete_clause", "starlit/src/state.rs: schedule_search_step", "starlit/src/solver.rs: solve"]}
{"id": "C75", "title": "Propagation computes the closure under unit propagation", "statement": "Take as clauses those that a proof checker has: the clauses of the formula, and those added to the proof and not deleted; take as assumptions the decisions on the trail. `propagate()` reports a conflict if and only if unit propagation from the assumptions falsifies one of the clauses. If it reports none, a literal is true if and only if unit propagation derives it. So the outcome depends on the set of clauses and the set of decisions only, not on the order of clauses, literals, watches or assignments, nor on anything that happened before.", "quantifier": "every formula, every state of every run in which propagate() is called, every pair of such states with the same clauses and decisions", "why_tests_cant": "Propagation that misses an implied literal is repaired by a later decision or conflict, and the answer is the same; to see it one has to compute the closure of thousands of clauses in every state. Independence of the order needs pairs of states reached by different runs.", "anchors": ["starlit/src/prop/unit_prop.rs: propagate, propagate_literal", "starlit/src/prop/trail.rs: Trail", "starlit/src/prop/watch.rs: Watch", "starlit/src/clause_arena.rs: collect_garbage", "starlit/src/proof.rs: add_clause, delete_clause"]}
{"id": "C76", "title": "No answer without the whole proof in the file", "statement": "The command line program prints an answer only if the input was read to its end, the proof file did not exist before, every write to it succeeded, and the file holds the whole proof (which is accepted by the checker for `s UNSATISFIABLE`). In all other cases (an error of a write, also one that is reported only when the buffer is flushed; a proof file that exists; an input that ends with an error or has no header) nothing but comments is printed, the exit code is 1, a file that existed is unchanged, and a new one holds a beginning of the proof. Without failures the program is that of C52.", "quantifier": "every formula the CNF format allows, every device (an arbitrary function of the bytes in the file and the bytes to be written, failing after any number of bytes), every capacity of the buffer, both proof formats", "why_tests_cant": "Errors of the disk are not produced in tests, and the buffer hides them until a proof is larger than it; std::process::exit runs no destructors, so that a missing flush loses the last part of a proof without a message.", "anchors": ["starlit-cli/src/main.rs: main", "starlit/src/solver.rs: close_proof, write_proof", "starlit/src/proof/drat.rs: Drat, BinaryDrat, flush, add_clause, delete_clause, write_lits, write_lit"]}
{"id": "C77", "title": "derive_bitfield gives every entry its own bits", "statement": "For every declaration that `derive(Bitfield)` accepts: the entries fit into the base type, no two share a bit, and each starts where the one before ends, skipped entries included. Reading an entry gives the value of its bits. Writing an entry changes no bit outside of it, and reading it back gives the value written (for `clamp` entries the value limited to the largest one that fits). Comparing two words compares the entries lexicographically from the last to the first, which the candidates of a reduction rely on. A setter panics exactly for `clamp` entries with a signed access type of at most as many bits as the entry, and then for every value (a declaration that the macro accepts).", "quantifier": "every declaration (any number of entries, widths, base types and access types), every word, every value", "why_tests_cant": "Macro output is tested through the few declarations in the crate; overlapping entries, a missing mask or a shift of a skipped entry need other declarations and values with bits outside of the entry.", "anchors": ["starlit-macros/src/bitfield.rs: derive_bitfield", "starlit/src/search/reduce.rs: Score"]}
{"id": "C78", "title": "Taking variables out of the decision heap is paid for by assignments taken back", "statement": "In any part of a run, the number of variables that `pop_decision_var` takes out of the heap, plus those left in the heap, is at most the number in the heap at the beginning plus the number of assignments that conflicts and restarts took back since. The loops of `pop_max` run at most log2(n) + 1 times per variable taken out. From the start of a run on, at most n variables are taken out per conflict and restart, and n more.", "quantifier": "every formula, every run and every part of a run of any length, every floating point environment", "why_tests_cant": "Queueing variables that were not unassigned, or the whole heap again after each restart, changes no decision, since assigned variables are skipped; it shows only as time on large formulas.", "anchors": ["starlit/src/search/vsids.rs: pop_decision_var, unassign", "starlit/src/heap.rs: pop_max, enqueue", "starlit/src/prop/trail.rs: backtrack_to_level", "starlit/src/search.rs: search_step, restart"]}
{"id": "C79", "title": "derive(Transparent) fulfils the contract of the unsafe trait", "statement": "`derive(Transparent)` accepts exactly structs with a `repr` of `C` and `transparent` only, and takes the first field (or `()`) as storage. If the compiler accepts the generated code, which it checks by the sizes in `transmute`, then struct and storage have the same size, the alignment of the storage is at most that of the struct, and the bytes of every value of the struct are a value of the storage; so every conversion of values, references, slices and arrays to the storage is sound. The bytes of a storage are a value of the struct exactly if the remaining fields, which are empty, have a value; a reference converts back exactly if it also has the alignment of these fields. For structs with one field, which are all in the crate, struct and storage have the same values and references; a LongHeader is two words of the clause arena. The macro does not ensure the alignment on the way back (a declaration that it accepts and for which a safe function of the arena would make an unaligned reference).", "quantifier": "every struct declaration, every memory contents, every address, every length of arrays and slices", "why_tests_cant": "Undefined behaviour from a wrong layout need not show in any test, and the crate has only structs with one field; padding and empty fields with a larger alignment need other declarations.", "anchors": ["starlit-macros/src/transparent.rs: derive_transparent, check_repr_args", "starlit/src/util/transparent.rs: Transparent, ConvertStorage", "starlit/src/clause_arena.rs: HeaderWord, header, header_mut", "starlit/src/prop/long.rs: LongHeader"]}
{"id": "C80", "title": "The work of a reduction is linear in trail and arena", "statement": "A reduction visits each step of the trail twice. Finding the clauses looks at no word of the arena twice, so at most at one more than there are; each clause is visited at most once, and each gives at most one candidate. The deletions, with all literals written to the proof, are paid for by the words they turn into garbage. In sum that is at most twice the length of the trail and four times the size of the arena.", "quantifier": "every formula, every state of every run of any length, every floating point environment and order of the partition", "why_tests_cant": "A scan that starts again at the beginning for each clause, or that walks through deleted clauses more than once, deletes the same clauses; it shows only as time on arenas of many megabytes.", "anchors": ["starlit/src/search/reduce.rs: reduce, protect_clauses", "starlit/src/clause_arena.rs: find_clause, next_clause, delete_clause"]}
{"id": "C81", "title": "Horn formulas are solved by unit propagation", "statement": "For a formula in which every clause has at most one positive literal, a run of solve() has at most one conflict. The answer unsatisfiable is given without a decision. The answer satisfiable is given without a conflict, and the values of the solver are the least model: the variables that are true are those that are true in every model. An answer is given after at most one more iteration than there are variables.", "quantifier": "every Horn formula, every run of solve() after the formula was added, with or without a proof, every floating point environment", "why_tests_cant": "That no search happens depends on the initial phases, on propagation being complete before each decision and on saved phases; a wrong phase still gives a correct answer, only a different model and more conflicts.", "anchors": ["starlit/src/search/phases.rs: Phases, decide_phase", "starlit/src/search.rs: search_step", "starlit/src/prop/unit_prop.rs: propagate", "starlit/src/solver.rs: solve"]}
{"id": "C82", "title": "Formulas with binary clauses are solved in quadratic time", "statement": "For a formula in which every clause has at most two literals, every conflict above the top level yields a unit clause, so that a proof adds unit clauses only. There is at most one conflict for each of the n variables, and one more. So solve() answers after at most n + 1 + n * (n + 3 + (n + 1) / 512) iterations.", "quantifier": "every formula with clauses of at most two literals, every state of every run of any length, with or without a proof, every floating point environment", "why_tests_cant": "A solver that learned binary clauses here, or backtracked less far, would still answer correctly; only a count over runs on large formulas would show it, and no test covers all of them.", "anchors": ["starlit/src/conflict_analysis.rs: analyze_conflict", "starlit/src/prop/unit_prop.rs: propagate_literal", "starlit/src/prop/binary.rs: BinaryClauses", "starlit/src/search.rs: search_step", "starlit/src/solver.rs: solve"]}
{"id": "C83", "title": "All the work of solve() is polynomial in the formula and the number of conflicts", "statement": "The work of a run is the number of loop iterations of garbage collections (words looked at and copied, references updated, binary searches), propagation, conflict analysis, minimisation, backtracking, decisions (with the operations of the heap), restarts and reductions. If no unit clause occurs twice in the formula, a run with c conflicts on n variables takes at most (c + n * (c + c / 512 + 2) + 1) * (77 + 3 * log2 n) * M steps and 3 * M * c rescales of the activities, where M = n + w + c * (n + 3) + 2 * (m + c) + 1 for m clauses that need w words. For every formula, repeated unit clauses or not, the same holds with 146 + 4 * log2 n in place of 77 + 3 * log2 n and (1 + u) * M in place of M, for u unit clauses. So formulas with clauses of at most two literals, and Horn formulas, take polynomial time.", "quantifier": "every formula, every run of solve() of any length, with or without a proof, every floating point environment", "why_tests_cant": "Time limits of tests only show that some formulas are fast. A leak in the watch lists, an arena that is never collected or a scan over the whole trail for each literal shows only in runs that are long enough; the bound adds up all parts.", "anchors": ["starlit/src/search.rs: search_step, restart", "starlit/src/search/reduce.rs: reduce", "starlit/src/prop.rs: collect_garbage", "starlit/src/prop/unit_prop.rs: propagate", "starlit/src/conflict_analysis.rs: analyze_conflict", "starlit/src/search/vsids.rs: pop_decision_var", "starlit/src/prop/watch.rs: watch_clause", "starlit/src/state.rs: schedule_search_step", "starlit/src/solver.rs: solve"]}
{"id": "C84", "title": "Runs of solve() are resolution proofs", "statement": "If a run of solve() with c conflicts answers unsatisfiable for a formula with n variables, the formula has a resolution refutation with at most n * max(1, c) steps. After every run, with or without an answer, at most n * c resolution steps from the formula derive, for each clause that is stored, a clause with the same literals or fewer. So each lower bound for resolution is one for the number of conflicts of the solver.", "quantifier": "every formula, every run of solve() of any length, with or without a proof, every floating point environment", "why_tests_cant": "The statement is about the existence of short proofs for all formulas; a learned clause that follows from the formula but needs an exponentially long derivation passes every check of answers and models.", "anchors": ["starlit/src/conflict_analysis.rs: analyze_conflict", "starlit/src/minimize.rs: minimize", "starlit/src/search.rs: search_step", "starlit/src/solver.rs: solve"]}
{"id": "C85", "title": "Pigeonhole formulas need exponentially many conflicts", "statement": "For the formula that says that h + 1 pigeons fit into h holes with h >= 3, a run that answers unsatisfiable has c conflicts with (10/9)^((h+1)/4) <= (h + 1) * h * max(1, c), for every choice of decisions, restarts and deletions. For h >= 2000 the solver gives no answer before 2^64 conflicts.", "quantifier": "every number of holes, every run of solve() of any length, with or without a proof, every floating point environment", "why_tests_cant": "No test can wait for 2^64 conflicts, and that small instances take long does not show how the time grows; the lower bound holds for all sizes.", "anchors": ["starlit/src/search.rs: search_step, restart", "starlit/src/search/reduce.rs: reduce", "starlit/src/conflict_analysis.rs: analyze_conflict", "starlit/src/solver.rs: solve"]}
{"id": "C86", "title": "Learned clauses are new for unit propagation", "statement": "Each clause that is learned has a first literal which unit propagation, with all clauses known at this time (the formula and the learned clauses that were not deleted), does not derive from the negations of the other literals, nor does it derive a conflict from them. In particular no learned clause has all literals of a known clause (unless that one has repeated literals), so none is a repetition or a weaker form of a known clause.", "quantifier": "every formula, every clause learned in every run of any length, with a proof, every floating point environment", "why_tests_cant": "A solver that decides before propagation is complete, or backtracks to a wrong level, learns clauses that it already has; its answers stay correct and its proofs valid, so it shows only as lost time.", "anchors": ["starlit/src/prop/unit_prop.rs: propagate", "starlit/src/prop/trail.rs: backtrack_to_level", "starlit/src/search.rs: search_step", "starlit/src/conflict_analysis.rs: analyze_conflict"]}
{"id": "C87", "title": "solve() answers after at most exponentially many conflicts", "statement": "For a formula with n variables, a run of solve() has at most (n - 9 + 1) * 2^n conflicts (n - 9 is 0 for n < 9), whatever is decided, deleted or restarted, and it answers in at most c + n * (c + c / 512 + 2) + 1 iterations of the loop for this bound c, unless the clause arena is full. With at most 50 variables it answers in 2^63 iterations with fewer than 2^56 conflicts, so no counter overflows.", "quantifier": "every formula, every run of solve() of any length, with or without a proof, every floating point environment", "why_tests_cant": "A run that never ends cannot be observed. Restarts and deletions of clauses can make a solver loop for ever if a restart comes back too early; that this is excluded for all formulas follows only from a measure over whole runs.", "anchors": ["starlit/src/search.rs: search_step, restart", "starlit/src/state/luby.rs: LubySequence::advance", "starlit/src/search/reduce.rs: reduce", "starlit/src/conflict_analysis.rs: analyze_conflict", "starlit/src/solver.rs: solve"]}
{"id": "C88", "title": "Proofs are linear in the number of conflicts", "statement": "After c conflicts the proof log has at most 2 * c lines, and no line has more literals than the formula has variables n. So the proof file has at most 2 * c * (12 * n + 4) bytes as text, and at most 2 * c * (5 * n + 2) bytes in the binary format.", "quantifier": "every formula, every state of every run of any length with a proof, both formats, every floating point environment", "why_tests_cant": "A checker accepts proofs with clauses written twice, or with repeated literals; the size of proof files for some formulas says nothing about others.", "anchors": ["starlit/src/proof.rs: add_clause, delete_clause", "starlit/src/proof/drat.rs: Drat, BinaryDrat", "starlit/src/conflict_analysis.rs: analyze_conflict", "starlit/src/search/reduce.rs: reduce"]}
{"id": "C89", "title": "Runs of solve() are runs of the CDCL calculus", "statement": "Read without levels and reasons, with the clauses of the proof log that were not deleted, every state of the solver is reached from a first state (literals of unit clauses assigned) by rules of an abstract calculus: unit propagation; a decision, only if no clause is falsified or unit; learning, which needs a falsified clause, a clause derived by reverse unit propagation with exactly one literal of the last decision level and no literal twice, and cuts the trail to the lowest level where this clause is unit; restarts to the top level; and forgetting of learned clauses with at least three literals that no assigned literal needs as a reason. The counters of decisions, conflicts, restarts and reductions are the numbers of times that the rules were used. If the answer is unsatisfiable the calculus has failed (a clause is falsified without decisions), if it is satisfiable it has succeeded (all variables have a value and no clause is falsified); the calculus is sound.", "quantifier": "every formula, every state of every run of any length with a proof, every floating point environment", "why_tests_cant": "That each step of each run is one of a few rules is a statement about all states; a solver that sometimes decides too early, jumps back too far or forgets a reason still answers correctly on tests.", "anchors": ["starlit/src/search.rs: search_step, restart", "starlit/src/search/reduce.rs: reduce", "starlit/src/conflict_analysis.rs: analyze_conflict", "starlit/src/prop/unit_prop.rs: propagate", "starlit/src/prop/trail.rs: Trail", "starlit/src/solver.rs: add_clause, solve"]}
{"id": "C90", "title": "Proofs do not depend on how a checker treats deletions and copies", "statement": "Checkers differ: some keep copies of a clause apart, some read a clause as a set and delete all its copies at once, some ignore deletions of unit clauses or all deletions. Every clause of the proof log is accepted by a checker that keeps copies and ignores any of the deletions. If no clause of the formula has a repeated literal, it is also accepted by a checker that takes clauses as sets and obeys or ignores each deletion. With the answer unsatisfiable all of them find a conflict by unit propagation at the end.", "quantifier": "every formula (for checkers with sets: without repeated literals in a clause), every run of any length with a proof, every choice of deletions that are ignored, every floating point environment", "why_tests_cant": "A proof that one checker accepts says nothing about others; a solver that learns a clause it already has, and deletes one of the copies, breaks only with checkers that delete both, on the few formulas where this happens.", "anchors": ["starlit/src/proof.rs: add_clause, delete_clause", "starlit/src/search/reduce.rs: reduce", "starlit/src/conflict_analysis.rs: analyze_conflict", "starlit/src/solver.rs: solve"]}
{"id": "C91", "title": "Propagation complete formulas are solved without search", "statement": "A formula is propagation complete if unit propagation, for every consistent set of literals, derives every literal that follows or finds a conflict. On such a formula solve() answers after at most one more iteration than there are variables, with at most one conflict: unsatisfiable without a decision, satisfiable without a conflict. No decision is ever wrong. Formulas that contain their prime implicates are propagation complete.", "quantifier": "every propagation complete formula, every run of any length, with or without a proof, every floating point environment", "why_tests_cant": "A propagation that misses a clause is repaired by later conflicts, so that answers stay correct; that there is nothing to repair for a whole class of formulas can only be shown for all of them.", "anchors": ["starlit/src/prop/unit_prop.rs: propagate", "starlit/src/prop/binary.rs", "starlit/src/search.rs: search_step", "starlit/src/search/vsids.rs: pop_decision_var", "starlit/src/solver.rs: solve"]}
{"id": "C92", "title": "The number of restarts is determined by the number of conflicts", "statement": "If a run has had R restarts, it has had at least 512 times the sum of the first R - 1 terms of the Luby sequence of conflicts, and at most 512 times the sum of the first R terms. The first 2^k - 1 terms add up to k * 2^(k - 1), so the number of restarts reaches 2^j when the number of conflicts passes 256 * j * 2^j. Deletions of clauses and answers do not change this.", "quantifier": "every formula, every run of solve() of any length, with or without a proof, every floating point environment", "why_tests_cant": "The schedule drifts if a restart is late by a conflict or a term of the sequence is used twice; this shows only in the sum over long runs.", "anchors": ["starlit/src/state.rs: schedule_search_step", "starlit/src/state/luby.rs: LubySequence::advance", "starlit/src/search.rs: search_step, restart", "starlit/src/solver.rs: solve"]}
{"id": "C93", "title": "Learned clauses are resolvents", "statement": "Every learned clause is, as a set of literals, derived from clauses of the formula by resolution, with no literal added; so is every clause that is stored. Hence what is closed under resolution passes on: if the formula consists of parts without common variables, each learned clause belongs to one part and is derived from the clauses of this part alone; an autarky (a partial assignment that satisfies each clause of the formula in which it makes a literal false) satisfies each learned clause in which it makes a literal false; clauses learned from Horn clauses are Horn clauses.", "quantifier": "every formula, every state of every run of any length, every floating point environment", "why_tests_cant": "A learned clause with a superfluous literal, or one of another part of the formula, still follows from the formula and is accepted by proof checkers; answers stay correct.", "anchors": ["starlit/src/conflict_analysis.rs: analyze_conflict", "starlit/src/minimize.rs: minimize", "starlit/src/search.rs: search_step", "starlit/src/solver.rs: solve"]}
{"id": "C94", "title": "The memory of the solver is linear in what it stores", "statement": "In every state of every run the lengths of all vectors of the solver (values, trail, binary clauses, watch lists, clause arena, buffers of conflict analysis and minimization, heap, phases) add up to at most 17 * n + 3 * u + 2 * b + w + w / 3 + 3, for n variables, u unit clauses, b binary clauses and w words in the arena: the buffers never grow beyond the trail, watch lists have at most one entry for three words of the arena, and nothing is left in them by conflicts, restarts or deleted clauses. Whenever propagation starts, w is at most twice the number of words that the stored long clauses need.", "quantifier": "every formula, every state of every run of any length, with or without a proof, every floating point environment", "why_tests_cant": "A buffer that grows a little with each conflict, or entries of deleted clauses that stay in watch lists, show only as memory use of long runs.", "anchors": ["starlit/src/prop/watch.rs", "starlit/src/clause_arena.rs: collect_garbage", "starlit/src/conflict_analysis.rs: update_trail_len, analyze_conflict", "starlit/src/minimize.rs: minimize", "starlit/src/prop.rs: collect_garbage", "starlit/src/search.rs: search_step"]}
{"id": "C95", "title": "Small formulas are always decided", "statement": "For every formula with at most 23 variables, less than 2^31 unit clauses and at most 2^29 words of long clauses (literals and three words per clause), adding the clauses and calling solve() never fails and returns an answer after a number of iterations that depends on the number of variables only; the answer is satisfiable if and only if the formula is. So the program, given such a file, always finishes, prints the right answer and a model or a complete proof. The same holds for more variables if the formula and one clause for each of the at most (n - 8) * 2^n conflicts fit into the arena.", "quantifier": "every formula within these sizes, every proof format, every floating point environment; no condition on the run", "why_tests_cant": "There are more formulas with 23 variables than tests could try; correctness of answers (C01, C02), absence of panics (C04), termination (C03) and the arena limit (C58) each leave an exception that only all of them together exclude.", "anchors": ["starlit/src/solver.rs: add_clause, solve", "starlit/src/clause_arena.rs: collect_garbage", "starlit/src/search.rs: search_step", "starlit-cli/src/main.rs: main"]}
{"id": "C96", "title": "Proof writers can be exchanged between calls", "statement": "When write_proof() is called again with a new writer, between any calls of add_clause() and solve(), later calls have the same outcome as without it, the state of the solver differs in the writer only, and the new writer gets exactly what the old one would have got: the two files together are the file of a single writer. When solve() then answers unsatisfiable, the files together are a proof that a checker accepts, and the second file alone is a proof for the clauses that the checker has after the first one, which follow from the formula; it need not be a proof for the formula itself.", "quantifier": "every sequence of calls that add clauses in states where this is harmless, every moment of the exchange, both proof formats, every floating point environment", "why_tests_cant": "Each file on its own is accepted or rejected for many reasons; that nothing is lost or repeated between the files for every moment of the exchange is a statement about pairs of runs.", "anchors": ["starlit/src/solver.rs: write_proof, close_proof", "starlit/src/proof.rs: add_clause, delete_clause", "starlit/src/proof/drat.rs", "starlit/src/conflict_analysis.rs: analyze_conflict", "starlit/src/search/reduce.rs: reduce"]}
{"id": "C97", "title": "Asking again gives the same answer", "statement": "After solve() has answered satisfiable, further calls answer satisfiable in their first iteration and leave the whole state of the solver as it is: assignment, trail, heap, clauses, counters, schedule and proof (if the intervals between reductions are not zero, as in the solver). After it has answered unsatisfiable, the next call answers unsatisfiable in its first iteration and does not panic, and no sequence of added clauses and calls makes it answer satisfiable.", "quantifier": "every formula, every run of any length, any number of further calls, with or without a proof, every floating point environment with nonzero intervals", "why_tests_cant": "A second call that restarts, collects garbage or picks a variable again still answers correctly in a test; that nothing in the state changes after any run needs an argument about all of them.", "anchors": ["starlit/src/solver.rs: solve", "starlit/src/state.rs: schedule_search_step", "starlit/src/search.rs: search_step", "starlit/src/prop.rs: collect_garbage", "starlit/src/prop/unit_prop.rs: propagate", "starlit/src/search/vsids.rs: pop_decision_var"]}
{"id": "C98", "title": "Learned clauses do not pile up", "statement": "If every reduction of a run so far found at most k learned clauses that it has to keep (reasons of assignments, glue at most two, glue at most five and used), and the intervals between reductions are at most m conflicts, then at most k + 2 * m + 2 learned clauses of more than two literals are stored, however many were learned, and the counter that is reported is their number. With the f64 arithmetic of the solver this is at most k + 4000 * sqrt(i) + 2 after i < 2^26 reductions.", "quantifier": "every formula, every run of any length, all k and m, with or without a proof, every floating point environment with nonzero intervals", "why_tests_cant": "Reductions that delete fewer clauses than they should, or consider fewer of them, only slow the solver down; the bound is about sums over all reductions of a long run.", "anchors": ["starlit/src/search/reduce.rs: reduce, protect_clauses", "starlit/src/state.rs: schedule_search_step", "starlit/src/search.rs: search_step", "starlit/src/conflict_analysis.rs: analyze_conflict", "starlit/src/prop.rs"]}
{"id": "C99", "title": "What contains a hard formula is hard", "statement": "If fixing, renaming and identifying variables turns a formula into one in which each clause is true or contains a clause of G, and every resolution refutation of G has at least N lines, then any run of solve() that answers unsatisfiable has at least N / n conflicts for n variables. So a formula that becomes a pigeonhole formula in this way, such as a pigeonhole formula mixed with a satisfiable part on other variables, takes exponentially many conflicts, whatever is decided, learned and deleted.", "quantifier": "every formula, substitution and G, every run of any length, with or without a proof, every floating point environment", "why_tests_cant": "That no order of decisions and no choice of learned clauses avoids the hard part can not be observed in runs.", "anchors": ["starlit/src/conflict_analysis.rs: analyze_conflict", "starlit/src/minimize.rs: minimize", "starlit/src/search.rs: search_step", "starlit/src/solver.rs: solve"]}
{"id": "C100", "title": "Standard output is the banner, the reports, the statistics and the answer", "statement": "Whatever the flags, and whatever messages of the more verbose levels are logged at whatever places, the lines of standard output that do not start with c are the right answer: the s line and the lines of the model. Without flags the lines are the banner, one report for every reduction in order and one for the answer, the statistics, and the answer; with -q they are the answer alone. Each report, cut at spaces, reads back to the figures of a state of the run: reductions are numbered from one, conflicts are those at which reductions are due, and the last report shows the final state.", "quantifier": "every formula the CNF format allows, every number of -v and -q flags, with and without source locations, every clock, any log messages without line feeds, every floating point environment", "why_tests_cant": "A reader of the answer depends on no message ever breaking a line or being mistaken for a result, for all messages and all figures, whatever their number of digits.", "anchors": ["starlit/src/report.rs: report", "starlit/src/log.rs: log, perform_log", "starlit/src/state.rs: schedule_search_step", "starlit/src/solver.rs: solve", "starlit-cli/src/main.rs: main"]}
{"id": "C101", "title": "MutScan works for items of every size", "statement": "For items of any size, at any address, a scan of a vector with MutScan reads no memory that holds no item, overwrites none that holds one, hands out the items in order, and leaves the vector with the kept items and those that were not visited.", "quantifier": "every item type and size, every address, every vector and spare capacity, every sequence of decisions, every point at which the scan is dropped", "why_tests_cant": "The solver uses the scan with one type of eight bytes; arithmetic with addresses is right or wrong for sizes that no test of the solver uses.", "anchors": ["starlit/src/util/mut_scan.rs: new, next, keep, remove, drop"]}
{"id": "C102", "title": "Safe code only makes literals and variables in the documented range", "statement": "Whatever safe functions of lit.rs a program calls, in any order and with any arguments, every variable it gets has an index of at most MAX_INDEX and every literal a code of at most MAX_CODE (as unsafe code may assume), and every such variable and literal can be made. In this range no 32-bit operation loses a bit and one bit of a literal is free, the unchecked constructors agree with the checked ones, literals are ordered by variable and then by sign, and the printed text is read back as the same literal. select_other returns a literal for any three literals.", "quantifier": "every sequence of calls with all arguments, every variable and literal", "why_tests_cant": "The unsafe code relies on this for all values; tests see a few small variables, and select_other combines bits of unrelated literals.", "anchors": ["starlit/src/lit.rs: Var, Lit, from_index, from_code, from_dimacs, from_var, select_other, cmp, fmt", "starlit/src/util/vec_map.rs: VecMapKey"]}
{"id": "C103", "title": "The log macros print every argument with its name", "statement": "A call of info!, verbose!, debug! or trace! with arguments of the forms expr, = expr, name = expr and \"name\" = expr, with or without a comma at the end, compiles, and if its level is active it prints one line with, for every argument in order, its name followed by a colon (if it has one) and its value.", "quantifier": "every number and order of arguments, all names and expressions, every log level and limit, every parser for expressions", "why_tests_cant": "The macro runs when a call is compiled; the calls in the code use a few of the forms.", "anchors": ["starlit-macros/src/log.rs: LogArg::parse, log_items, log", "starlit/src/log.rs: log, perform_log, add_message, add_value"]}
{"id": "C104", "title": "Adding clauses takes linear time", "statement": "In every state of every run, adding a list of clauses takes at most two steps for each literal, five for each clause and eleven for each variable that is larger than all seen before: vectors are only extended at the end, and variables that are added to the priority queue stay where they are put, without a logarithm. Steps are literals that are looked at, entries and words that are written, and comparisons of the heap.", "quantifier": "every formula, every run of any length with clauses added at any time, every list of clauses in any order, every floating point environment", "why_tests_cant": "Tests measure times for a few formulas; work that is repeated for each clause (resizing to the same size again, sifting new variables up) shows in large formulas only.", "anchors": ["starlit/src/solver.rs: add_clause", "starlit/src/state.rs: resize", "starlit/src/prop.rs: resize, add_clause_verbatim", "starlit/src/search/vsids.rs: resize", "starlit/src/heap.rs: resize, resize_enqueued, enqueue", "starlit/src/partial_assignment.rs: resize", "starlit/src/search/phases.rs: resize"]}
{"id": "C105", "title": "The log of a run is a record of it", "statement": "A reader that knows nothing about the solver can follow a run by its log messages. It keeps a list of decisions; it appends the literal of each decision message and rejects one about a variable that already has a decision; after a derived clause it expects a backtrack message whose first number is the number of decisions and whose second number is smaller, and cuts the list to the second number; after a restart it expects a backtrack message to level zero exactly if there are decisions. For every run this reader ends with exactly the decisions on the trail and the answer of the run. Each clause it was told follows from the formula. The counters of decisions, conflicts, restarts and reductions grow by the number of messages of each kind. The lines on standard output can be read back into the messages up to the chosen level, so the text at level trace suffices. Logging does not change the run.", "quantifier": "all environments, all formulas, all states reachable by solving, all numbers of iterations, all log levels", "why_tests_cant": "a test compares the log of a few runs; this is about all runs, and that the text determines the messages", "anchors": ["starlit/src/search.rs:41-126", "starlit/src/conflict_analysis.rs:82-190", "starlit/src/prop/trail.rs:268-290", "starlit/src/prop.rs:150-160", "starlit/src/search/reduce.rs:19-30", "starlit/src/log.rs:64-124", "starlit-macros/src/log.rs:69-111"]}
{"id": "C106", "title": "What a whole run needs is bounded by the formula", "statement": "Adding the clauses of a formula with n variables to a new solver and calling solve() ends with the right answer, if the formula and (n-8) * 2^n learned clauses fit into the arena (for n < 10: 2^n clauses). All steps of all loops, from the first clause to the answer, are at most an explicit function of the formula: linear for adding the clauses, and (iterations) * (77 + 3 log n) * (size) plus the rescales for solve() if no unit clause is repeated; otherwise 146 + 4 log n and the size times one more than the number of unit clauses. Memory is at most linear in the formula and n times the number of conflicts, the proof file has at most 2 * (12n+4) bytes for each of these conflicts. None of these bounds mentions the run.", "quantifier": "all formulas, all environments (rounding, intervals, order of the partition), all iteration counts", "why_tests_cant": "a worst case is not found by trying some formulas; the bounds are for all of them at once", "anchors": ["starlit/src/solver.rs:24-68", "starlit/src/state.rs:31-73", "starlit/src/search.rs:41-126", "starlit/src/search/reduce.rs:19-91", "starlit/src/proof/drat.rs:1-81"]}
{"id": "C107", "title": "Standard output is right at every level of verbosity", "statement": "What the program prints at each level is a sublist of the lines of the next level, in the same order. At every level, with or without source locations, the lines that do not start with c are the right answer; with -q there is nothing else. With -vvv, the messages can be told from the reports and the statistics, and whoever follows them (decisions, derived clauses, backtracking, restarts) ends up with the answer that is printed. Every progress report says how many messages about reductions, restarts and conflicts were printed before it.", "quantifier": "all CNF inputs in range, all flags, all environments, all iteration counts, all clocks and source locations", "why_tests_cant": "tests look at the output of a few runs at one level; this is about the order of all pieces of output of all runs", "anchors": ["starlit-cli/src/main.rs:46-145", "starlit/src/state.rs:31-42", "starlit/src/solver.rs:61-68", "starlit/src/report.rs:7-37", "starlit/src/search.rs:41-126", "starlit/src/log.rs:64-124"]}
{"id": "C108", "title": "The stack of the iterative minimisation is small, ordered, and empty between calls", "statement": "The fallback of clause minimisation keeps its own stack in a buffer whose lifetime is transmuted. Whatever the buffer holds when the function is called, it is empty whenever its lifetime is transmuted: when it is taken and when it is put back, by every way out. In between, the positions on the stack are positions of the trail in strictly descending order from bottom to top, none above the position that is asked for; each comes with a part of the reason of its position, of the clauses as they are. So no position is on the stack twice, and the stack has at most as many entries as the trail. Keeping the buffer does not change the search.", "quantifier": "all states at which a clause is minimised in all runs, all contents of the cache and of the buffer, all positions of the trail, all limits", "why_tests_cant": "the function is only reached at a recursion depth of 21; whether a slice dangles is not visible to a test", "anchors": ["starlit/src/minimize.rs:207-314"]}
{"id": "C109", "title": "The program fails only for a cause outside of it", "statement": "For CNF inputs with up to 23 variables and room for 2^29 words of clauses, the program finishes, whatever input, proof file and device do. If it prints an answer, the answer and the proof in the file are right. If it prints none, the exit code is 1 and there is a cause outside of the program: the proof file exists or cannot be created, the input cannot be read or is not a CNF file, or the device failed to write although the file is not longer than 2 * (conflicts) * (bytes of a line), a function of the number of variables. A device with room for exactly the bytes of the proof suffices, whatever the size of the buffer; so an answer is never lost because of the way the proof is written.", "quantifier": "all inputs within the bounds, all proof formats, all devices and sizes of buffers, all environments", "why_tests_cant": "tests do not run with disks that fail at every possible byte, and cannot show that nothing else leads to a failure", "anchors": ["starlit-cli/src/main.rs:46-145", "starlit/src/solver.rs:36-68", "starlit/src/proof/drat.rs:1-81"]}
{"id": "C110", "title": "A run that is stopped leaves nothing wrong behind", "statement": "If the program is stopped at any moment, by a time limit, a signal or a panic of println! on a closed pipe, what it has written is right: a status line on standard output is right even without its line feed, the complete lines are a first part of the right answer, a model whose list is ended by 0 satisfies the formula, and a proof file that was cut off can be read only if it ends at the end of a step, and then a checker accepts all its lines.", "quantifier": "all inputs that are parsed, all flags, all first parts of standard output and of the proof file, both proof formats", "why_tests_cant": "a run can be stopped after any byte; a model that is cut off inside of a number reads as another model, which only the missing 0 tells", "anchors": ["starlit-cli/src/main.rs:46-145", "starlit/src/log.rs:1-120", "starlit/src/proof/drat.rs:1-81"]}
{"id": "C111", "title": "Wrong decisions are found at once on formulas that unit propagation refutes", "statement": "Call a formula refutation complete if unit propagation finds a contradiction for every set of literals that contradicts the formula. All formulas that are Horn after exchanging some variables with their negations are of this kind, and all propagation complete formulas. On such a formula, solve() answers unsatisfiable in its first iteration, with at most one conflict and without a decision, and the steps of all its loops are bounded by the number of variables times the size of the formula times one more than the number of unit clauses, up to a constant and a logarithm. If the formula is satisfiable, the decisions of all levels but the last are part of a model in every state, a conflict happens only if the last decision is wrong, after it all decisions are part of a model again, and there are never more conflicts than decisions.", "quantifier": "all refutation complete formulas, all runs of solve() of any length, all environments (rounding, intervals, order of the partition)", "why_tests_cant": "it needs that propagation misses nothing, that a conflict undoes the last decision, and that restarts and reductions lose nothing, for every order of decisions", "anchors": ["starlit/src/prop/unit_prop.rs: propagate", "starlit/src/search.rs: search_step", "starlit/src/conflict_analysis.rs: analyze_conflict", "starlit/src/prop/trail.rs: backtrack_to_level", "starlit/src/solver.rs: solve"]}
{"id": "C112", "title": "Runs that answer unsatisfiable give small interpolants", "statement": "If solve() answers unsatisfiable for the clauses of two formulas A and B after c conflicts, there is a circuit with at most 3 + n * max(1, c) gates for n variables that reads only variables which occur in both A and B, is true in all models of A and false in all models of B. So if A and B are separated only by large circuits, solve() needs many conflicts, whatever it decides, learns, deletes and when it restarts.", "quantifier": "all formulas, all ways to split them into two parts, all runs of solve() that answer unsatisfiable, all environments", "why_tests_cant": "it is about the existence of a small circuit for each run, and a lower bound for all runs", "anchors": ["starlit/src/search.rs: search_step", "starlit/src/conflict_analysis.rs: analyze_conflict, derive_1uip_clause", "starlit/src/minimize.rs", "starlit/src/solver.rs: solve"]}
