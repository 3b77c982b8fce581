{
 "claims": [
  {
   "property": "C01",
   "status": "partial",
   "theorems": [
    "PBfs.C01_answers_sound_partial",
    "PBfs.C01_unsound_registers",
    "PBfs.C01_unsound_occurs_check"
   ],
   "note": "every answer proves the query in every algebra (finite and infinite trees), for programs without register clashes (Untangled, a condition on the source text alone); false in general (register clobbering, no occurs check: witnesses)"
  },
  {
   "property": "C02",
   "status": "partial",
   "theorems": [
    "PBfs.C02_complete_partial",
    "PBfs.C02_complete_is_partial",
    "PBfs.C63_sessions_partial",
    "PBfs.C03_false_wrong"
   ],
   "note": "every provable instance is reported, unless a single machine step does not terminate; programs without register clashes (Untangled, a condition on the source text alone) and without is, ==, \\==; with is (the _is theorems) additionally unless a reported error says that an expression contains an unbound variable; false in general (witness)"
  },
  {
   "property": "C03",
   "status": "partial",
   "theorems": [
    "PBfs.C03_false_conclusive_partial",
    "PBfs.C03_false_conclusive_is_partial",
    "PBfs.C03_false_conclusive_derived_partial",
    "PBfs.C03_false_wrong"
   ],
   "note": "for programs with any predicates, all instances that have a derivation with clauses and with \\== between different values (the _derived theorem), and with is unless a reported error says that an expression contains an unbound variable; all provable instances for programs without register clashes (Untangled, a condition on the source text alone) and without is, ==, \\==; with is (the _is theorems) additionally unless a reported error says that an expression contains an unbound variable; false in general (witness)"
  },
  {
   "property": "C04",
   "status": "proved",
   "theorems": [
    "PBfs.C04_fifo",
    "PBfs.C04_breadth_first",
    "PBfs.C04_answers_in_order"
   ],
   "note": "for every reachable interpreter and every run after load_query"
  },
  {
   "property": "C05",
   "status": "proved",
   "theorems": [
    "PBfs.C05_timeout_no_effect",
    "PBfs.C05_timeouts_transparent",
    "PBfs.C05_schedules_agree"
   ],
   "note": "any clock readings over any number of calls"
  },
  {
   "property": "C06",
   "status": "proved",
   "theorems": [
    "PBfs.C06_error_is_local",
    "PBfs.C06_reported_once"
   ],
   "note": "all later sessions agree with those after a plain failure"
  },
  {
   "property": "C07",
   "status": "proved",
   "theorems": [
    "PBfs.C07_exhaustion_final"
   ],
   "note": ""
  },
  {
   "property": "C08",
   "status": "proved",
   "theorems": [
    "PBfs.C08_isolation",
    "PBfs.C08_isolation_run"
   ],
   "note": "record and heap view of every other alternative unchanged"
  },
  {
   "property": "C09",
   "status": "proved",
   "theorems": [
    "PBfs.C09_unify_exact",
    "PBfs.C09_unify_defined"
   ],
   "note": "for every well-formed layered heap"
  },
  {
   "property": "C10",
   "status": "proved",
   "theorems": [
    "PBfs.C10_unify_fail_conclusive"
   ],
   "note": "no finite-tree solution"
  },
  {
   "property": "C11",
   "status": "partial",
   "theorems": [
    "PBfs.C11_unify_terminates_partial",
    "PBfs.C11_unify_may_hang"
   ],
   "note": "terminates whenever a finite common instance exists; without occurs check it can loop forever (witness)"
  },
  {
   "property": "C12",
   "status": "proved",
   "theorems": [
    "PBfs.C12_eq_is_identity",
    "PBfs.C12_predicate"
   ],
   "note": "all well-formed layered heaps, all argument terms"
  },
  {
   "property": "C13",
   "status": "proved",
   "theorems": [
    "PBfs.C13_neq_complement",
    "PBfs.C13_predicate"
   ],
   "note": "all executor states"
  },
  {
   "property": "C14",
   "status": "proved",
   "theorems": [
    "PBfs.C14_is_exact",
    "PBfs.C14_predicate",
    "PBfs.C14_by_name",
    "PBfs.C14_operators"
   ],
   "note": "all expressions over + - * // with 32-bit intermediate values"
  },
  {
   "property": "C15",
   "status": "partial",
   "theorems": [
    "PBfs.C15_error_kinds_partial",
    "PBfs.C15_predicate_partial",
    "PBfs.C42_breadth_first_resolution_partial",
    "PBfs.C15_message_wrong",
    "PBfs.C34_is_message"
   ],
   "note": "kinds right whenever evaluation ends; message names the wrong functor and may read outside the heap (witnesses)"
  },
  {
   "property": "C16",
   "status": "partial",
   "theorems": [
    "PBfs.C16_pow_exact_partial",
    "PBfs.C16_predicate_partial",
    "PBfs.C16_pow_wrong"
   ],
   "note": "exact if representable as float; 3^16 is wrong (witness)"
  },
  {
   "property": "C17",
   "status": "partial",
   "theorems": [
    "PBfs.C17_left_to_right_partial",
    "PBfs.C17_wrong"
   ],
   "note": "false of the code: chains nest to the right (witness: 10 - 3 - 2 is answered 9); holds for chains in which only the last operator is -, chains of *, and single operators, for all operands and texts"
  },
  {
   "property": "C18",
   "status": "partial",
   "theorems": [
    "PBfs.C18_append_is_concatenation",
    "PBfs.C18_answers_are_concatenations",
    "PBfs.C18_all_splits_partial",
    "PBfs.C18_all_splits_ground"
   ],
   "note": "derivability exact over every algebra; answers sound; completeness as C02; if the third argument or the first two are ground, also without the exception of a turn that does not end; see also C59"
  },
  {
   "property": "C19",
   "status": "partial",
   "theorems": [
    "PBfs.C19_redefinition_rejected",
    "PBfs.C19_built_ins_kept_partial",
    "PBfs.C37_built_ins_lost"
   ],
   "note": "all programs and histories without memory exhaustion; after the clean-up of memory exhaustion there are no built-ins (witness)"
  },
  {
   "property": "C20",
   "status": "partial",
   "theorems": [
    "PBfs.C20_rejected_partial",
    "PBfs.C20_rejected_is_partial",
    "PBfs.C20_message_changes"
   ],
   "note": "exact for everything that does not call is/2 (pending and later queries); with is/2 up to the text of type errors, which does change (witness)"
  },
  {
   "property": "C21",
   "status": "proved",
   "theorems": [
    "PBfs.C21_fresh",
    "PBfs.C21_rejected"
   ],
   "note": ""
  },
  {
   "property": "C22",
   "status": "proved",
   "theorems": [
    "PBfs.C22_counter_counts_goals",
    "PBfs.C22_sessions",
    "PBfs.C22_only_queries_reset"
   ],
   "note": "every moment of every run after load_query, any history"
  },
  {
   "property": "C23",
   "status": "proved",
   "theorems": [
    "PBfs.C23_one_alternative_per_clause"
   ],
   "note": "every history without memory exhaustion, any program"
  },
  {
   "property": "C24",
   "status": "partial",
   "theorems": [
    "PBfs.C24_first_goal_partial",
    "PBfs.C24_shares_witness",
    "PBfs.C24_lost_witness"
   ],
   "note": "Proved for the compiled head and first goal of every clause whose values do not compete for registers (Clause.untangled, a condition on the source): the solutions of the heap are exactly the assignments of the clause variables under which call and head agree, and the argument registers hold the arguments of the goal; later goals are covered end-to-end by C01/C02. False for competing clauses: the two witnesses."
  },
  {
   "property": "C25",
   "status": "proved",
   "theorems": [
    "PBfs.C25_success_iff_no_goal_left",
    "PBfs.C25_waiting_means_goal_left"
   ],
   "note": "every history in which the parser delivers callable atoms and non-empty queries (as its grammar does)"
  },
  {
   "property": "C26",
   "status": "proved",
   "theorems": [
    "PBfs.C26_environments_restored",
    "PBfs.C26_call_keeps_environments",
    "PBfs.C26_own_environment",
    "PBfs.C26_clause_keeps_shared",
    "PBfs.C26_query_keeps_shared"
   ],
   "note": "every history, any nesting; code of every clause and query"
  },
  {
   "property": "C27",
   "status": "partial",
   "theorems": [
    "PBfs.C27_same_number_partial",
    "PBfs.C27_numbers_kept_partial",
    "PBfs.C27_numbers_repeat"
   ],
   "note": "numbers are injective up to 65536 functors, readable up to 32768 and never change meaning before memory exhaustion; beyond that they repeat (witness: a program with 65537 constants)"
  },
  {
   "property": "C28",
   "status": "proved",
   "theorems": [
    "PBfs.C28_ground_text",
    "PBfs.C28_text_injective",
    "PBfs.C28_answers_show_text",
    "PBfs.C28_reading_back"
   ],
   "note": "all ground terms with names free of punctuation; different terms print differently"
  },
  {
   "property": "C29",
   "status": "partial",
   "theorems": [
    "PBfs.C29_rest_truncated_partial",
    "PBfs.C29_rest_never_complete",
    "PBfs.C29_witness"
   ],
   "note": "false: a list whose rest is unbound is printed without its last character, for all such lists; witness"
  },
  {
   "property": "C30",
   "status": "partial",
   "theorems": [
    "PBfs.C30_own_cells_partial",
    "PBfs.C30_two_names",
    "PBfs.C30_one_name"
   ],
   "note": "own cells of one executor have distinct names; across layers one variable has two names and two variables one name (witnesses)"
  },
  {
   "property": "C31",
   "status": "proved",
   "theorems": [
    "PBfs.C31_unchanged",
    "PBfs.C31_completed",
    "PBfs.C31_idempotent",
    "PBfs.C31_space",
    "PBfs.C31_text"
   ],
   "note": "all strings"
  },
  {
   "property": "C32",
   "status": "proved",
   "theorems": [
    "PBfs.C32_false",
    "PBfs.C32_true",
    "PBfs.C32_bindings"
   ],
   "note": "all results"
  },
  {
   "property": "C33",
   "status": "proved",
   "theorems": [
    "PBfs.C33_numbers",
    "PBfs.C33_every_alternative_once",
    "PBfs.C33_one_child_per_clause",
    "PBfs.C33_answers_shown",
    "PBfs.C33_tree_after_load_dangles",
    "PBfs.C33_tree_after_memory_dangles"
   ],
   "note": "all trees returned, at all moments of all histories; in addition the final bindings shown are exactly the answers reported; after loading another program, or after the memory has been exhausted, asking for the tree is undefined (witnesses)"
  },
  {
   "property": "C34",
   "status": "partial",
   "theorems": [
    "PBfs.C34_defined_partial",
    "PBfs.C34_defined_is_partial",
    "PBfs.C34_uninitialised",
    "PBfs.C34_is_message"
   ],
   "note": "no undefined behaviour for programs without register clashes (Untangled, a condition on the source text alone) and without is/2; with is/2 the only undefined behaviour is a result of more than 32 bits or the message of a type error; false in general (witnesses)"
  },
  {
   "property": "C35",
   "status": "proved",
   "theorems": [
    "PBfs.C35_each_variable_once"
   ],
   "note": "all programs and histories, all queries made of atoms that can be called (the only ones the parser produces)"
  },
  {
   "property": "C36",
   "status": "proved",
   "theorems": [
    "PBfs.C36_hash_order"
   ],
   "note": "any two interpreters in lockstep, any orders in any call, all programs and histories including undefined behaviour"
  },
  {
   "property": "C37",
   "status": "partial",
   "theorems": [
    "PBfs.C37_past_forgotten_partial",
    "PBfs.C37_built_ins_lost"
   ],
   "note": "after memory exhaustion all interpreters are alike, whatever happened before; but unlike a new one: the built-ins are lost (witness)"
  },
  {
   "property": "C38",
   "status": "partial",
   "theorems": [
    "PBfs.C38_no_exception_partial",
    "PBfs.C38_texts_partial",
    "PBfs.C38_exception_escapes",
    "PBfs.C38_rejection_unreported"
   ],
   "note": "all texts with integers of 32 bits and, for queries, no text after the dot; larger integers make stoi throw, and a query followed by more text is dropped with an error that claims not to exist (witnesses)"
  },
  {
   "property": "C39",
   "status": "partial",
   "theorems": [
    "PBfs.C39_load_pending_partial",
    "PBfs.C39_dangling"
   ],
   "note": "rejected programs and finished queries; otherwise pointers dangle (witness)"
  },
  {
   "property": "C40",
   "status": "partial",
   "theorems": [
    "PBfs.C40_history_partial",
    "PBfs.C40_history_is_partial"
   ],
   "note": "exact without is/2; with is/2 up to the text of type errors; up to 32768 names; no memory exhaustion"
  },
  {
   "property": "C41",
   "status": "proved",
   "theorems": [
    "PBfs.C41_program_text",
    "PBfs.C41_characters",
    "PBfs.C41_lists",
    "PBfs.C41_query_text",
    "PBfs.C41_unambiguous",
    "PBfs.C41_total",
    "PBfs.C41_trailing_text",
    "PBfs.C41_well_formed",
    "PBfs.C41_sample",
    "PBfs.C41_rejected"
   ],
   "note": "all texts; the grammar of the specification nests chains of operators to the right as the code does (see C17)"
  },
  {
   "property": "C42",
   "status": "partial",
   "theorems": [
    "PBfs.C42_breadth_first_resolution_partial",
    "PBfs.C42_determined",
    "PBfs.C42_lost_registers"
   ],
   "note": "every number of iterations of every query, with any history, over finite and infinite trees; the search is deterministic, including the turns spent on deallocate and the kinds of errors of is; false for programs with clauses that compete for registers (witness)"
  },
  {
   "property": "C43",
   "status": "proved",
   "theorems": [
    "PBfs.C43_conversation",
    "PBfs.C43_every_conversation",
    "PBfs.ConsoleExample.run_out"
   ],
   "note": "all inputs of which the end has not been hit, every number of queries; both directions: what happens is such a conversation, and every such conversation happens"
  },
  {
   "property": "C44",
   "status": "partial",
   "theorems": [
    "PBfs.C44_arguments_are_texts_partial",
    "PBfs.C44_files_unread",
    "PBfs.C44_witness"
   ],
   "note": "false: the path itself is loaded as program text; the files are never read (for all paths that are not program texts; witness)"
  },
  {
   "property": "C45",
   "status": "partial",
   "theorems": [
    "PBfs.C45_quit_partial",
    "PBfs.C45_endless",
    "PBfs.C45_witness"
   ],
   "note": "q. ends the console and nothing else does while there is input; false at the end of the input: the last text is asked again for ever (for all inputs not ending in q; witness: empty input)"
  },
  {
   "property": "C46",
   "status": "partial",
   "theorems": [
    "PBfs.C46_first_error_partial",
    "PBfs.C46_later_error_fatal",
    "PBfs.C46_witness"
   ],
   "note": "holds for an error before the first answer; every error after ; ends the console (witness)"
  },
  {
   "property": "C47",
   "status": "partial",
   "theorems": [
    "PBfs.C43_asked_partial",
    "PBfs.C47_false_partial",
    "PBfs.C47_unread_false",
    "PBfs.C47_witness"
   ],
   "note": "holds for accepted queries as far as C03 does; false for texts that are no queries (all of them) and for rejected queries (witness)"
  },
  {
   "property": "C48",
   "status": "proved",
   "theorems": [
    "PBfs.C48_drawing_is_tree"
   ],
   "note": "all trees returned, at all moments of all histories; the number of iterations needed is bounded by the number of nodes"
  },
  {
   "property": "C49",
   "status": "proved",
   "theorems": [
    "PBfs.C49_goals_drawn",
    "PBfs.C49_joined",
    "PBfs.C49_answers_drawn",
    "PBfs.C49_waiting_drawn"
   ],
   "note": "all moments of all searches; left out: colours, texts shown under the mouse pointer"
  },
  {
   "property": "C50",
   "status": "proved",
   "theorems": [
    "PBfs.C50_lines_show_search",
    "PBfs.C50_texts",
    "PBfs.C50_run_opens",
    "PBfs.C50_next_shows",
    "PBfs.C50_timer_shows"
   ],
   "note": "all sequences of events without exhausted memory; left out: exceptions of the WebAssembly module, two clicks on Run in the same millisecond"
  },
  {
   "property": "C51",
   "status": "partial",
   "theorems": [
    "PBfs.C51_buttons",
    "PBfs.C51_withdrawn_partial",
    "PBfs.C51_exhausted",
    "PBfs.C51_witness"
   ],
   "note": "false as stated: after the memory has been exhausted, false is shown and Next withdrawn although there are answers (in every box: C51_exhausted; witness); the first part holds always, the last part without exhausted memory"
  },
  {
   "property": "C52",
   "status": "partial",
   "theorems": [
    "PBfs.C52_tree_partial",
    "PBfs.C52_node_partial",
    "PBfs.C52_witness"
   ],
   "note": "false as stated: a tree drawn while its box waits for a timer is not redrawn when the answer has come (witness); holds if no tree is drawn while its box waits"
  },
  {
   "property": "C53",
   "status": "partial",
   "theorems": [
    "PBfs.C53_query_partial",
    "PBfs.C53_witness"
   ],
   "note": "false as stated: text after the dot of a query is put into the page as markup (witness); holds for texts without such a rest"
  },
  {
   "property": "C54",
   "status": "proved",
   "theorems": [
    "PBfs.C54_goal_titles",
    "PBfs.C54_bindings",
    "PBfs.C54_determined"
   ],
   "note": "all trees returned at all moments of all histories; what is to be written is determined by the registers and the heap of the executors; that these registers hold the arguments of the call is C24/C26"
  },
  {
   "property": "C55",
   "status": "partial",
   "theorems": [
    "PBfs.C55_text_is_read_partial",
    "PBfs.C55_asking_again_partial",
    "PBfs.C55_unreadable"
   ],
   "note": "for all terms the grammar has a notation for (names are lower-case words, operands of arithmetic operators are arithmetic expressions); false for arithmetic operators on other terms: (a // 2) is shown but not read (witness)"
  },
  {
   "property": "C56",
   "status": "proved",
   "theorems": [
    "PBfs.C56_calls_end",
    "PBfs.C56_calls_succeed",
    "PBfs.C56_answers_sound",
    "PBfs.C56_complete",
    "PBfs.C56_search",
    "PBfs.C56_needed"
   ],
   "note": "the conditions on the program are part of the property; the condition on heads is needed: with e(Z,Z). a query makes get_answer run forever, whatever the time limit (C56_needed)"
  },
  {
   "property": "C57",
   "status": "proved",
   "theorems": [
    "PBfs.C57_calls_end",
    "PBfs.C57_calls_succeed",
    "PBfs.C57_answers_sound",
    "PBfs.C57_complete",
    "PBfs.C57_search",
    "PBfs.C57_answers_ground",
    "PBfs.C57_needed"
   ],
   "note": "the conditions on the program are part of the property; covers append/3 with a ground list and programs with is/2; without inputs it is C56; for the query of C56_needed no modes exist"
  },
  {
   "property": "C58",
   "status": "proved",
   "theorems": [
    "PBfs.C58_exact"
   ],
   "note": "the conditions on the program are part of the property; infinite searches are covered by C57_search and C42"
  },
  {
   "property": "C59",
   "status": "proved",
   "theorems": [
    "PBfs.C59_splits",
    "PBfs.C59_join"
   ],
   "note": "all programs the compiler accepts; the order of the two lines of an answer is left open"
  },
  {
   "property": "C60",
   "status": "proved",
   "theorems": [
    "PBfs.C60_position",
    "PBfs.C60_row",
    "PBfs.C60_error_iff",
    "PBfs.C60_query",
    "PBfs.C60_program_row",
    "PBfs.C60_query_row",
    "PBfs.C60_query_sample",
    "PBfs.C60_row_not_exact",
    "PBfs.C60_samples"
   ],
   "note": "the row is not always that of the mistake: if a body cannot be read, its :- is reported (C60_row_not_exact); rows for texts without carriage returns, columns are not modelled"
  },
  {
   "property": "C61",
   "status": "partial",
   "theorems": [
    "PBfs.C61_query",
    "PBfs.C61_program_partial",
    "PBfs.C61_accepted",
    "PBfs.C61_clause",
    "PBfs.C61_applies",
    "PBfs.C61_missed",
    "PBfs.C61_samples"
   ],
   "note": "queries: proved in full; programs: no false alarms, proved in full; that every undefined variable is found is false: p(A) :- q(B+1) is accepted because B gets the register of A (witness); holds if no new variable of a first goal shares the register of a variable or expression of the head"
  },
  {
   "property": "C62",
   "status": "proved",
   "theorems": [
    "PBfs.C62_positions",
    "PBfs.C62_read",
    "PBfs.C62_query_positions",
    "PBfs.C62_value",
    "PBfs.C62_compiled",
    "PBfs.C62_same",
    "PBfs.C62_row",
    "PBfs.C62_first",
    "PBfs.C62_query",
    "PBfs.C62_witness",
    "PBfs.C62_samples"
   ],
   "note": "the reported goal of a program is the first with an undefined variable only if no registers are shared (C61); rows for texts without carriage returns, columns are not modelled"
  },
  {
   "property": "C63",
   "status": "partial",
   "theorems": [
    "PBfs.C63_within_partial",
    "PBfs.C63_sessions_partial",
    "PBfs.C63_lost_registers"
   ],
   "note": "for programs without register clashes (Untangled, a condition on the source text alone), as long as no iteration hangs or is undefined; derivations may use clauses, is, and \\== between different values; false in general (witness); the bound is reached (example beside the theorem)"
  },
  {
   "property": "C64",
   "status": "partial",
   "theorems": [
    "PBfs.C64_program",
    "PBfs.C64_program_same",
    "PBfs.C64_program_passes",
    "PBfs.C64_query_partial",
    "PBfs.C64_query_same",
    "PBfs.C64_query_passes",
    "PBfs.C64_trailing_missed",
    "PBfs.C64_samples"
   ],
   "note": "programs: proved in full; queries: text behind the dot is not found (witness), everything else is; rows for texts without carriage returns"
  },
  {
   "property": "C65",
   "status": "partial",
   "theorems": [
    "PBfs.C65_about",
    "PBfs.C65_hidden",
    "PBfs.C65_run",
    "PBfs.C65_started_partial",
    "PBfs.C65_marks_partial",
    "PBfs.C65_marks_stay",
    "PBfs.C65_trouble_stays",
    "PBfs.C65_samples"
   ],
   "note": "false in two points: two clicks on Run with the same mistake leave a mark that no edit removes (C65_marks_stay); the notice of an exception (an integer beyond 32 bits) stays after the text was corrected and run (C65_trouble_stays).  The alert's errors are proved in full, marks for one run between edits"
  },
  {
   "property": "C66",
   "status": "proved",
   "theorems": [
    "PBfs.C66_page_tree",
    "PBfs.C66_at_most",
    "PBfs.C66_line",
    "PBfs.C66_sample",
    "PBfs.C66_line_sample"
   ],
   "note": "for every state of the model, reachable or not"
  },
  {
   "property": "C67",
   "status": "partial",
   "theorems": [
    "PBfs.C67_tree_partial",
    "PBfs.C67_sample",
    "PBfs.C67_no_line",
    "PBfs.C67_far"
   ],
   "note": "false of the code: a goal before which an environment is to be removed is shown with an uninitialised line (C67_no_line), and what stands in line 1696969 is shown as built-in (C67_far); proved for all other goals and all clauses"
  },
  {
   "property": "C68",
   "status": "proved",
   "theorems": [
    "PBfs.C68_results",
    "PBfs.C68_lines",
    "PBfs.C68_tree",
    "PBfs.C68_drawing",
    "PBfs.C68_tips",
    "PBfs.C68_no_markup",
    "PBfs.C68_sample",
    "PBfs.C68_sample_tips"
   ],
   "note": "the text of the query that the page shows in the header of a box is the subject of C53"
  },
  {
   "property": "C69",
   "status": "partial",
   "theorems": [
    "PBfs.C69_reopened_partial",
    "PBfs.C69_sample",
    "PBfs.C69_empty",
    "PBfs.C69_long",
    "PBfs.C69_two_pages",
    "PBfs.C69_first_run"
   ],
   "note": "false as stated: an empty text is replaced by a placeholder, a text too long for a cookie by an older one, and two open pages overwrite each other's texts (witnesses); holds for other texts as long as no other page saves; the library for cookies is taken as given"
  },
  {
   "property": "C70",
   "status": "proved",
   "theorems": [
    "PBfs.C70_executors",
    "PBfs.C70_cells",
    "PBfs.C70_given_back",
    "PBfs.C70_room",
    "PBfs.C70_quadratic",
    "PBfs.C70_rest",
    "PBfs.C70_session",
    "PBfs.C70_text",
    "PBfs.C70_sample",
    "PBfs.C70_grows"
   ],
   "note": "entries are counted, not bytes: capacities of vectors and hash maps are left out"
  },
  {
   "property": "C71",
   "status": "proved",
   "theorems": [
    "PBfs.C71_needed",
    "PBfs.C71_is",
    "PBfs.C71_arrangement",
    "PBfs.C71_extension",
    "PBfs.C71_order_matters"
   ],
   "note": "is/2 up to the text of type errors; up to 32768 names; no memory exhaustion"
  },
  {
   "property": "C72",
   "status": "proved",
   "theorems": [
    "PBfs.C72_same_parser",
    "PBfs.C72_program",
    "PBfs.C72_query",
    "PBfs.C72_accepted_program",
    "PBfs.C72_accepted_query",
    "PBfs.C72_depth_sample",
    "PBfs.C72_flat",
    "PBfs.C72_flat_sample",
    "PBfs.C72_flat_text",
    "PBfs.C72_exponential",
    "PBfs.C72_no_polynomial",
    "PBfs.C72_open_brackets",
    "PBfs.C72_witness"
   ],
   "note": "copying of attributes and the bookkeeping of positions are not counted"
  },
  {
   "property": "C73",
   "status": "proved",
   "theorems": [
    "PBfs.C73_new",
    "PBfs.C73_program",
    "PBfs.C73_query",
    "PBfs.C73_others",
    "PBfs.C73_characters",
    "PBfs.C73_printable",
    "PBfs.C73_small",
    "PBfs.C73_asked",
    "PBfs.TableExamples.C73_sample",
    "PBfs.C73_sample_asked",
    "PBfs.C73_rejected"
   ],
   "note": "names of variables in the table are bounded, not listed"
  },
  {
   "property": "C74",
   "status": "proved",
   "theorems": [
    "PBfs.C74_doubling",
    "PBfs.C74_memory",
    "PBfs.C74_no_polynomial",
    "PBfs.C74_sample"
   ],
   "note": "up to memory exhaustion"
  },
  {
   "property": "C75",
   "status": "proved",
   "theorems": [
    "PBfs.C75_names",
    "PBfs.C75_kinds",
    "PBfs.C75_programText",
    "PBfs.C75_queryText",
    "PBfs.C75_sample",
    "PBfs.C75_injective",
    "PBfs.C75_reserved"
   ],
   "note": "terms with names replaced; for texts that the parser turns into such terms"
  },
  {
   "property": "C76",
   "status": "proved",
   "theorems": [
    "PBfs.C76_resolution",
    "PBfs.C76_bound",
    "PBfs.C76_ends",
    "PBfs.C76_sessions",
    "PBfs.C76_exact",
    "PBfs.C76_no_recursion",
    "PBfs.C76_converse",
    "PBfs.C76_iff",
    "PBfs.C76_reverse",
    "PBfs.C76_needed"
   ],
   "note": "programs without wrongly compiled clauses (Asked); C76_bound and C76_ends for iterations that end normally, C76_exact with modes and without is for all"
  },
  {
   "property": "C77",
   "status": "proved",
   "theorems": [
    "PBfs.C77_fewer",
    "PBfs.C77_order",
    "PBfs.C77_more",
    "PBfs.C77_sessions",
    "PBfs.C77_text"
   ],
   "note": "programs without wrongly compiled clauses (Asked), iterations that end normally; answers are compared by their instances"
  },
  {
   "property": "C78",
   "status": "proved",
   "theorems": [
    "PBfs.C78_sound",
    "PBfs.C78_solutions",
    "PBfs.C78_sessions",
    "PBfs.C78_meaning",
    "PBfs.C78_goals",
    "PBfs.C78_none",
    "PBfs.C78_text",
    "PBfs.C78_needed"
   ],
   "note": "programs without wrongly compiled clauses (Asked), iterations that end normally; solutions over finite and infinite trees, as there is no occurs check; that answers show solutions is for all programs, that all solutions are shown for programs without is, == and \\=="
  },
  {
   "property": "C79",
   "status": "proved",
   "theorems": [
    "PBfs.C79_answers",
    "PBfs.C79_lines",
    "PBfs.C79_exact",
    "PBfs.C79_read"
   ],
   "note": "memory not exhausted; texts of at most 32765 characters, programs without wrongly compiled clauses; all solutions shown for programs without is, == and \\=="
  },
  {
   "property": "C80",
   "status": "proved",
   "theorems": [
    "PBfs.C80_soon",
    "PBfs.C80_clicks",
    "PBfs.C80_numerals"
   ],
   "note": "as C79; C80_clicks for programs with modes (C57), since otherwise a unification may not end"
  },
  {
   "property": "C81",
   "status": "proved",
   "theorems": [
    "PBfs.C81_no_more",
    "PBfs.C81_clicks",
    "PBfs.C81_reverse"
   ],
   "note": "as C79 and C76; C81_clicks for programs with modes and without is, == and \\=="
  },
  {
   "property": "C82",
   "status": "proved",
   "theorems": [
    "PBfs.C82_console",
    "PBfs.C82_every_solution",
    "PBfs.C82_ends",
    "PBfs.C82_reverse"
   ],
   "note": "the program is the one the console works with, i.e. an argument taken for a text (C44); memory not exhausted; texts of at most 32765 characters, programs without wrongly compiled clauses; completeness without is, == and \\=="
  },
  {
   "property": "C83",
   "status": "proved",
   "theorems": [
    "PBfs.C83_solutions",
    "PBfs.C83_sound",
    "PBfs.C83_soon",
    "PBfs.C83_sessions",
    "PBfs.C83_lines",
    "PBfs.C83_console",
    "PBfs.C83_factorial",
    "PBfs.C83_needed"
   ],
   "note": "for runs of the model without fault (signed overflow in is is a fault); programs without wrongly compiled clauses; memory not exhausted; texts of at most 32765 characters for web page and console"
  },
  {
   "property": "C84",
   "status": "proved",
   "theorems": [
    "PBfs.C84_turns",
    "PBfs.C84_sessions",
    "PBfs.C84_lines",
    "PBfs.C84_console",
    "PBfs.ComputesExample.C84_factorial",
    "PBfs.ComputesExample.C84_needed"
   ],
   "note": "for runs of the model without fault; a program whose modes are not respected can of course have the error (C84_needed)"
  },
  {
   "property": "C85",
   "status": "proved",
   "theorems": [
    "PBfs.C85_iterates",
    "PBfs.C85_calls",
    "PBfs.C85_errors",
    "PBfs.C85_no_error",
    "PBfs.C85_total",
    "PBfs.C85_clicks",
    "PBfs.C85_console",
    "PBfs.C85_spoken",
    "PBfs.C85_resolution",
    "PBfs.TotalExample.C85_factorial",
    "PBfs.TotalExample.C85_needed"
   ],
   "note": "the search of the model with the orders of hash maps of the storage; memory of the machine without limit; the number of answers, which may repeat a solution, is not bounded by the number of solutions"
  },
  {
   "property": "C86",
   "status": "proved",
   "theorems": [
    "PBfs.C86_proofs",
    "PBfs.C86_soon",
    "PBfs.C86_sessions",
    "PBfs.C86_count",
    "PBfs.C86_lines",
    "PBfs.OnlyClauses.directed",
    "PBfs.ProofsExample.C86_factorial",
    "PBfs.ProofsExample.C86_twice"
   ],
   "note": "for runs of the model without fault; instances over finite and infinite trees, as in C42"
  },
  {
   "property": "C87",
   "status": "proved",
   "theorems": [
    "PBfs.C87_answers",
    "PBfs.C87_sessions",
    "PBfs.C87_count",
    "PBfs.C87_lines",
    "PBfs.Rearranged.proofs",
    "PBfs.C87_needed"
   ],
   "note": "for runs of the model without fault that have ended; instances over finite and infinite trees, as in C42; goals must not be repeated (then C78 says that the solutions are the same, but not how often they are reported)"
  },
  {
   "property": "C88",
   "status": "proved",
   "theorems": [
    "PBfs.C88_exact",
    "PBfs.C88_towers",
    "PBfs.C88_tops",
    "PBfs.C88_no_polynomial",
    "PBfs.C88_session",
    "PBfs.C88_orders",
    "PBfs.C88_turns",
    "PBfs.C88_sample"
   ],
   "note": "iterations of the loop of unify are counted, not seconds; the steps of a single deref are not counted"
  },
  {
   "property": "C89",
   "status": "proved",
   "theorems": [
    "PBfs.C89_ends",
    "PBfs.C89_least",
    "PBfs.C89_most",
    "PBfs.C89_free",
    "PBfs.C89_sessions",
    "PBfs.C89_memory",
    "PBfs.C89_lines",
    "PBfs.C89_clicks",
    "PBfs.BegunExample.C89_factorial",
    "PBfs.BegunExample.C89_two",
    "PBfs.BegunExample.C89_loop"
   ],
   "note": "for runs of the model without fault; iterations are counted, not seconds (C88); instances over finite and infinite trees, as in C42"
  },
  {
   "property": "C90",
   "status": "proved",
   "theorems": [
    "PBfs.C90_fewer",
    "PBfs.C90_fewer_first",
    "PBfs.C90_ends",
    "PBfs.C90_first",
    "PBfs.C90_answers",
    "PBfs.C90_from",
    "PBfs.C90_none",
    "PBfs.C90_soon",
    "PBfs.C90_sessions",
    "PBfs.SpecialExamples.C90_not_back"
   ],
   "note": "for runs of the model without fault; both queries have to have modes as in C83, for the number of iterations only the first; instances over finite and infinite trees"
  },
  {
   "property": "C91",
   "status": "proved",
   "theorems": [
    "PBfs.C91_from",
    "PBfs.C91_soon",
    "PBfs.C91_sessions",
    "PBfs.C91_count",
    "PBfs.C91_iterations",
    "PBfs.C91_ends",
    "PBfs.JoinedExamples.C91_common"
   ],
   "note": "for runs of the model without fault; all three queries have to have modes as in C83, for the bound on the iterations only the two; instances over finite and infinite trees"
  },
  {
   "property": "C92",
   "status": "proved",
   "theorems": [
    "PBfs.C92_from",
    "PBfs.C92_soon",
    "PBfs.C92_count",
    "PBfs.C92_iterations",
    "PBfs.C92_body_iterations",
    "PBfs.C92_ends",
    "PBfs.C92_body_ends"
   ],
   "note": "for runs of the model without fault; head and body have to have modes as in C83; instances over finite and infinite trees"
  },
  {
   "property": "C93",
   "status": "proved",
   "theorems": [
    "PBfs.C93_from",
    "PBfs.C93_soon",
    "PBfs.C93_count",
    "PBfs.C93_iterations",
    "PBfs.C93_ends"
   ],
   "note": "for runs of the model without fault; head and bodies have to have modes as in C83, and the bodies at least one goal; instances over finite and infinite trees"
  },
  {
   "property": "C94",
   "status": "proved",
   "theorems": [
    "PBfs.C94_iterations",
    "PBfs.C94_count",
    "PBfs.C94_from",
    "PBfs.C94_soon",
    "PBfs.C94_bodies_end"
   ],
   "note": "for runs of the model without fault; the call and the instances of the bodies have to have modes as in C83; instances over finite and infinite trees; clauses whose head can be unified with the call but is not more general are not covered"
  },
  {
   "property": "C95",
   "status": "proved",
   "theorems": [
    "PBfs.C95_append",
    "PBfs.C95_joined"
   ],
   "note": "for runs of the model without fault and queries that were accepted (Asked: the program is free of register clashes); common instances over finite and infinite trees"
  },
  {
   "property": "C96",
   "status": "proved",
   "theorems": [
    "PBfs.C96_append",
    "PBfs.C96_all"
   ],
   "note": "for runs of the model without fault and queries that were accepted (Asked: the program is free of register clashes); common instances over finite and infinite trees"
  }
 ]
}