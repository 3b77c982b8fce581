{"id": "C01", "title": "Answers are sound", "statement": "Every answer that get_answer returns for a loaded program and query is a logical consequence of the program: for every instantiation of the variables the answer leaves open, every atom of the query, with the answer's bindings applied, is derivable from the clauses of the program (with built-in append/3, ==, is read as their defining relations).", "quantifier": "all programs, all queries, all numbers of get_answer calls and all points at which time-outs interrupt the search", "why_tests_cant": "there are infinitely many programs and each has an unbounded search tree; a test observes finitely many answers of finitely many programs", "anchors": ["src/wam/bfs_organizer/bfs_organizer.cpp : bfs_organizer::get_answer, exec_executors", "src/wam/instructions/instructions.cpp : call, proceed, unify", "src/wam/compiler/compiler.cpp : compile_program_term, compile_query"]}
{"id": "C02", "title": "Breadth-first search is complete and fair", "statement": "If some instance of the query is derivable from the (built-in-free) program, then after finitely many get_answer calls an answer is returned of which that instance is an instance, even if other branches of the search tree are infinite.", "quantifier": "all programs, queries and derivable ground instances, however deep their derivation", "why_tests_cant": "the depth of the derivation is unbounded and infinite sibling branches cannot be exhausted by running them", "anchors": ["src/wam/bfs_organizer/bfs_organizer.cpp : exec_executors", "src/wam/instructions/instructions.cpp : call, proceed, deallocate"]}
{"id": "C03", "title": "'false' is conclusive", "statement": "When get_answer reports that there is no (further) answer, every derivable instance of the query is covered by one of the answers returned before.", "quantifier": "all programs, queries and complete answer histories", "why_tests_cant": "the claim is about all derivations that do not exist; tests can only compare against expected finite lists", "anchors": ["src/wam/bfs_organizer/bfs_organizer.cpp : exec_executors (empty queue)", "src/wam/instructions/instructions.cpp : call (no code -> fail)"]}
{"id": "C04", "title": "Answers come in breadth-first order", "statement": "The search is first-in first-out: pending alternatives are worked on in the order they were created, so answers appear in non-decreasing order of the number of work steps on their branch, and alternatives created by one call keep the textual order of the clauses.", "quantifier": "all programs, queries, all points of the search", "why_tests_cant": "an ordering violation may need arbitrarily deep or wide trees to show up", "anchors": ["src/wam/bfs_organizer/bfs_organizer.cpp : exec_executors (executors.front / pop)", "src/wam/instructions/instructions.cpp : call, proceed, deallocate (executors.push)"]}
{"id": "C05", "title": "Time-outs lose and duplicate nothing", "statement": "A get_answer call that returns OUT_OF_TIME leaves the search where it was: for any placement of time-outs, the sequence of answers and runtime errors obtained over repeated get_answer calls is the same as without any time-out, and a timed-out call changes neither the pending alternatives nor the call counter beyond the work done before it.", "quantifier": "all schedules of time-outs over all runs", "why_tests_cant": "the clock can fire at any loop iteration; the set of schedules is infinite and tests cannot control it", "anchors": ["src/wam/bfs_organizer/bfs_organizer.cpp : exec_executors (time_limit check)"]}
{"id": "C06", "title": "A runtime error kills only its own branch", "statement": "If evaluating a goal raises a runtime error, get_answer reports it once, and later get_answer calls continue with all other pending alternatives exactly as if that branch had simply failed.", "quantifier": "all programs, queries and positions of the error in the search", "why_tests_cant": "the error may occur at any position of any queue contents", "anchors": ["src/wam/bfs_organizer/bfs_organizer.cpp : exec_executors (catch ERROR_TYPE)", "src/wam/runtime_errors/err_handling.cpp"]}
{"id": "C07", "title": "Exhaustion is final", "statement": "After get_answer has reported that no answer is left, every further get_answer call on the same query reports the same and changes nothing.", "quantifier": "all reachable interpreter states and any number of further calls", "why_tests_cant": "any number of calls from any history", "anchors": ["src/wam/bfs_organizer/bfs_organizer.cpp : get_answer, exec_executors"]}
{"id": "C08", "title": "Branches are isolated from each other", "statement": "Work done on one alternative never changes what any other alternative (sibling, parent or cousin) sees in its heap, registers, environments or remaining goals.", "quantifier": "all interleavings of work on all branches of all search trees", "why_tests_cant": "branches share their ancestors' heaps by reference; a leak needs a particular interleaving and aliasing pattern", "anchors": ["src/wam/executor/executor.cpp : heap_at, heap_modify", "include/prolog_bfs/wam/executor/executor.h : set_parent, move_from_parent"]}
{"id": "C09", "title": "Successful unification is exact and most general", "statement": "When unification of two heap terms succeeds, the solutions of the resulting heap are exactly the solutions of the old heap in which the two terms are equal: both terms have become equal and nothing more was bound than necessary.", "quantifier": "all heaps (layered over any chain of parents) and all pairs of addresses", "why_tests_cant": "terms are unboundedly deep and heaps have arbitrary sharing", "anchors": ["src/wam/instructions/instructions.cpp : unify", "src/wam/instructions/util/instructions_util.cpp : deref"]}
{"id": "C10", "title": "Failed unification is conclusive", "statement": "When unification fails there is no assignment of finite terms to the unbound variables that makes the two terms equal.", "quantifier": "all heaps and pairs of addresses", "why_tests_cant": "non-existence of a unifier ranges over infinitely many assignments", "anchors": ["src/wam/instructions/instructions.cpp : unify"]}
{"id": "C11", "title": "Unification always terminates", "statement": "unify, and therefore every get_answer step, terminates for all terms; in particular it terminates whenever the two terms have a common finite instance.", "quantifier": "all heaps and pairs of addresses", "why_tests_cant": "non-termination cannot be observed by a test; the inputs that trigger it have a special cyclic shape", "anchors": ["src/wam/instructions/instructions.cpp : unify"]}
{"id": "C12", "title": "== is structural identity", "statement": "X == Y succeeds exactly when the two arguments are, at that moment, structurally identical terms (same constants, integers, functors and the same unbound variables), and it binds nothing.", "quantifier": "all heaps and all pairs of finite terms", "why_tests_cant": "terms and aliasing patterns are unbounded", "anchors": ["src/wam/built_in_predicates/equals.cpp : equals, heap_reg_equals"]}
{"id": "C13", "title": "\\== is the exact complement of ==", "statement": "In every state X \\== Y succeeds if and only if X == Y would fail, and it binds nothing.", "quantifier": "all machine states", "why_tests_cant": "needs agreement on every pair of terms", "anchors": ["src/wam/built_in_predicates/not_equals.cpp : not_equals"]}
{"id": "C14", "title": "is/2 computes integer arithmetic exactly", "statement": "If the right-hand side of 'is' is a ground expression over +, -, *, // whose value and all intermediate values fit in 32 bits and no divisor is 0, then 'is' unifies the left-hand side with exactly that value (// truncating towards zero), although it is computed in floating point.", "quantifier": "all expressions of any nesting and all operand values", "why_tests_cant": "2^64 operand pairs per operator and unboundedly many expressions", "anchors": ["src/wam/built_in_predicates/arithmetic/is.cpp", "src/wam/built_in_predicates/arithmetic/util/expr_evaluator.cpp", "src/wam/built_in_predicates/arithmetic/util/arith_functor.cpp"]}
{"id": "C15", "title": "Arithmetic on bad operands is an error of the right kind", "statement": "Evaluating an expression yields an error and never a value when it contains an unbound variable (ARGUMENTS_NOT_SUFF_INSTANCIATED), a constant or non-arithmetic functor (FUNCTOR_IS_NOT_ARITHMETIC) or a division by zero (DIV_BY_0); without those it yields a value; the error message names the offending functor.", "quantifier": "all expression terms on all heaps", "why_tests_cant": "offending sub-terms can be at any depth, reached through any chain of bindings", "anchors": ["src/wam/runtime_errors/err_handling.cpp", "src/wam/built_in_predicates/arithmetic/checks/arithmetic_checks.cpp"]}
{"id": "C16", "title": "^ computes integer powers exactly", "statement": "X is B^E binds X to the exact power whenever E >= 0 and the result fits in 32 bits.", "quantifier": "all bases and exponents", "why_tests_cant": "the inexact cases start only beyond 24 significant bits, where sample tests rarely look", "anchors": ["src/wam/built_in_predicates/arithmetic/util/arith_functor.cpp : pow (float)"]}
{"id": "C17", "title": "Chains of - and // associate to the left", "statement": "An arithmetic chain such as A - B - C or A // B // C is evaluated left to right, as in Prolog.", "quantifier": "all chains of any length", "why_tests_cant": "chains can be arbitrarily long and mixed", "anchors": ["src/wam/compiler/util/node.cpp : node(const parser::chained_expr &)"]}
{"id": "C18", "title": "append/3 is list concatenation", "statement": "For the built-in append/3: append(L1,L2,L3) is derivable, and hence answered, exactly when L1 is a proper list and L3 is L1 with its end replaced by L2; this holds in every mode, including enumerating all splits.", "quantifier": "all lists of all lengths, all instantiation modes", "why_tests_cant": "lists are unbounded and there are infinitely many modes and sharings", "anchors": ["src/wam/built_in_predicates/append.cpp", "src/wam/compiler/built_in_pred_comp.cpp"]}
{"id": "C19", "title": "Built-ins cannot be redefined and are always available", "statement": "A program that defines append/3 or is/2 is rejected with REDEFINITION_ERROR; after every successful load_program the built-in predicates have exactly their built-in definition, whatever the program contains.", "quantifier": "all programs and all load_program histories", "why_tests_cant": "any program text, any sequence of loads", "anchors": ["src/wam/compiler/checks/redefinition_of_built_in_pred.cpp", "src/wam/bfs_organizer/bfs_organizer.cpp : load_term_lines"]}
{"id": "C20", "title": "A rejected program changes nothing", "statement": "If load_program (or load_program_from_file) returns an error, the previously loaded program stays in force and all later query results are those of the previous program.", "quantifier": "all rejected programs on all interpreter states", "why_tests_cant": "errors can occur after any number of clauses have been compiled", "anchors": ["src/wam/bfs_organizer/bfs_organizer.cpp : load_program, load_term_lines"]}
{"id": "C21", "title": "load_query starts afresh", "statement": "A load_query call discards every pending alternative and the statistics of the previous query; if it is rejected, get_answer reports 'no answer' and the loaded program is unaffected.", "quantifier": "all interpreter histories and all query texts", "why_tests_cant": "histories are unbounded", "anchors": ["src/wam/bfs_organizer/bfs_organizer.cpp : load_query"]}
{"id": "C22", "title": "The call counter counts goals", "statement": "The statistics' counter of asked queries equals, at every moment, the number of goals called since the last load_query - each pending goal counts once, whether or not it has a matching clause - and never decreases except by load_query.", "quantifier": "all runs and all moments", "why_tests_cant": "needs every interleaving and every run length", "anchors": ["src/wam/instructions/instructions.cpp : call", "include/prolog_bfs/wam/bfs_organizer/data/runtime_statistics.h"]}
{"id": "C23", "title": "Every matching clause is tried exactly once, in order", "statement": "A called goal creates exactly one alternative per clause stored for its name and arity, in textual order; a goal without clauses fails without an error.", "quantifier": "all programs, goals and search states", "why_tests_cant": "any number of clauses, any state", "anchors": ["src/wam/instructions/instructions.cpp : call", "src/wam/compiler/compiler.cpp : compile_program"]}
{"id": "C24", "title": "Different clause variables stay different", "statement": "In a compiled clause different variables of the source never share a value unless unification made them equal, and no variable's value is lost before its last use: running the compiled atom behaves like the source atom.", "quantifier": "all clauses with any terms, any number of body atoms and variables", "why_tests_cant": "register clashes appear only for particular combinations of arities and nesting", "anchors": ["src/wam/compiler/compiler.cpp : assign_registers, to_query_instructions, to_program_instructions, compile_program_term"]}
{"id": "C25", "title": "Success is reported exactly when no goal is left", "statement": "A branch is reported as an answer if and only if its last goal has been resolved: pending bookkeeping entries never hide a remaining goal and never count as one.", "quantifier": "all programs, queries and branches", "why_tests_cant": "detection relies on instruction-list lengths of every possible compiled atom", "anchors": ["src/wam/executor/executor.cpp : check_success", "include/prolog_bfs/wam/data/compiled_atom.h : is_deallocate", "src/wam/instructions/instructions.cpp : proceed"]}
{"id": "C26", "title": "Variables shared between goals survive calls", "statement": "A variable that occurs in several goals of a query or clause keeps its value across all calls made in between: environments are pushed and popped in matching pairs and each goal reads the environment of its own clause.", "quantifier": "all clauses, nesting depths and recursions", "why_tests_cant": "recursion depth and interleaving of environments are unbounded", "anchors": ["src/wam/compiler/compiler.cpp : assign_permanent_registers", "src/wam/instructions/instructions.cpp : allocate, deallocate", "include/prolog_bfs/wam/executor/executor.h : environments"]}
{"id": "C27", "title": "Different functors are never confused", "statement": "Two functors or constants get the same internal index exactly when they have the same name and arity, and an index handed out once keeps its meaning for the lifetime of the interpreter.", "quantifier": "all sequences of programs and queries loaded over the lifetime of the interpreter", "why_tests_cant": "index wrap-around needs tens of thousands of functors", "anchors": ["include/prolog_bfs/wam/bfs_organizer/data/storage.h : functor_index_of"]}
{"id": "C28", "title": "Ground answers are printed faithfully", "statement": "The text shown for a variable bound to a ground term is the canonical text of that term - functors as name(arg,...), proper lists as [e1,...,en], integers in decimal - so different ground terms print differently when names cannot be confused.", "quantifier": "all ground terms of any depth on all heaps", "why_tests_cant": "terms are unbounded and may be stored with arbitrary sharing and reference chains", "anchors": ["src/wam/visual/substitution_util.cpp : string_representation_of", "src/wam/compiler/util/node.cpp : to_string"]}
{"id": "C29", "title": "Partial and improper lists are printed faithfully", "statement": "A list whose tail is an unbound variable or an atomic value is printed as [e1,...,en|Tail] with the complete text of the tail.", "quantifier": "all partial lists", "why_tests_cant": "depends on name lengths and tails of every kind", "anchors": ["src/wam/visual/substitution_util.cpp : string_representation_of"]}
{"id": "C30", "title": "Variable names in answers reflect identity", "statement": "Within one answer two unbound variables are printed with the same name if and only if they are the same variable.", "quantifier": "all answers", "why_tests_cant": "depends on arbitrary reference chains", "anchors": ["src/wam/visual/substitution_util.cpp : string_representation_of"]}
{"id": "C31", "title": "Appending the final dot is harmless", "statement": "A query text is completed with a final dot exactly when it does not already end in one (ignoring trailing blanks); completing twice is the same as completing once, and the text before the dot is never altered.", "quantifier": "all query texts", "why_tests_cant": "all strings", "anchors": ["src/wam/bfs_organizer/util/bfs_util.cpp : append_dot_if_not_present"]}
{"id": "C32", "title": "Answer strings distinguish the three outcomes", "statement": "get_answer_as_str yields \"false\" exactly when there is no answer, \"true\" exactly when there is an answer without bindings, and otherwise lists every binding once, in order.", "quantifier": "all results", "why_tests_cant": "all binding lists", "anchors": ["src/wam/bfs_organizer/data/result.cpp : get_answer_as_str"]}
{"id": "C33", "title": "The unification tree numbers its nodes uniquely", "statement": "In the tree returned by get_unification_tree all node ids are distinct and consecutive, parents before children, and every alternative tried for a goal appears as exactly one child of that goal's node.", "quantifier": "all search trees at all moments", "why_tests_cant": "trees are unbounded", "anchors": ["src/wam/visual/unification_tree/unification_tree.cpp : make_tree"]}
{"id": "C34", "title": "No operation has undefined behaviour", "statement": "Running any loaded query to any point never reads outside the heap, the registers or an environment, never dereferences a missing parent, and never trips an internal assertion.", "quantifier": "all programs, queries and run lengths", "why_tests_cant": "memory errors depend on exact layouts reached only in particular runs", "anchors": ["src/wam/executor/executor.cpp : heap_at, heap_modify", "src/wam/instructions/instructions.cpp", "include/prolog_bfs/wam/data/heap_reg.h : asserts"]}
{"id": "C35", "title": "An answer lists every query variable exactly once", "statement": "Each answer contains exactly one binding for every variable of the query and no binding for any other variable.", "quantifier": "all queries and answers", "why_tests_cant": "any number of atoms and repeated variables, any derivation in between", "anchors": ["src/wam/visual/substitution_util.cpp : find_substitutions_from_orig_query, point_var_reg_substs_to_heap"]}
{"id": "C36", "title": "The order of hash-map iteration is irrelevant", "statement": "Answers and their order do not depend on the unspecified iteration order of the map that numbers the shared variables.", "quantifier": "all iteration orders", "why_tests_cant": "the order is fixed by the standard library a test is built with", "anchors": ["src/wam/compiler/compiler.cpp : assign_permanent_registers"]}
{"id": "C37", "title": "Memory exhaustion is survivable", "statement": "After get_answer has returned OUT_OF_MEMORY, the interpreter can be reused: loading a program and a query gives the same results as on a fresh interpreter.", "quantifier": "all states at which memory can run out", "why_tests_cant": "allocation failure can strike at every allocation", "anchors": ["src/wam/bfs_organizer/bfs_organizer.cpp : get_answer, clear_memory"]}
{"id": "C38", "title": "Every load failure is reported as an error value", "statement": "load_program and load_query report every rejected input through their return value; no exception escapes to the caller.", "quantifier": "all program and query texts", "why_tests_cant": "all strings", "anchors": ["src/wam/compiler/compiler.cpp : to_query_instructions, to_program_instructions (std::stoi)", "src/wam/bfs_organizer/bfs_organizer.cpp : load_query, load_program"]}
{"id": "C39", "title": "Loading a program while a query is pending is safe", "statement": "load_program may be called between get_answer calls of a running query without the pending alternatives referring to released code.", "quantifier": "all interleavings of load_program and get_answer", "why_tests_cant": "dangling pointers often appear to work in tests", "anchors": ["src/wam/bfs_organizer/bfs_organizer.cpp : load_program, load_term_lines", "include/prolog_bfs/wam/executor/executor.h : term_codes"]}
{"id": "C40", "title": "What a query leads to depends only on the last program and the query", "statement": "On any two interpreters whose last successfully loaded program is the same, a query is accepted or rejected alike and leads to the same sequence of get_answer results, whatever programs and queries were loaded, rejected, answered or abandoned before.", "quantifier": "all histories, all programs and queries", "why_tests_cant": "histories are unbounded and differ in invisible state (numbers of functors and variables, hash order)", "anchors": ["src/wam/bfs_organizer/bfs_organizer.cpp : load_program, load_query, get_answer", "include/prolog_bfs/wam/bfs_organizer/data/storage.h : functors, variables"]}
{"id": "C41", "title": "The parser accepts exactly the documented language", "statement": "A text is read as a program (query) exactly if it is one according to the grammar documented in base_grammar.h, program_grammar.h and query_grammar.h - tokens with arbitrary white space between them - and every text has at most one reading; parsing ends on every text, and everything read is well-formed input for the compiler.", "quantifier": "all texts", "why_tests_cant": "the set of texts is infinite; ordered choice and greedy repetition can make a grammar reject or misread texts in ways only unusual texts show", "anchors": ["include/prolog_bfs/wam/compiler/parser/base_grammar.h : base_grammar", "include/prolog_bfs/wam/compiler/parser/program_grammar.h", "include/prolog_bfs/wam/compiler/parser/query_grammar.h", "include/prolog_bfs/wam/compiler/parser/parser.h : parse_program, parse_query"]}
{"id": "C42", "title": "The interpreter performs breadth-first resolution", "statement": "Turn by turn, the main loop does what breadth-first resolution does on goal lists: a queue of goal lists, first in first out; a call puts one alternative per clause of the predicate, in program order, at the back; an alternative is dropped exactly if the goal has no common instance with the head, and otherwise goes on with exactly the common instances; ==, \\== and is pass, fail or report an error as the instances demand (is evaluates from left to right and reports the first error); a clause whose goals share variables takes one more turn to throw its environment away; an answer is reported exactly when no goal is left, and shows exactly the remaining instances. This fixes what every iteration reports and how many executors wait after it.", "quantifier": "all programs and queries, any number of iterations of the main loop", "why_tests_cant": "search trees, terms and queues are unbounded; a wrong order of arguments or clauses, or a lost binding, shows only in particular programs", "anchors": ["src/wam/bfs_organizer/bfs_organizer.cpp : exec_executors", "src/wam/instructions/instructions.cpp : call, proceed, deallocate", "src/wam/built_in_predicates/equals.cpp", "src/wam/built_in_predicates/arithmetic/is.cpp"]}
{"id": "C43", "title": "A conversation with the console is a sequence of exchanges with the interpreter", "statement": "What the console prints is exactly the following: for each text the user types up to a dot, the results of the interpreter for this text one after the other - each further one only after the user has typed ; - until there is none, an answer without bindings or an error, or the user types something else; nothing typed is skipped except the rest of the line after the dot (at most 1024 characters).", "quantifier": "all inputs, all programs, any number of queries", "why_tests_cant": "the input is an unbounded stream; buffering mistakes show only for particular sequences of lines", "anchors": ["src/app_runner/normal_mode.cpp : normal_mode"]}
{"id": "C44", "title": "The console works with the programs in the given files", "statement": "Started with the paths of files, the console answers queries with the program contained in these files.", "quantifier": "all paths and contents of files", "why_tests_cant": "all contents of files", "anchors": ["src/app_runner/normal_mode.cpp : normal_mode", "include/prolog_bfs/program_arguments/parser.h : prolog_file_option"]}
{"id": "C45", "title": "The console ends when it is told to or when its input ends", "statement": "The console ends exactly when the user types q. in the place of a query, or when the input ends.", "quantifier": "all inputs", "why_tests_cant": "a loop that never ends cannot be observed by a test that ends", "anchors": ["src/app_runner/normal_mode.cpp : normal_mode"]}
{"id": "C46", "title": "Errors during the search do not end the console", "statement": "If the search for an answer ends with an error (time limit, memory, arithmetic), the console says so and goes on with the next query.", "quantifier": "all programs, queries and moments at which an error occurs", "why_tests_cant": "the moment of the error matters: a first and a later answer are handled by different code", "anchors": ["src/app_runner/normal_mode.cpp : normal_mode", "include/prolog_bfs/wam/bfs_organizer/data/result.h : get_answer, get_error"]}
{"id": "C47", "title": "The console says false only if there are no more answers", "statement": "If the console prints false in reply to a text, the text is a query without (further) answers.", "quantifier": "all programs and typed texts", "why_tests_cant": "all texts, including those that are rejected", "anchors": ["src/app_runner/normal_mode.cpp : normal_mode", "src/wam/bfs_organizer/bfs_organizer.cpp : load_query, get_answer"]}
{"id": "C48", "title": "The drawing of the search tree is a tree", "statement": "What the tree view of the web page hands to the drawing library for the tree of a search exists at every moment at which the tree does, and is a tree with the query at its root: no two nodes have the same number, edges join nodes, every node but the root has exactly one edge leading to it, and every node hangs together with the root.", "quantifier": "all programs, queries, histories, moments of the search", "why_tests_cant": "node numbers come from two counters and a traversal over trees of unbounded size; a collision (which the library answers with an exception) shows only for particular shapes", "anchors": ["web/assets/js/prolog_bfs/classes/TreeView.js : convertToVisNetwork", "include/prolog_bfs/wam/visual/unification_tree : query_node, var_binding_node"]}
{"id": "C49", "title": "The drawing shows the search as it is", "statement": "The boxes with goals are the goals of the tree with their texts, each joined to the goals and answers its alternatives lead to; the boxes with final bindings are exactly the answers reported so far, each once; and there is one box *continue search* for each alternative that waits for its turn, and these boxes are the ones on which a click asks for the next answer.", "quantifier": "all programs, queries, numbers of iterations of the main loop", "why_tests_cant": "trees of unbounded size at every moment of the search", "anchors": ["web/assets/js/prolog_bfs/classes/TreeView.js : convertToVisNetwork, onNodeClicked", "include/prolog_bfs/wam/visual/unification_tree : query_node, var_binding_node"]}
{"id": "C50", "title": "The boxes of the web page list the answers in order", "statement": "However the user clicks and the timers go off, as long as the memory is not exhausted, every box of the web page belongs to a click on Run, and its lines (apart from messages about the soft memory limit) are what the uninterrupted search for its query reports, from the beginning, in order, without gaps and repetitions, then false once the search has ended. Every click on Next and every timer that gets a result adds it to its own box and changes no other box; a time-out without full memory sets the timer again.", "quantifier": "all programs, queries, interleavings of clicks and timers, time-outs", "why_tests_cant": "the interleavings of several boxes with pending timers are unbounded", "anchors": ["web/assets/js/prolog_bfs/classes/InterpreterHandler.js : tryExecute, getAnswer, onNextClicked, kill", "web/assets/js/prolog_bfs/classes/Result.js : addAnswer", "src/wam/bfs_organizer/bfs_organizer.cpp : get_answer"]}
{"id": "C51", "title": "The buttons of a box fit what it shows", "statement": "Next can be clicked exactly in the boxes that have shown something but never false, Show tree view exactly in those that have shown something; and Next is withdrawn only if the search of the box has come to its end.", "quantifier": "all programs, queries, interleavings of clicks and timers, including exhausted memory", "why_tests_cant": "the interleavings are unbounded; exhausted memory cannot be provoked at every moment", "anchors": ["web/assets/js/prolog_bfs/classes/InterpreterHandler.js : tryExecute, onNextClicked", "web/assets/js/prolog_bfs/classes/Result.js : setNextButtonEnabled, setTreeViewButtonEnabled", "src/wam/bfs_organizer/bfs_organizer.cpp : clear_memory"]}
{"id": "C52", "title": "The tree view is up to date", "statement": "After a click on Show tree view, or on a box *continue search* in the tree, the tree view shows the drawing of the present state of the search of this box.", "quantifier": "all programs, queries, interleavings of clicks and timers", "why_tests_cant": "whether the tree is redrawn depends on the order of clicks in all boxes and of pending timers", "anchors": ["web/assets/js/prolog_bfs/classes/TreeView.js : draw", "web/assets/js/prolog_bfs/classes/InterpreterHandler.js : onNextClicked, onShowTreeViewClicked"]}
{"id": "C53", "title": "Typed text does not become markup of the web page", "statement": "The text of a query that is put into a box of the web page contains neither < nor &.", "quantifier": "all texts typed as queries", "why_tests_cant": "all texts, including those the parser neither reads nor refuses", "anchors": ["web/assets/js/prolog_bfs/classes/Result.js : initialize", "src/wam/bfs_organizer/bfs_organizer.cpp : load_query", "include/prolog_bfs/wam/compiler/error/compiler_error.h : exists"]}
{"id": "C54", "title": "What is written at the nodes of the unification tree is right", "statement": "At every moment of every search, in every unification tree returned: the title of a goal is the text of the goal as it was called, with every variable replaced by what it stood for (goals that have not been called yet get a fixed text); an alternative that was tried and did not fail shows what each variable of the goal, each once, and then each variable of the head is bound to there, leaving out variables bound to themselves, and the length of the first group; other alternatives show nothing.", "quantifier": "all programs, queries and histories, all moments at which the tree is asked for, all terms and heaps", "why_tests_cant": "titles and bindings are read from registers and heaps of all executors of an unbounded search; terms are unbounded", "anchors": ["src/wam/visual/unification_tree/unification_tree.cpp : resolve_query_node_name, resolve_parent, erase_similar", "src/wam/visual/substitution_util.cpp : node_representation_of, find_substitutions", "src/wam/compiler/util/node_util.cpp : find_var_reg_substitutions, point_node_to_heap"]}
{"id": "C55", "title": "Ground answers can be typed in again", "statement": "The text shown for a ground term is, as an argument of a query, read as this same term; if w(X1,...,Xn) is answered with ground terms, then w(s1,...,sn) with the texts shown is a query without variables that follows from the program.", "quantifier": "all programs, queries, sessions, ground terms", "why_tests_cant": "printer and parser have to fit for all terms", "anchors": ["src/wam/visual/substitution_util.cpp : string_representation_of", "include/prolog_bfs/wam/compiler/parser/base_grammar.h : prolog_element, value, number, list", "include/prolog_bfs/wam/compiler/parser/query_grammar.h : query"]}
{"id": "C56", "title": "Without repeated variables in heads every call ends and no cyclic term is built", "statement": "If every clause that may be called has no variable twice in its head, and no clause competes for registers (C24), then every call of get_answer comes to an end (none of the loops of unification, comparison, arithmetic and printing runs forever), without is/2 nothing undefined happens at all, every answer shows finite terms and is sound over finite trees, every instance of the query that is provable over finite trees is found, and the main loop gets through any number of iterations.", "quantifier": "all programs, queries and sessions of this kind, any time-outs, any number of names up to 32768", "why_tests_cant": "termination of every turn of an unbounded search; a cyclic term may arise from the composition of any number of bindings", "anchors": ["src/wam/instructions/instructions.cpp : unify, get_value, unify_value", "src/wam/visual/substitution_util.cpp : string_representation_of", "src/wam/bfs_organizer/bfs_organizer.cpp : get_answer, exec_executors"]}
{"id": "C57", "title": "Programs with inputs and outputs: every call ends and outputs are ground", "statement": "Let every predicate have inputs and outputs such that, going from left to right, the inputs of each goal contain only variables of the inputs of the head and of the outputs of earlier goals, the outputs of the head only variables grounded that way, and no variable occurs twice in the arguments of a head that are no inputs; and let no clause compete for registers (C24). Then everything said in C56 holds, and every answer shows ground terms for the variables in the outputs of the query.", "quantifier": "all programs, queries and sessions for which such modes exist, any time-outs, any number of names up to 32768", "why_tests_cant": "termination of every turn of an unbounded search; groundness is a property of all heaps that may arise", "anchors": ["src/wam/instructions/instructions.cpp : unify, get_value, unify_value, unify_variable", "src/wam/visual/substitution_util.cpp : string_representation_of", "src/wam/bfs_organizer/bfs_organizer.cpp : get_answer, exec_executors"]}
{"id": "C58", "title": "A search that ends is reported completely and exactly", "statement": "If breadth-first resolution of the query (C42) comes to an end, then the calls of get_answer return exactly its reports, in order, each once, and then say that there are no more answers; whatever the time-outs, any number of calls returns an initial part of the reports, and all of them if one call says that there are no more. For programs with modes (C57) that do not call is/2.", "quantifier": "all programs and queries of this kind whose search is finite, any number of calls, any time-outs", "why_tests_cant": "the number of reports and calls is unbounded; absence of further answers cannot be observed", "anchors": ["src/wam/bfs_organizer/bfs_organizer.cpp : get_answer, exec_executors, load_query"]}
{"id": "C59", "title": "append/3 splits and joins lists", "statement": "In any program (without clauses that compete for registers, C24): append(X,Y,z) with a ground list z of n elements is answered n+1 times, the i-th time (from 0) with the text of the first i elements for X and of the others for Y, and then with no more answers; append(x,y,Z) with a ground list x and a ground term y is answered exactly once, with the text of the joined list.", "quantifier": "all programs, lists of any length with any elements that have a text, any number of calls and time-outs", "why_tests_cant": "lists and elements are unbounded; the program may be any the compiler accepts", "anchors": ["src/wam/compiler/built_in_pred_comp.cpp : compile_built_in_predicates", "src/wam/bfs_organizer/bfs_organizer.cpp : get_answer, merge_program_and_built_in_preds", "src/wam/visual/substitution_util.cpp : string_representation_of"]}
{"id": "C60", "title": "Where a syntax error is reported", "statement": "If a program is rejected by the parser, then the position from which row and column of the message are calculated is not before the end of any correct program at the beginning of the text, and everything before it can be continued to a correct program; so the row shown lies between the last row of the correct clauses in front and the row of the first point up to which the text cannot be continued correctly. For queries: everything before the position can be continued to a correct query.", "quantifier": "all texts", "why_tests_cant": "a grammar with backtracking reports the place of one of many failed attempts; texts are unbounded and nested", "anchors": ["include/prolog_bfs/wam/compiler/parser/base_grammar.h : activate_error_handler, all rules", "include/prolog_bfs/wam/compiler/parser/util/error_handler.h : operator()", "include/prolog_bfs/wam/compiler/parser/program_grammar.h : program, rule, clause", "include/prolog_bfs/wam/compiler/parser/query_grammar.h : query"]}
{"id": "C61", "title": "Which programs and queries are accepted: variables in arithmetic expressions", "statement": "Apart from syntax and integers beyond 32 bits, a program is rejected if and only if some clause is for append/3 or is/2 or has a body goal with an arithmetic expression one of whose variables does not exist yet when the expression is built (it occurs neither in the head nor in an earlier goal nor in a part of the goal that is built before); the first such clause determines the error. Likewise for queries. In particular no program is rejected if all variables of expressions occur in the head or in earlier goals.", "quantifier": "all programs and queries, any order of the hash map, any state of the interpreter", "why_tests_cant": "the check looks at registers, whose assignment depends on the whole clause; clauses are unbounded", "anchors": ["src/wam/compiler/checks/undefined_var.cpp : check_and_throw_undefined_var", "src/wam/compiler/checks/redefinition_of_built_in_pred.cpp : check_and_throw_redefinition_of_built_in_pred", "src/wam/compiler/compiler.cpp : to_query_instructions, compile_program_term, compile_query, assign_registers, assign_permanent_registers, flatten_query", "src/wam/bfs_organizer/bfs_organizer.cpp : load_program, load_query"]}
{"id": "C62", "title": "Source positions and the rows of compiler errors", "statement": "For every program that can be read, the text kept for each clause, head and goal is the piece of the program it was read from, without the white space around it, and the two rows kept are those in which this piece begins and ends; the text of a goal, typed in as a query, is read as this goal. The compiled atoms carry these positions. The row reported with a compiler error of a program is the row in which the head of a clause for append/3 or is/2 begins, or in which a goal begins that has an arithmetic expression with a variable without value; if no registers are shared it is the row of the first such mistake. For a query it is the row in which the first such goal begins.", "quantifier": "all texts of programs and queries without carriage returns, any state of the interpreter, any order of the hash map", "why_tests_cant": "the positions come from iterators of a grammar with backtracking and skippers; texts are unbounded", "anchors": ["include/prolog_bfs/wam/compiler/parser/util/parser_util.h : add_source_code_info", "include/prolog_bfs/wam/compiler/parser/base_grammar.h : atom", "include/prolog_bfs/wam/compiler/parser/program_grammar.h : clause, clause_head, rule", "src/wam/compiler/compiler.cpp : compile_program, compile_query, compile_program_term", "src/wam/compiler/checks/undefined_var.cpp : check_and_throw_undefined_var", "src/wam/compiler/checks/redefinition_of_built_in_pred.cpp : check_and_throw_redefinition_of_built_in_pred", "src/wam/bfs_organizer/bfs_organizer.cpp : load_program, load_query"]}
{"id": "C63", "title": "How many iterations it takes to find an answer", "statement": "If n uses of clauses and m uses of is and of \\== prove an instance of the query, and no predicate in force has more than b clauses, then an answer of which this is an instance is found within the first E(d) iterations of the main loop, where d=3n-1 if m=0 and d=3n+2m otherwise, and E(0)=0, E(1)=1, E(d+2)=1+b*(1+E(d)), unless is was used and the error that its arguments are not sufficiently instantiated is reported within this number of iterations; and as many calls of get_answer, with time for as many iterations each, are enough to get it. Infinite branches and branches that use other predicates do not delay it beyond that.", "quantifier": "all programs, queries, instances over finite or infinite trees, and derivations of any size", "why_tests_cant": "a bound for all programs and derivations; tests see single searches", "anchors": ["src/wam/bfs_organizer/bfs_organizer.cpp : exec_executors, get_answer", "src/wam/instructions/instructions.cpp : call, proceed, deallocate"]}
{"id": "C64", "title": "Checking texts without loading them", "statement": "validate_program finds no error exactly if the text is a program of the grammar, and validate_query exactly if the text (with a dot added unless there is one) is a query of the grammar. An error they find has the type and the row that load_program or load_query would report for the same text, in whatever state the interpreter is; and for a text they let pass, loading reports no syntax error.", "quantifier": "all texts, all states of the interpreter", "why_tests_cant": "texts are unbounded; two paths through the parser have to agree on all of them", "anchors": ["src/wam/bfs_organizer/bfs_organizer.cpp : validate_program, validate_query, load_program, load_query", "include/prolog_bfs/wam/compiler/parser/parser.h : parse_program, parse_query", "wasm/wasm.cpp : validateProgramCode, validateQueryCode"]}
{"id": "C65", "title": "The notices of the web page are about the texts in the editors", "statement": "A click on Run starts a run with the two texts, or shows one error of the program or the query in the alert and marks its row in the editor of this text. As long as the alert names an error, the text in that editor is one in which the interpreter finds this error in this row (whatever the other text has become); the alert and the mark disappear as soon as this text is changed; and when a run is started no notice of an earlier text is left.", "quantifier": "all sequences of edits, clicks on Run and on the cross of the alert, all texts", "why_tests_cant": "the sequences of actions and the texts are unbounded; listeners pile up with every error", "anchors": ["web/assets/js/prolog_bfs/classes/SyntaxError.js : show, hide", "web/assets/js/prolog_bfs/classes/Alert.js : show, hide", "web/assets/js/prolog_bfs/classes/InterpreterHandler.js : tryExecute", "web/assets/js/prolog_bfs/main.js : onRunClicked"]}
{"id": "C66", "title": "The copies of the unification tree", "statement": "The tree the web page gets, after all the copies made of its nodes while it is put together and handed over, has the same nodes, numbers, texts and bindings as if there were no copies, and making it is undefined only where it would be without them. Each node is copied once and once more for each node above it; so for n nodes at most n(n+1)/2 copies are made, and exactly as many if no goal has more than one alternative.", "quantifier": "all states of the interpreter, trees of any size", "why_tests_cant": "trees are unbounded; whether a copy drops a member shows only in particular states of the executors", "anchors": ["src/wam/visual/unification_tree/var_binding_node.cpp : copy constructor, operator=, set_continuing_query", "include/prolog_bfs/wam/visual/unification_tree/query_node.h : copy constructor, operator=", "src/wam/visual/unification_tree/unification_tree.cpp : make_tree", "wasm/wasm.cpp : getUnificationTree"]}
{"id": "C67", "title": "The texts at the tree tell where goals and clauses stand", "statement": "At any time while a query is answered, the text at each goal of the unification tree is the line and the text of this goal in the query or in the body of the clause it comes from, and the text at each alternative is the line and the text of the head of the clause that is tried, with the bindings if it did not fail; built-in clauses are shown as such. The alternatives of a goal are, in this order, the clauses for its predicate in the last accepted program, or the built-in ones, and what follows an alternative are the goals of this clause and then the remaining ones.", "quantifier": "all programs, queries, histories of loading and asking, and all times", "why_tests_cant": "positions travel through the compiled code, copies of the stack of codes and the tree; a mix-up shows only for particular clauses and moments", "anchors": ["include/prolog_bfs/wam/data/compiled_atom.h", "include/prolog_bfs/wam/data/source_code_info.h : code_info_for_built_in", "src/wam/instructions/instructions.cpp : call, proceed, deallocate", "src/wam/compiler/built_in_pred_comp.cpp", "include/prolog_bfs/wam/visual/unification_tree/query_node.h : get_code_info", "web/assets/js/prolog_bfs/classes/TreeView.js : convertToVisNetwork"]}
{"id": "C68", "title": "What the interpreter computes does not become markup", "statement": "Whatever texts are given as programs and queries, every line the web page adds to a box (answers, errors, false), every goal, binding and final binding in the unification tree, and every text in the boxes of its drawing consists of letters, digits, _ and the signs space ()[],|/+-*^=\\:. only, and the texts that appear at goals and alternatives have white space besides; so none of them contains < > & or quotes.", "quantifier": "all texts, all sequences of events on the page, all states of the interpreter, all times", "why_tests_cant": "texts are unbounded; a line is put into the page as HTML, so one name with a markup character would be enough", "anchors": ["web/assets/js/prolog_bfs/classes/Result.js : addAnswer", "web/assets/js/prolog_bfs/classes/TreeView.js : convertToVisNetwork", "include/prolog_bfs/wam/bfs_organizer/data/result.h", "include/prolog_bfs/wam/compiler/parser/base_grammar.h", "include/prolog_bfs/wam/bfs_organizer/data/error/runtime_error.h", "include/prolog_bfs/wam/visual/unification_tree/query_node.h", "include/prolog_bfs/wam/visual/unification_tree/var_binding_node.h"]}
{"id": "C69", "title": "Texts in the editors are not lost", "statement": "When a page is opened, its editors show the texts the page had when it was closed, and after a crash those it had at the last autosave (within the lifetime of the cookies).", "quantifier": "all sequences of opening, editing, saving, closing and crashing, all texts", "why_tests_cant": "sequences and texts are unbounded; several pages share the cookies", "anchors": ["web/assets/js/prolog_bfs/main.js : autosave, onbeforeunload", "web/assets/js/prolog_bfs/ace_editor_setup.js"]}
{"id": "C70", "title": "How much memory a search needs", "statement": "After n iterations of the main loop for a query, whatever the program and the query, there are at most 1 + n*b executors if no predicate has more than b clauses; the heaps of all executors together have at most n*(2T+2) cells if no clause (nor the query) has more than T symbols; and everything that is held for the query - cells, changed cells, registers, pending atoms, environments, pointers, the queue - is at most (b+1)*(8T+10)*(n+1)^2 entries. Alternatives that are done keep at most one atom and one environment, and nothing else in the interpreter grows.", "quantifier": "all programs, queries, histories, and any number of iterations, under any time limits", "why_tests_cant": "the bound is about every number of iterations; a leak per iteration shows only in long searches", "anchors": ["src/wam/executor/executor.cpp : heap_modify", "include/prolog_bfs/wam/executor/executor.h : push_back, clear, executor(executor&)", "src/wam/instructions/instructions.cpp : call, proceed, allocate", "src/wam/bfs_organizer/bfs_organizer.cpp : exec_executors", "src/wam/compiler/compiler.cpp : assign_registers, to_query_instructions, to_program_instructions"]}
{"id": "C71", "title": "Only the clauses a query can lead to matter", "statement": "If two programs have the same clauses in the same order for every predicate the query can lead to (the predicates of its goals and, repeatedly, those in the bodies of their clauses), then interpreters with these programs accept or reject the query alike and give the same answers and errors in the same order, wherever these clauses stand, whatever other clauses there are and whatever happened before; for up to 32768 names, and, if is/2 can be reached, up to the text of type errors and reading outside the heap because of it.", "quantifier": "all pairs of programs, queries, histories, numbers of calls of get_answer, time limits, and orders of hash maps", "why_tests_cant": "adding or moving an unrelated clause changes all numbers of names and the places of the code; programs, queries and searches are unbounded", "anchors": ["src/wam/bfs_organizer/bfs_organizer.cpp : load_program, load_query, get_answer", "src/wam/compiler/compiler.cpp : compile_program, compile_query", "src/wam/instructions/instructions.cpp : call", "include/prolog_bfs/wam/bfs_organizer/data/storage.h"]}
{"id": "C72", "title": "How long reading a text takes", "statement": "Reading a text, accepted or not, takes a number of steps (skipped white space, tried character and string parsers, characters taken by words, numbers and comments) that is at most 320 * 2^d * (length + 1), where d is the number of square brackets around each other; so it is linear if lists are not nested. The factor 2^d cannot be avoided: there are accepted programs of length 4d+5 with nesting d that take at least 2^d steps, so no polynomial bounds the time.", "quantifier": "all texts of programs and queries", "why_tests_cant": "texts and depths of nesting are unbounded; the time doubles with each level, which shows only for nested lists of a certain form", "anchors": ["include/prolog_bfs/wam/compiler/parser/base_grammar.h : list, prolog_element, atom", "include/prolog_bfs/wam/compiler/parser/program_grammar.h", "include/prolog_bfs/wam/compiler/parser/query_grammar.h", "include/prolog_bfs/wam/compiler/parser/parser.h"]}
{"id": "C73", "title": "The tables of names", "statement": "After an accepted program or query the table of constants and functors contains what was there before, at the same places, and exactly the symbols that occur in arguments or as goals and heads without arguments; a rejected text adds nothing else; answers, and texts that cannot be parsed, change no table. The variables of a query take at most one place per occurrence. If all texts an interpreter ever got have together n characters, the tables have at most n+2 and n+3 entries; so with at most 32765 characters they never get full, and `|` and `[` are never functors other than those of lists.", "quantifier": "all programs, queries, texts, and histories of an interpreter", "why_tests_cant": "texts and histories are unbounded; flattening drops nodes of the tree, and whether some symbol gets lost depends on the shape of the tree", "anchors": ["include/prolog_bfs/wam/bfs_organizer/data/storage.h", "src/wam/compiler/compiler.cpp : to_query_instructions, to_program_instructions, flatten_program, flatten_query", "src/wam/bfs_organizer/bfs_organizer.cpp : load_program, load_query"]}
{"id": "C74", "title": "How long an answer can get", "statement": "The length of an answer is not bounded by any polynomial in the lengths of the program, of the query, and the number of iterations of the search: with a certain program of two clauses, the query t(s(...s(o)...),a,X) of 3n+8 characters has exactly one answer, which is found after at most 3(n+1) iterations and has exactly 5*2^n-4 characters; then get_answer says that there are no more. So one call of get_answer can take exponential time, although the search itself needs only polynomial memory.", "quantifier": "all n, all orders of hash maps, all limits from 3(n+1) iterations on", "why_tests_cant": "the doubling shows for large n only, where an answer cannot be printed; that the search ends with this answer has to be known for all n", "anchors": ["src/wam/bfs_organizer/bfs_organizer.cpp : get_answer", "src/wam/visual/substitution_util.cpp : string_representation_of, find_substitutions_from_orig_query"]}
{"id": "C75", "title": "Names do not matter", "statement": "Say the same to two new interpreters, except that in what the second is told the names of predicates, functors, constants and variables are replaced: different names by different names, and not the names of lists, arithmetic, the built-in predicates and the variables in them. Then the second says the same as the first with the names replaced: the same outcomes of loading programs and queries, the same answers in the same order with the same bindings, the same errors, whatever the programs, queries, calls of get_answer and exhaustions of memory, and whatever the orders in which hash maps are enumerated. Without either restriction this is false: a variable of a query that is called X is taken for the variable X of append when answers are printed.", "quantifier": "all sequences of load_program, load_query, get_answer and clear_memory, all renamings, all orders of hash maps", "why_tests_cant": "there are infinitely many renamings and sequences of calls, and names are compared, hashed and stored in tables in all parts of the compiler and of the machine", "anchors": ["src/wam/compiler/compiler.cpp", "include/prolog_bfs/wam/bfs_organizer/data/storage.h", "src/wam/bfs_organizer/bfs_organizer.cpp : load_program, load_query, get_answer", "src/wam/visual/substitution_util.cpp : string_representation_of, find_substitutions_from_orig_query, is_user_entered_var"]}
{"id": "C76", "title": "Searches with level mappings end, and only they", "statement": "Let ground atoms over finite and infinite trees have levels, natural numbers, such that in every instance of every clause whose head has a level each goal has a smaller one, as far as the goals before it can hold in some model of the program, and let all instances of the query have levels below n (Apt and Pedreschi; is, == and \\== need no levels). Then the search ends, for programs none of whose clauses is one of those that may be compiled wrongly and as long as no iteration runs forever or into undefined behaviour: it makes no more than effort b (3 q (m+1)^n) iterations, where b is the number of clauses of a predicate, m that of goals of a clause and q that of goals of the query; and calls of get_answer with enough time return all reports and then no_answer. With modes and without is nothing can go wrong, and the calls return exactly what breadth-first resolution finds. Conversely, if the search ends and no goals call is, == or \\==, then there are such levels. In particular searches end for all programs without recursion, and for the reversal of all lists.", "quantifier": "all programs, queries, level mappings, models, orders of hash maps", "why_tests_cant": "no test can tell a search that does not end from one that takes long; the bound has to be derived for all programs with levels", "anchors": ["src/wam/bfs_organizer/bfs_organizer.cpp : get_answer, has_answer, load_query", "src/wam/executor/executor.cpp"]}
{"id": "C77", "title": "The order of the clauses matters for the order of the answers only", "statement": "If two interpreters have programs with the same clauses in different order and are asked the same query, then one search ends if and only if the other does, after the same number of iterations, and the reports, answers and errors, are the same up to their order: answers with the same instances, which show the same text wherever a variable has one finite value. If a program has more clauses than another, then all that is reported with the smaller one is reported with the larger one, too, as often or more often, given time; and if the search with the larger one ends, then so does the other, in no more iterations. This is for programs none of whose clauses may be compiled wrongly, and as long as no iteration runs forever or into undefined behaviour; is, == and \\== may be used, and the searches need not end.", "quantifier": "all pairs of programs, all queries, all histories, all orders of hash maps, all numbers of iterations", "why_tests_cant": "infinitely many programs and permutations; for searches that do not end the same answers have to be found at other places of an infinite list", "anchors": ["src/wam/bfs_organizer/bfs_organizer.cpp : get_answer, load_program", "src/wam/instructions/instructions.cpp : call"]}
{"id": "C78", "title": "The answers together are exactly the solutions, whatever the order of the goals", "statement": "Every answer shows only instances of the query in which all goals are logical consequences of the clauses (with \\== taken to hold always, as what it tests is not a matter of logic; it is C13 and C42 that say what it does).  For programs and queries without is, == and \\==: when the search has ended, the instances shown by all answers together are exactly the solutions over finite and infinite trees.  So what is answered depends only on what program and query mean: changing the order of goals or clauses, or repeating them, changes nothing about the instances that are shown as long as both searches end (it may change how often they are shown and whether the search ends); if one order ends without an answer, no other order ever gives one; and a variable with the same finite value in all solutions is shown with its text in every answer.", "quantifier": "all programs, all queries, all orders and repetitions of goals and clauses, all histories of the interpreter, all values of the variables, all numbers of iterations", "why_tests_cant": "The set of solutions is in general infinite and defined by logical consequence, not by a computation; tests compare some answers for some orders of goals with expected texts.", "anchors": ["src/wam/bfs_organizer/bfs_organizer.cpp : get_answer, load_query", "src/wam/executor/executor.cpp", "src/wam/instructions/instructions.cpp : call"]}
{"id": "C79", "title": "The lines of a box on the web page are exactly the solutions of its query", "statement": "A box on the web page belongs to a click on 'Run' with two texts.  Let them be a program and a query, let the values of the variables of the query in all its solutions (values for which all goals are logical consequences of the clauses) be finite trees that can be written down.  Then, however the events on the page (timers, clicks on Next, on nodes of the tree, on other boxes) are interleaved: every line of the box is a message about the memory limit, an error, 'false', or shows, for every variable of the query once, the text of its value in one and the same solution; and from such a line the values can be read off.  If is, == and \\== are not used, no line is an error, and a box that shows 'false' has a line for every solution.  With open variables, the lines show answers whose instances together are solutions, and all of them in the end.", "quantifier": "all sequences of events on the page, all texts, all time-outs, all orders of hash maps, all solutions", "why_tests_cant": "The claim compares what is shown after any sequence of events, for all programs, with what follows logically from the text, a set that no computation gives; tests can only compare lines with expected ones.", "anchors": ["src/wam/bfs_organizer/bfs_organizer.cpp : load_program, load_query, get_answer", "src/wam/visual/substitution_util.cpp : find_substitutions_from_orig_query, string_representation_of", "web/assets/js/prolog_bfs/classes/InterpreterHandler.js : tryExecute, getAnswer, onNextClicked", "web/assets/js/prolog_bfs/classes/Result.js : addAnswer", "src/wam/executor/executor.cpp"]}
{"id": "C80", "title": "Who clicks often enough sees every solution", "statement": "For programs and queries without is, == and \\==, whose solutions can be written down: for every solution of the query there is a number N such that every box for this program and query, after whatever events on the page, has a line that shows the solution as soon as it has N lines or shows 'false'.  If in addition the program has modes such that no unification can run forever, then in every open box, after whatever events, clicking Next a certain number of times, with enough time for each call (waiting for the timer if there is no line yet), leads to a line that shows the solution; the lines that were there stay.", "quantifier": "all programs, queries, solutions (there may be infinitely many), all sequences of events before, all boxes, all circumstances of the calls with enough time", "why_tests_cant": "A liveness property with infinitely many solutions to be reached from infinitely many states; tests can click only a few times.", "anchors": ["src/wam/bfs_organizer/bfs_organizer.cpp : get_answer", "web/assets/js/prolog_bfs/classes/InterpreterHandler.js : tryExecute, getAnswer, onNextClicked", "web/assets/js/prolog_bfs/classes/Result.js : addAnswer", "src/wam/executor/executor.cpp"]}
{"id": "C81", "title": "Clicking leads to 'false' wherever the search has to end", "statement": "Let program and query of a box have a level mapping as in C76.  Then the box never has more than E lines besides 'false' and messages about the memory limit, whatever happens on the page, where E = effort b (3 q (m+1)^n) depends only on the numbers of clauses of a predicate, of goals of clauses and query and the level.  If in addition is, == and \\== are not used and the program has modes, then from every open box, after whatever events, E + 1 or more clicks on Next, each with time for E + 1 iterations (waiting for the timer if there is no line yet), lead to 'false'; then Next cannot be clicked any more, the lines that were there are still there, and there is a line for every solution that can be written down.", "quantifier": "all programs and queries with level mappings, all sequences of events before, all boxes, all circumstances of the calls with enough time, all numbers of clicks", "why_tests_cant": "A liveness property from infinitely many states of the page with a bound that holds for all programs; tests can click only in a few states.", "anchors": ["src/wam/bfs_organizer/bfs_organizer.cpp : get_answer", "web/assets/js/prolog_bfs/classes/InterpreterHandler.js : tryExecute, getAnswer, onNextClicked", "web/assets/js/prolog_bfs/classes/Result.js : addAnswer"]}
{"id": "C82", "title": "What the console tells are exactly the solutions", "statement": "From the command line and the typed text to the output: as long as the console is at its prompt or has been left by 'q.', what has been typed is a sequence of exchanges and what has been written is what they show.  Every exchange about a query tells, besides errors and 'false', only solutions of the query with the program the console works with (that of the last argument that is a program text, or none): for every variable of the query one line with the text of its value, 'true' if there are no variables.  Without is, == and \\== there are no errors but time-outs, and an exchange that ends with 'false' has told all solutions.  For programs with modes, every solution is told after a certain number of ';'; and if the search has to end by a level mapping (C76), then a bounded number of ';' leads to 'false' (or the first answer is 'true'), after which the console is at its prompt and has read nothing else.  For values that can be written down, programs without register clashes, and at most 32765 characters.", "quantifier": "all arguments, all typed texts, all clocks and orders of hash maps, all queries and solutions", "why_tests_cant": "The claim compares everything the console can write with what follows logically from the program; tests can only compare some outputs with expected ones.", "anchors": ["src/app_runner/normal_mode.cpp : normal_mode", "src/wam/bfs_organizer/bfs_organizer.cpp : load_program, load_query, get_answer", "src/wam/visual/substitution_util.cpp : find_substitutions_from_orig_query, string_representation_of", "src/wam/executor/executor.cpp"]}
{"id": "C83", "title": "Programs that compute and compare", "statement": "For programs whose goals are called with known inputs (modes: the second argument of is and both arguments of == and \\== are inputs, and every clause and the query hand on what they know from left to right), the declarative meaning with is, == and \\== decides what is answered: an atom s == t is true of equal values, s \\== t of different ones, X is e if X is the value of e.  The answers show only solutions, at any time; every solution is among the answers after a number of turns that depends on the solution only; and when there are no more answers, then they have shown exactly the solutions, even if there were errors of other branches in between.  So every line of a box on the web page is a solution, an error, 'false' or a message about the memory, and a box with 'false' has a line for every solution; the same for the console.  Known inputs are needed: A \\== b, e(A,b) has an answer but no solution, A == b, e(A,b) a solution but no answer.  Example: every answer to fac(n,F) is the factorial of n, for all n.", "quantifier": "all programs and queries with such modes, all solutions, all runs and sessions that do not overflow, all sequences of events and typed texts", "why_tests_cant": "Compares everything that can be answered with everything that is true, for all programs that count, compare and compute; tests can only compare the answers of a few programs with expected ones.", "anchors": ["src/wam/executor/executor.cpp", "src/wam/built_in_predicates/arithmetic/is.cpp", "src/wam/built_in_predicates/equals.cpp", "src/wam/built_in_predicates/not_equals.cpp", "src/wam/bfs_organizer/bfs_organizer.cpp : get_answer", "src/wam/visual/substitution_util.cpp : find_substitutions_from_orig_query", "src/app_runner/normal_mode.cpp : normal_mode"]}
{"id": "C84", "title": "No unbound variables in the arithmetic of programs with known inputs", "statement": "If program and query respect some modes in which the right side of `is` is an input (a property of their text: from left to right, every input of a goal contains only variables known from the inputs of the head or the outputs of earlier goals), then the error 'Arguments are not sufficiently instantiated' is never reported: not by a turn of the search, not by a call of get_answer, not on a line of the web page, not on the console. The only run-time errors are operands that are not numbers, divisions by zero and time-outs.", "quantifier": "all programs, queries, modes, numbers of turns, time-outs, events on the web page and inputs on the console", "why_tests_cant": "A test runs some queries; whether some branch of an infinite search ever evaluates an unbound variable is not visible in finitely many runs.", "anchors": ["src/wam/runtime_errors/err_handling.cpp", "src/wam/built_in_predicates/arithmetic/util/expr_evaluator.cpp", "src/wam/bfs_organizer/bfs_organizer.cpp"]}
{"id": "C85", "title": "Programs that compute and come to an end: total correctness", "statement": "Let program and query respect some modes (inputs of is, == and \\== known), and let there be a contract: a relation that says which ground atoms may be called and at which level, and a property of everything that is true, such that when the head of a clause may be called, then each goal may be called at a lower level provided that the property holds of the goals before it, and expressions may be evaluated only if no result is too big and nothing in them is not arithmetic. Then for queries that may be called nothing ever goes wrong: no endless unification, no overflow, no access to wrong memory, in any number of calls and whatever the clock does. The search ends after at most E = effort b (3 q (m+1)^n) iterations; the calls of get_answer return the reports one after the other and then 'no more answers'; what they report are exactly the solutions, and the only run-time error is the division by zero, which does not occur either if all expressions that may be evaluated have values. Then on the web page, from whatever state of an open box, E + 1 clicks on Next with enough time lead to 'false', with a line for every solution. At the console, typing the query and then ; at most E times leads back to the prompt; what is told between are exactly the solutions and at last 'false' (only 'true' or only 'false' if the query has no variables).", "quantifier": "all programs, queries, modes and contracts, all numbers of iterations, all clocks, all sequences of events before the clicks", "why_tests_cant": "Total correctness of all programs that compute; tests can run a few programs for a while and see neither that all searches end nor that no number overflows.", "anchors": ["src/wam/bfs_organizer/bfs_organizer.cpp : get_answer", "src/wam/executor/executor.cpp", "src/wam/built_in_predicates/arithmetic/is.cpp", "src/wam/built_in_predicates/arithmetic/util/expr_evaluator.cpp", "src/wam/built_in_predicates/not_equals.cpp", "web/assets/js/prolog_bfs/classes/InterpreterHandler.js : tryExecute, getAnswer, onNextClicked"]}
{"id": "C86", "title": "Every proof is reported exactly once", "statement": "For programs whose goals are called with known inputs (C83; all programs and queries that use neither is nor == nor \\== are such): a proof of an instance of the query is a sequence of positions of clauses, used from left to right each for the first goal left. To every answer that has been reported belongs such a sequence, and the answer shows exactly the instances of the query that can be proved with it: all of them and no others. Different answers belong to different sequences, so no proof is reported twice. Every sequence that proves some instance belongs to an answer that is reported after a number of turns that depends on the sequence only, or at the latest when the search has ended; so a search that ends has reported as many answers as there are proofs. Calls that run out of time change nothing in this. On the web page the lines of a box besides 'false', errors and messages about the memory belong to different proofs, and in a box with 'false' every proof has its line. Together with C85: the query fac(n,F) is answered exactly once, for all n up to 12.", "quantifier": "all programs and queries with such modes, all proofs, all runs, all clocks, all sequences of events on the page", "why_tests_cant": "Counts the proofs of every query of every program; the number of answers of a few queries, seen in tests, says nothing about others, least of all about those with infinitely many proofs.", "anchors": ["src/wam/bfs_organizer/bfs_organizer.cpp : get_answer", "src/wam/executor/executor.cpp", "web/assets/js/prolog_bfs/classes/InterpreterHandler.js : tryExecute, getAnswer, onNextClicked", "web/assets/js/prolog_bfs/classes/Result.js : addAnswer"]}
{"id": "C87", "title": "The order of clauses and goals changes only the order of the answers", "statement": "Let two programs have the same clauses, each equally often, in any order, with the goals of each clause in any order, and two queries the same goals in any order, and let both be such that goals are called with known inputs (C83; all programs and queries that use neither is nor == nor \\== are such). Then if both searches end, both have reported the same number of answers, and the answers of the one are, in some order, those of the other: each shows exactly the instances of the query that its partner shows. So a solution is reported equally often. Run-time errors are left aside, as they may depend on the order. On the web page two such boxes that show 'false' have equally many lines with solutions, and these are the same lines up to their order and the order of the variables in them, if the solutions can be written down.", "quantifier": "all programs and queries with such modes, all rearrangements, all runs, all clocks, all sequences of events on the page", "why_tests_cant": "Relates all rearrangements of all programs, and counts repeated answers; tests can compare a few orders of a few programs.", "anchors": ["src/wam/bfs_organizer/bfs_organizer.cpp : get_answer", "src/wam/executor/executor.cpp", "include/prolog_bfs/wam/bfs_organizer/data/storage.h", "web/assets/js/prolog_bfs/classes/InterpreterHandler.js : tryExecute, getAnswer, onNextClicked", "web/assets/js/prolog_bfs/classes/Result.js : addAnswer"]}
{"id": "C88", "title": "How long a unification takes", "statement": "Two equal ground terms that share no cell of the heap are unified in exactly as many iterations of the loop of unify as the term has nodes, counted as often as they are reached, and the heap is not changed. So no polynomial in the number of cells bounds the iterations: for every n there is a well-formed heap of 6n + 2 cells with two addresses, whose terms are equal, on which unify takes 2^(n+1) - 1 iterations. A program reaches such heaps: with t(A, A). t(A, B) :- t(g(A, A), g(B, B)). and the query t(a,a) every call of get_answer finds the answer true after at most three turns, and after m + 1 answers there are 3m + 3 executors and 6m + 2 cells, but the last answer takes 2^(m+1) - 1 iterations of one call of unify. As the clock is read only between the turns of the search, no time limit stops it. (The upper bound is C11.)", "quantifier": "all heaps, all pairs of equal ground terms in separate parts of it, all n, all numbers of answers, all bounds on the iterations, all polynomials", "why_tests_cant": "Statement about all sizes and all polynomials; a test sees a few sizes, and the big ones do not end.", "anchors": ["src/wam/instructions/instructions.cpp : unify", "src/wam/bfs_organizer/bfs_organizer.cpp : get_answer, exec_executors"]}
{"id": "C89", "title": "The work of a search is the number of beginnings of proofs", "statement": "Let a program and query be such that goals are called with known inputs (C83; all programs and queries that use neither is nor == nor \\== are such). A beginning of a proof is a sequence of clauses that can be used for some instance of the query, each for the first goal left, whatever comes then. A search in which nothing goes wrong ends if and only if there are finitely many beginnings of proofs. It then has made at least as many iterations as there are beginnings, and at most 2(q + d(m + 1)) + 1 + b for each of them, where q is the number of goals of the query, d the length of the longest beginning, m the largest number of goals of a clause and b the largest number of clauses of a predicate. So for the factorial of n it takes at most (10n + 15)(n + 3) iterations. The memory that is held is, by C70, at most (b + 1)(8T + 10) times the square of the bound of the iterations plus one, where no clause has more than T symbols. On the web page a box shows 'false' only if there are finitely many beginnings; and if so, and is is not called and the modes of C57 are kept, clicking 'Next' leads to 'false' in every open box.", "quantifier": "all programs and queries with such modes, all runs of the search, all clocks, all lists of beginnings", "why_tests_cant": "Says of every program whether its search ends, which no test can observe, and bounds the iterations of all runs from both sides.", "anchors": ["src/wam/bfs_organizer/bfs_organizer.cpp : get_answer, exec_executors", "src/wam/executor/executor.cpp", "include/prolog_bfs/wam/bfs_organizer/data/storage.h", "web/assets/js/prolog_bfs/classes/InterpreterHandler.js : tryExecute, getAnswer, onNextClicked"]}
{"id": "C90", "title": "More special queries and first goals of queries", "statement": "Let a query and a more special one, with terms in the place of some of its variables, both be such that goals are called with known inputs (C83). When the search for the query has ended, the search for the more special one ends as well, after no more iterations; the same is true of the search for the first goals of a query. Every answer to the more special query shows exactly the instances that one of the answers to the query shows and that have the terms in the place of the variables; different answers come from different ones, so there are no more of them. If the query has no answer, no more special one is ever answered. The other way round, every answer to the query that shows such an instance leads to an answer to the more special query after some number of iterations. The search for the more special query may end although that for the query does not: append([a], [b], Z) and append(X, [b], Z).", "quantifier": "all programs, queries and terms in the place of variables with such modes, all runs of both searches, all clocks", "why_tests_cant": "Relates all runs of two searches for infinitely many pairs of queries, and says that one of them ends.", "anchors": ["src/wam/bfs_organizer/bfs_organizer.cpp : get_answer, exec_executors, load_query", "src/wam/executor/executor.cpp", "src/wam/instructions/instructions.cpp : unify"]}
{"id": "C91", "title": "Queries put together", "statement": "Let two queries, and the query with the goals of the first and then those of the second, be such that goals are called with known inputs (C83). When the searches for the two queries have ended, the search for the goals of both ends as well; with t1 iterations and a answers for the first and t2 iterations for the second, it takes at most t1 + a(t1 + t2) iterations. Each of its answers shows exactly what an answer to the first query and an answer to the second show in common, and answers that show something in common lead to such an answer, after some number of iterations, whether the searches end or not. So it has at most as many answers as the product of the two numbers of answers, and if the two queries have no variable in common, exactly as many.", "quantifier": "all programs and pairs of queries with such modes, all runs of the three searches, all clocks", "why_tests_cant": "Relates all runs of three searches for infinitely many pairs of queries, and says that one of them ends.", "anchors": ["src/wam/bfs_organizer/bfs_organizer.cpp : get_answer, exec_executors, load_query", "src/wam/executor/executor.cpp", "src/wam/instructions/instructions.cpp : proceed, call, unify"]}
{"id": "C92", "title": "Giving a query a name", "statement": "Let a clause of the program be the only one for its predicate, and let its head and its body, as queries, be such that goals are called with known inputs (C83). The search for the head ends if and only if the search for the body does, after exactly two more iterations. Every answer to the head shows exactly what one of the answers to the body shows of the variables of the head; every answer to the body leads to one to the head, after some number of iterations, and when both searches have ended there are as many answers to the head as to the body: answers that differ only in variables that are not in the head are told several times.", "quantifier": "all programs, all clauses in them that are the only ones for their predicates, with such modes, all runs of both searches", "why_tests_cant": "Relates all runs of two searches for infinitely many programs and queries, and says that one of them ends.", "anchors": ["src/wam/bfs_organizer/bfs_organizer.cpp : get_answer, exec_executors, load_query", "src/wam/executor/executor.cpp", "src/wam/instructions/instructions.cpp : proceed, call, allocate, deallocate"]}
{"id": "C93", "title": "Alternatives", "statement": "Let all clauses for a predicate have the same head, and let this head and the bodies, as queries, be such that goals are called with known inputs (C83). When the searches for all bodies have ended, the search for the head ends as well, after exactly one iteration, one for each body, and the iterations for the bodies. Every answer to the head shows exactly what one of the answers to one of the bodies shows of the variables of the head; every answer to one of the bodies leads to one to the head, after some number of iterations, whether the searches end or not; and when all have ended, the number of answers to the head is the sum of the numbers of answers to the bodies.", "quantifier": "all programs, all predicates whose clauses have the same head, with any number of clauses, with such modes, all runs of the searches", "why_tests_cant": "Relates all runs of any number of searches for infinitely many programs and queries, and says that one of them ends.", "anchors": ["src/wam/bfs_organizer/bfs_organizer.cpp : get_answer, exec_executors, load_query", "src/wam/executor/executor.cpp", "src/wam/instructions/instructions.cpp : proceed, call"]}
{"id": "C94", "title": "Calls stand for the bodies of clauses", "statement": "Let a call of a predicate defined by clauses be such that each clause for the predicate either has a head of which the call is an instance, or a head with no instance in common with the call; and let the call and the instances of the bodies of the former clauses, with fresh variables in the place of those that are not in the head, be such that goals are called with known inputs (C83). When the searches for the instances of the bodies have ended, the search for the call ends, after exactly one iteration, one for each clause for the predicate, and the iterations for these bodies (none for a fact); the number of its answers is the sum of their numbers of answers (one for a fact). Each of its answers comes from a fact, and then shows all instances of the call, or shows exactly what one of the answers to the instance of the body of a clause shows of the variables of the call. The other way round, every answer to such an instance leads to one to the call, whether the searches end or not, and when the search for the call has ended, those for the instances of the bodies end after at least two iterations less.", "quantifier": "all programs, all such calls with any number of clauses for the predicate, all terms in the call, with such modes, all runs of the searches", "why_tests_cant": "Relates all runs of any number of searches for infinitely many programs and calls, and gives the number of iterations exactly.", "anchors": ["src/wam/bfs_organizer/bfs_organizer.cpp : get_answer", "src/wam/instructions/instructions.cpp : call, proceed, allocate, deallocate", "src/wam/compiler/compiler.cpp : compile_program_term", "src/wam/executor/executor.cpp"]}
{"id": "C95", "title": "append/3 with a list of known length", "statement": "For the query append([e1,...,en],y,z) in any program (without clauses that compete for registers, C24), where e1,...,en, y and z are any terms, with variables anywhere, and every run in which all unifications end (C11): the search ends after at most 3(n+1) iterations. If z and the list of e1,...,en with y for its end have a common instance (in trees that may be infinite, since unification is without occurs check), the search takes exactly 3(n+1) iterations and reports exactly one answer; otherwise it reports no answer. If z is a variable that is not in the other arguments, there always is exactly one answer.", "quantifier": "all programs without register clashes, all lengths n, all terms e1,...,en, y, z, all runs of the search in which unifications end", "why_tests_cant": "Infinitely many lengths, terms and programs; the exact number of iterations and of answers is claimed for all of them.", "anchors": ["src/wam/built_in_predicates/append.cpp : get_append_node_tree", "src/wam/bfs_organizer/bfs_organizer.cpp : get_answer", "src/wam/instructions/instructions.cpp : call, proceed, unify"]}
{"id": "C96", "title": "append/3 with a third list of known length", "statement": "For the query append(x,y,[e1,...,en]) in any program (without clauses that compete for registers, C24), where e1,...,en, x and y are any terms, with variables anywhere, and every run in which all unifications end (C11): the search ends after at most 3(n+1) iterations; exactly, after three, and three more for each i from 1 to n such that x and the list of the first i elements with some end have a common instance. It reports exactly one answer for each i from 0 to n such that, under some common instance (in trees that may be infinite), x is the list of the first i elements and y the list of the others. If x and y are different variables that are not in the list, these are 3(n+1) iterations and n+1 answers.", "quantifier": "all programs without register clashes, all lengths n, all terms e1,...,en, x, y, all runs of the search in which unifications end", "why_tests_cant": "Infinitely many lengths, terms and programs; the exact number of iterations and of answers is claimed for all of them.", "anchors": ["src/wam/built_in_predicates/append.cpp : get_append_node_tree", "src/wam/bfs_organizer/bfs_organizer.cpp : get_answer", "src/wam/instructions/instructions.cpp : call, proceed, unify"]}
