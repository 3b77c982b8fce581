# Formal model of Prolog_BFS — design

The repository is a Prolog interpreter: a parser, a compiler to Warren-style
(WAM) instructions, and a scheduler ("organizer") that works on alternatives
breadth first.  The formal model lives in `lean/Verif`.

## Modules

| Lean module | models (in /repo) |
|---|---|
| `Model/Basic`     | `heap_reg`, `functor_view`, `storage`, parsed nodes (`node.h`, `node.cpp`) |
| `Model/Heap`      | the layered copy-on-write heap of `executor` |
| `Model/Arith`     | arithmetic on `double`/`float`, `arith_functor_impl.h`, `expr_evaluator` |
| `Model/Code`      | `compiled_atom`, `rule`, the instruction closures |
| `Model/Compile`   | `compiler.cpp`, `built_in_pred_comp.cpp`, `append.cpp`, the compile-time checks |
| `Model/Machine`   | `executor`, `instructions.cpp`, `instructions_util.cpp`, the built-in predicates |
| `Model/Organizer` | `bfs_organizer.cpp`, `call`/`proceed`/`deallocate` |
| `Model/Render`    | `substitution_util.cpp`, `result.cpp`, `bfs_util.cpp` |
| `Model/Tree`      | `visual/unification_tree/*`, `node_from_heap`, `node_util`, `node::to_string` |
| `Model/Draw`      | `web/assets/js/prolog_bfs/classes/TreeView.js` (`convertToVisNetwork`) |
| `Model/Console`   | `app_runner/normal_mode.cpp` |
| `Model/Page`      | `web/assets/js/prolog_bfs`: `main.js` (run), `InterpreterHandler.js`, `Result.js`, `TreeView.js` (`draw`); `wasm/wasm.cpp` as far as used by them |
| `Model/Parser`    | `base_grammar.h`, `program_grammar.h`, `query_grammar.h`, `parser.h`, `node.cpp` |
| `Model/Source`    | `source_code_info`: positions of clauses, heads and goals, rows of compiler errors |
| `Model/Validate`  | `validate_program`, `validate_query` |
| `Model/Notice`    | `web/assets/js/prolog_bfs`: `SyntaxError.js`, `Alert.js`, `tryExecute` of `InterpreterHandler.js` |
| `Model/Copy`      | the copies of `query_node` and `var_binding_node` made by `make_tree` and `getUnificationTree` |
| `Model/Place`     | positions of the code in the executors (`code_info`), texts at the nodes and edges of the tree (TreeView.js) |

`Spec/*` are the independent specifications:
`Logic` (algebras, provability), `Terms` and `Answers` (terms in a heap, infinite trees),
`History`, `Session`, `Asked` (histories of an interpreter), `Goals` (goal stacks),
`Registers` (when the values of a clause compete for registers), `Printing` (texts of ground terms),
`Lockstep` (two interpreters used alike), `Syntax` (tokens and the context-free grammar),
`Chains` (operator chains evaluated from left to right), `Tree` (nodes of the unification tree), `Resolution` (breadth-first resolution on sets of instances),
`Console` (exchanges between user and console), `Draw` (what it means for a drawing to be a tree), `Labels` (what is to be written at the nodes of the unification tree), `Page` (what the boxes of the web page show), `Shown` and `Spoken` (what is to be read in a box and on the console for a solution), `Computes` (what is true of programs that compute and compare), `Since` (what can happen while a query is worked on), `Effort` (size of derivations and of search trees), `Source` (layout of texts), `Place` (where goals and clauses stand), `Defined` (which variables of expressions exist), `Demo` (concrete interpreters).
`Proof/*` are lemmas, `Props/*` the property theorems, named after the properties (`C01_…`).

Undefined behaviour, failed `assert`s, `vector::at` exceptions and endless
loops are *distinct outcomes* of the model (`Fault`), never silently totalised.
Recursions without obvious bound take fuel; running out of fuel is the outcome `hang`.
Theorems either exclude it or say from which fuel on it does not occur.

## Trusted base

* Lean's kernel, and the axioms `propext`, `Classical.choice`, `Quot.sound`.  No theorem uses any other
  axiom, no compiled evaluation (`native_decide`, `bv_decide`); concrete cases are computed by the kernel.
* The correspondence of `Model/*` with the C++ code.  Every definition cites file and lines.  It was made by
  reading; the C++ code was not run.  As a check, the tests of the repository were executed on the model:
  `Props/Tests.lean` contains them as `example`s computed by the kernel (program, query and expected answers copied from
  /repo/test), among them those that expect particular heap addresses in names (`[Y3,Y6,a|Xs1]`), an order of the bindings, error
  types and rows, and trees.  The tests with programs of /repo/test_src (p1, p3-0, p4-*, p5-*, wegLange1) and
  bfs_organizer_L3_test.cpp:80-94 and 139-165, list_test.cpp:55-60, practical5_test_list.cpp:120-132 were run the same way with Lean's
  interpreter (`#eval`), with the expected answers; they take too long for the kernel and are not part of the build.
  Not covered: columns of errors (parser/*.cpp), time_limit_test.cpp
  (needs a clock), parser/general.cpp (a grammar of its own), heap_reg_size_test.cpp.
* The specifications in `Spec/*`, as far as a property's English text is concerned.

### What the model contains
* the storage of functors and variables with 16-bit indices that wrap around;
* the compiler: register assignment, permanent variables, all instructions generated, checks, errors;
* the heap with its layers and private copies; all instructions; unification, `==`, `\==`, `is`, `append`;
* 32-bit integer ranges, rounding of `double` and `float`, conversion to `int` out of range as undefined behaviour;
* the organizer: queue, calls counter, time-outs by an arbitrary clock, memory exhaustion at any moment,
  loading programs and queries, answers, printing;
* pointers into the loaded program: every loading of a program starts a new generation, use of an old one is a fault;
* the parser as parsing expressions: ordered choice, greedy repetition, expectation points;
* the console: `std::cin` as a text with a state (good or not), everything printed;
* the web page as a state machine whose steps are clicks and timers: boxes, lines, buttons, pending timers, the tree view.

### Simplifications
* Heap addresses, arities, register numbers and the goal counter are unbounded (C++: `int`, `size_t`), i.e.
  programs exceeding 2^31 of these are not covered.
* Source positions of clauses, heads and goals are modelled in `Model/Source.lean` (C62) up to the compiled atoms and from there to the texts at the unification tree in `Model/Place.lean` (C67); the columns and the texts of parser errors are left out.
  The position of a parser error is modelled by the text from there on (where the iterator stands after a failed parser is taken from the
  documentation of Boost.Spirit: character and string parsers have skipped white space, the others put it back).
* Memory exhaustion is an event at any `get_answer`, not an allocation failure inside an operation.
* Iteration over `unordered_map` is an arbitrary permutation (`HashOrder`), a parameter of all loading functions.
* The clock is a list of booleans, one for each reading.
* Web page: boxes are known by their place instead of the millisecond of their creation; JavaScript exceptions and aborts of the WebAssembly
  module (any `Fault`) end the run that is considered; the modal dialogue that hides the page while a tree is shown is left out, so more
  orders of clicks are considered than a user can make.
* `double`/`float`: exponent ranges are not modelled; values are exact integers or quotients rounded to the
  width of the significand.
* Characters are Unicode scalars; the code works on bytes.  All character tests are on ASCII.
* Boost.Spirit: attribute propagation is modelled by the values of the parsers (see `Model/Parser`).

### Not modelled
The entry points and their options (`apps/main.cpp`, `program_arguments`), the rest of the web front end (editors, the library for cookies,
memory bar, layout), the test programs, `runtime_statistics` apart from the goal counter, reading files.

## How each property is approached

* C01/C02/C03 — heap semantics by *solutions*: a valuation of heap addresses in
  an algebra satisfies a heap if every cell's equation holds.  Every
  instruction adds equations.  Soundness for every algebra (logical
  consequence), completeness for finite trees.  The source program's meaning is
  an inductive least model over the same algebra.  Refinement: invariant over
  all pending executors.  Hypothesis `Untangled`: no clause's values compete for
  registers (C24 is false of the code); a condition on the source text.
  Programs with `is`: a derivation with a provable instance is followed until an answer covers it or an `is` in it
  meets an unbound variable, which is reported.
* C04, C05, C06, C07, C21, C22, C23 — state machine of the organizer with a clock oracle.
* C08 — executor store with parent indices; frame theorem for every turn.
* C09, C10, C11 — `unify` with fuel; equality of solution sets; termination from
  the size of a finite solution; a cyclic witness for non-termination.
* C12, C13 — readback of heap terms, structural identity.
* C14, C15, C16 — rounding model of double/float; exactness proofs, witness for `^`.  `C14_by_name` (`Props/Operators`) says it with the names of the operators instead of their numbers, which are fixed by `C14_operators`.
* C17 — operator chains on the token level; value from left to right against the value of what the
  parser makes of the text; witness.
* C18 — least model of the two append clauses.
* C19, C20 — compile/load functions; for C20 two interpreters, one without the rejected program, in lockstep.
* C24 — symbolic replay of the compiled atom; witness clauses for the first body atom.
* C25 — instruction list lengths of every compiled atom.
* C26 — environment stacks against a specification stack of goals; and for the compiler: a variable occurring in two atoms between
  which something is called has a permanent register of its own, which the code of exactly the atoms with this variable mentions
  and which is given a value where it is mentioned first, and only there (`KeepsShared`, Spec/Shared.lean).
* C27 — interning with `short` indices; wrap-around witness with 65537 constants.
* C28, C29, C30 — rendering functions with fuel; print spec for trees; injectivity by unique reading; witnesses.
* C71 — the simulation of C36 and C40, with two programs: only the predicates that the query can lead to (`Spec/Needed.lean`: closure under bodies of clauses, built-ins excepted) are compared; clauses for other predicates may be different, missing, or stand anywhere.  Witness that the order of the clauses for one predicate matters.
* C72 — the grammar again with a count of steps (`Model/Reading.lean`: white space skipped, character and string parsers tried, characters taken by words, numbers and comments); erasing the steps gives the parser of `Model/Parser.lean` (`C72_same_parser`).  Upper bound: an amortised argument, every rule pays its steps and the white space it skips repeatedly with the characters it consumes, at a rate that doubles with each bracket around the place (`Cheap`, `Fair` for what is read, `Rowed`, `Bound'` for any outcome; `Proof/Reading2.lean` to `Reading7.lean`).  The depth is measured in the text (`nesting`, `Spec/Reading.lean`) or, for accepted texts, in the terms (`listDepthOf`).  Lower bound: each opening bracket is read by two alternatives.
* C31, C32 — string functions.  `C31_text` says what becomes of every text with white space given by ASCII codes (`Spec/Letters`), because the other theorems use the model's own `isSpace` (seeded bug M435).
* C33 — a labelling of the executors as goals and alternatives is an invariant of all histories; a tree of nodes is shown to be
  the tree of executors.  What is filled in last (texts, bindings) changes nothing else.
* C34 — progress part of the refinement; with `is`, a fault is located in the abstract search of C42 (`Spec/Undefined`); the arithmetic error
  path is a witness against.
* C35 — along the way from any queued executor to the root the goals of the query that were called, followed by those still to
  be called, are the query (an invariant of all histories); the walk collects the variables recorded for the former.
* C36, C40 — simulation between interpreters whose storages number names differently.
* C37 — `clear_memory` at any turn; witness that built-ins are gone.
* C38 — `stoi` range as an escaping exception; unreported rejection; witnesses.
* C39 — program generations; witness of a dangling reference.
* C41 — tokens and an ordinary context-free grammar; soundness and completeness of the parsing expressions, hence
  unambiguity; fuel is bounded by the length of the text.
* C42 — refinement: every executor in the queue stands for an item of the abstract search, whose goal list is given by its set of
  ground instances over finite and infinite trees.  Failure of `==` and open expressions need instances that tell
  different terms apart: the open variables get values that occur nowhere else (`Proof/Separate`).  The search is
  deterministic (`C42_determined`): whether a clause has an environment, and so needs a turn for `deallocate`, is decided by its variables
  (`Proof/Perm2`), and the outcome of an expression is one value or one kind of error (`Proof/Outcome`).
* C43 — exchanges (typed text, results, shown text) as specification; invariant over the steps of the console for one direction,
  construction of the steps for the other.
* C44–C47 — consequences of C43 for the parts that hold; theorems about all inputs and concrete runs for those that do not.
* C48, C49 — loop invariant of the breadth-first traversal: the goals handled so far, in order, determine nodes, edges and counters; goals
  handled and goals below those in the queue are together all goals of the tree.  Answers and waiting alternatives are counted over
  all nodes, with C33 and the invariant that an executor is running exactly if it is in the queue.
* C50 — invariant of a box, preserved by everything that can happen on the page (`PageInv`): its lines are the reports of an uninterrupted search up
  to the state of its interpreter (with C05).
* C51 — invariant relating lines, buttons and pending timers; with C50 for the end of the search.
* C52 — invariant: a box whose drawing number is the newest one is the one in the tree view, is drawn as it is, and has no timer.
* C53 — the tokens of the grammar of C41 contain neither `<` nor `&`.
* C54 — induction over the three functions that fill in texts; relations between heap addresses, terms and texts as specification, proved
  functional (`C54_determined`); that every piece of code lists each of its variables once is an invariant of all histories (`Reach.allCode`).
* C55 — the relation `Text` of C28 against the grammar of C41: for every text of a writable term tokens of the grammar are given that spell it.
* C56 — invariant of the queue (`Tame`): the heap of every pending executor has a solution in finite trees.  A call of a clause whose head repeats no variable
  keeps it: if head and call agree over infinite trees, then the call, cut at the depth of the head, can be completed by finite trees (`Proof/Linear`).
  Over such heaps every loop ends (`Proof/Finite`), so C01, C02, C34 and C42 hold without their exceptions for loops and cyclic terms.
* C57 — generalizes C56, which is the case without inputs.  Specification (`Spec/Modes`): well-moded clauses, a condition on names only.  Second invariant of the
  queue (`Kind.Moded`): in any two solutions of the heap the goals left have the same inputs, as long as the goals before had the same outputs; so the inputs
  of a call have one value only, and as the heap is acyclic this is a ground term.  Unification with a ground term takes at most as many steps as it has nodes
  (`Proof/Ground`); the instructions for the head meet a variable a second time only with one of the sides ground (`HGr`, `MayHang` in `Proof/Head`).
* C58 — C57 (the search goes through any number of turns), C42 (they are the turns of breadth-first resolution, and these leave no choice) and C05 (time-outs change
  nothing); a search that ends cannot be continued.  `ShowsInsts.text`: a variable that has the same finite value in all instances found is shown with the text of this value (C28).
* C59 — the runs of breadth-first resolution for these queries, by induction over the list; then C58.  `append/3` respects modes in both directions.
* C60 — every failure that is turned into an exception carries the position of the iterator.  By recursion over the grammar: what was read, completed by
  one of a few endings (`)`, `X)`, `==X`, `.` …), belongs to the grammar.  Conversely a correct program in front of any text is read to its end.
* C61 — specification `Spec/Defined.lean`: the order in which the terms of a goal are built and which variables exist afterwards, from the terms alone.  Two simulations
  between the set of seen registers and the set of known variables, one for each direction: known variables are seen (needs nothing, so there are no false alarms), and seen
  variables are known (needs that new variables have registers of their own: true within one goal, and a condition on head and first goal).  Variables shared between goals are
  permanent (`Proof/Perm.lean`).  False as stated (`C61_missed`); the part about programs has the condition `Clause.apart`, which is weaker than `untangled` of C24.
* C62 — specification `Spec/Source.lean`: relations `GoalsLaid`, `ClauseLaid`, `ProgLaid` that cut a text into clauses, heads, goals, punctuation, comments and white
  space, and say for each piece in which rows it stands; `undefinedGoal` and `faultAt` (Props) name the first mistake.  The model with positions (`Model/Source.lean`)
  is a second set of parser and compiler functions; `parseProgramAt_erase` and `compileProgramAt_unlocated` show that without positions they are those of
  `Model/Parser.lean` and `Model/Compile.lean`, so that the results about them carry over (C62_same).  Then an induction over the parser for the layout and the simulations of C61 for the goal at fault.
* C63 — specification `Spec/Effort.lean`: derivations with their size, and the number of nodes in the first levels of a tree.  By C42 it is enough to look at the abstract
  search.  The queue is split into the current round and the next; a potential (what each item can cost in the rounds that are left) decreases by at least one with every turn,
  while the item that leads to the instance moves on by one round.  The result also strengthens C02 and C03: nothing is asked of the predicates that other branches use,
  and `\==` may be used between different values (the search never loses such an instance, although `\==` is decided when it is called).
* C64 — `Model/Validate.lean`; C41 for what is accepted, `parseProgramAt_erase` (C62) for the agreement with loading, and that the compiler never reports a syntax error.
* C65 — `Model/Notice.lean`: editors, alert, marks and listeners as a state machine.  Invariant: an alert that names an error in a text is that of the text, and somebody listens to this editor; the reports are those of C62, their independence of hash orders from C36, of the program (for queries) from the exactness of C61/C62.
* C66 — `Model/Copy.lean` makes and counts the copies (`query_node` and `var_binding_node` have no move constructors).  Invariant of trees built by `make_tree` and filled in by `resolve_parent`: they equal their copies (a node with a `query_node` has no final bindings, a node with final bindings has an executor that succeeded); the count is the sum of the sizes of all subtrees, by induction.
* C67 — `Model/Place.lean` keeps the positions beside the interpreter: for every rule those of its atoms, for every executor those of its codes. Erasing them gives back `Model/Organizer` (`Placed.turn_org`, …), so all invariants stay usable. Specification (`Spec/Place.lean`): read off the program and the query with their positions (C62), a goal has one alternative for each clause of its predicate, and below an alternative the goals of the clause come before the remaining ones; `ShownGoal` asks for the right text at each node. Invariant (`GInv`): a ghost list of goals with positions per executor, equal to those found in its codes. The proof goes along the tree.
* C68 — lines of the boxes are assigned to `innerHTML` (Result.js:32), titles are given to vis.js.  Specification (`Spec/Plain.lean`): a list of harmless signs, chosen without `< > & " '`.  Invariant (`PlainOrg`): every name in the storage of functors, in that of variables, in the parsed atoms and in stored errors is harmless; the names come from tokens of the grammar (C41), or from the built-in predicates.  Everything printed is made of these names, numbers and fixed words.  For the texts at the tree: the positions are texts of heads and goals (C62), in which no comment occurs.
* C69 — `Model/Autosave.lean`: cookies and open pages as a state machine; which texts a browser refuses as too long is a parameter. Nothing but a save and the expiry touches the cookies.
* C70 — what a search holds: `Spec/Memory.lean` counts heap cells, entries of the maps of changed cells (different addresses), registers, pending atoms, pointers to children, environments, and the queue; everything with a fixed size counts as one.  Invariant over iterations (`MemHeld`): every instruction adds at most one cell and every `allocate` one environment; changed addresses lie below the own part of the heap; an iteration makes one executor per clause or one; executors that are done keep one atom and one environment.  The sizes of compiled atoms are bounded by the number of symbols in the text (`Proof/Memory2.lean`).  Not counted: growth strategies of vectors and hash maps, the copies that `heap_modify` puts into the map without changing a cell (`is/2`; their addresses lie below the own part, too, so the same bound holds for them), the unification tree and the page.
* C73 — `Spec/Table.lean` says which constants and functors occur in a text and counts the characters an interpreter ever got.  Each function of the compiler adds exactly the symbols of what it translates (`Adds`, closed under sequencing): `flatten_program` and `flatten_query` drop constants, integers and variables that are not arguments of the atom; a dropped constant is written together with the structure around it.  In queries a structure is translated before those around it, so its register is already marked there and it takes no place among the variables.  Variables: at most one place per occurrence; in heads nested structures take places, too.  Tokens (C41) are at least as many as symbols, characters at least as many as tokens.
* C74 — a family of queries (`Spec/Doubling.lean`) to one program.  The texts are parsed for every `n` (C41), accepted (C61), and the tables stay small (C73: the sets of symbols do not grow with `n`, nor do the variables); the program is well-moded, so the abstract run gives the exact reports (C58).  The memory is bounded by C70.
* C75 — `Spec/Rename.lean` replaces names in terms (variables, too); an account of replies with marked places for names (`Doc`) is applied to every renaming.  Compiler and machine commute with renamings function by function (`Proof/Rename1`–`4`: an interpreter state with names replaced everywhere goes to the state with names replaced), the built-in predicates are unchanged since their names are reserved; printing follows the account (`Rename5`).  The orders of hash maps do not matter by C36, so both sides may have different ones.
* C76 — `Spec/Acceptable.lean` (acceptable programs after Apt and Pedreschi, with levels that are relations, since infinite trees have no size).  In the abstract search of C42 every goal waits with a number its levels are below; `3 (m+1)^e` for a goal with number `e` and 1 for an environment to be thrown away bound the turns left on a branch, and `STurn.cost` (C63) bounds the tree.  C42 carries this to the interpreter, C57/C58 make it exact for well-moded programs.  Conversely the number of clauses that can be used from a goal on is a level mapping if the search ends (`ClauseUses`), with provability as the model.
* C77 — the abstract search of C42 in rounds, in each of which everything in the queue has its turn (`Round`).  A round with fewer clauses and a part of the queue, in any order, makes a part of the reports and leaves a part of the queue; runs of turns are parts of runs of rounds and the other way round.
* C78 — an invariant of the abstract search of C42: if the goals that an item has left hold in an instance, then so do the goals of the query (`SItem.Enough`); with the completeness of ended searches (C63) and the fact that `Proves` does not look at the order of goals, the instances of all answers are the solutions.  Both searches must end: `C78_needed`.
* C79 — joins C41 (texts and terms), C50 (lines and search), C73 (texts of up to 32765 characters leave room in the tables) and C78 (answers and solutions). C50 now says that the interpreter of a box was started with the texts *and the order of hash maps of the same click*. New is: if every solution gives the variables of the query values that can be written down (`HasTexts`; `Text` is the specification of C28), then the heap of the executor that has found an answer holds a ground term for each variable — in the solution of the heap in which open variables are no trees at all, the value would otherwise not be finite — so the line has the text of the value (`ShowsInsts.line`). Hypotheses: the memory is not exhausted (`Ample`; messages about the soft limit are allowed), hash maps list their entries in some order (`ProperRuns`), the texts are a program without wrongly compiled clauses and a query (`Readable`; these are the disagreements recorded below). `C79_answers` is the version for answers with open variables.
* C80 — liveness on the page, from the bound on the effort of the search (C63: a derivation is found after a number of turns that depends on it alone), the fact that searches of programs with modes go on as long as one likes (C57) and C50: what the calls of `get_answer` behind the next clicks report are the next reports of the search (`getAnswer_report`, `next_steps`). `C80_soon` is a statement about every box after any events; `C80_clicks` says which events lead from any state of the page to a line for a given solution: the timer, if the box has no line yet, and then clicks on "Next", each with enough time (the first `k` readings of the clock show no time-out; what comes after them, and the memory limits, may be anything).
* C81 — C76 on the page: the bound on the iterations carries over to the lines by C50 (`C81_no_more`, no modes needed); for the clicks, as in C80, the next calls of `get_answer` report the rest of the search and then `no_answer` (`getAnswer_none`, `next_ends`), after which "Next" is disabled and further clicks change nothing (`next_off`). Witness: `rev([a,b],R)`, from a box in which time has run out at once (`C81_reverse`).
* C82 — the same as C79 to C81 for the console: the exchanges of C43, each of which is a session of the interpreter with the query that was typed (`session_fits`, from C05, C42 and the values in the answers); the program is determined by the arguments (`WorksWith`, C44: they are taken for texts), acceptance of queries by C61, smallness of the tables by C73 from the lengths of arguments and input. Specification `Spec/Spoken` (what is to be read for a solution, one line for each variable). `C82_every_solution` and `C82_ends` follow the console step by step while `;` is typed (`ask_run`, `next_run`, `more_run`).
* C83 — the declarative meaning of programs with `is`, `==` and `\==` (`Truth`, in `Spec/Computes`: unlike in `Proves`, `\==` is true of different values only), for programs with modes in which expressions and both sides of comparisons are inputs (`Directed`; weaker than `WellModed` of C57 as heads may repeat variables). Invariant of the abstract search of C42: the inputs of the first goal are the same in all instances of a goal list, those of the later goals if the outputs before are (`Akin`, `Steady`). So a test comes out the same for all instances, which gives soundness (`SRun.suffices`) and, by induction on the number of steps of a proof (`Steps`, `Hot`), that every solution is found after finitely many turns or before the search ends (`SRun.computes`). Lifted to the interpreter, the lines of the web page and the console as in C78, C79, C82. `C83_needed`: without modes both directions fail. `C83_factorial`: an example for all numbers.
* C84 — no instantiation errors (`Props/Instantiated`): in a well-moded program (`WellModed`, a property of the text alone) whose modes have the right side of `is` among the inputs the error "Arguments are not sufficiently instantiated" never occurs: not in a turn, not as the result of a call, not in a line of a box of the web page, not on the console.  Proved on the machine (the argument stands for a ground term in every pending executor, `Tame`), since the search of `Spec/Resolution` reports this error also for ground terms without an `Outcome`.  `C84_needed`: the other errors of `is` do occur in such programs, and without known inputs so does this one.
* C85 — total correctness of programs that compute (`Spec/Total`, `Props/Total`): a contract (`Contract P lev I`) says which ground atoms may be called and at which level, and what holds of everything true (`Truth`, the declarative meaning of C83); when the head of a clause may be called, its goals may be called one after the other, each at a lower level and given `I` of the ones before; expressions may be evaluated only if nothing in that is `Undefined` (C34).  With modes (`WellModed`, `Modes.Tests`) the proof keeps, for every item of the abstract search, that its first goals may be called in every instance (`SItem.Clear`) — the goals before are true, because in directed programs what has passed is true (`Steady.true`, C83) — which bounds the run as in C76 and, with `Work.iterate_fault` (C34), excludes all faults.  Together with C83 the answers are exactly the solutions; with C81's `clicks_end` the clicks on the page lead to 'false'.  Example: `fac(n,F)` for all n ≤ 12 (`C85_factorial`); with 13 there is an overflow (`C85_needed`). `Props/Dialog` follows the console (`exchange_ends`, as `C82_ends`): `C85_console`.
* C86 — every proof is reported exactly once (`Spec/Proofs`, `Props/Proofs`): a proof is named by the positions of the clauses used from left to right (`Follows P w gs`); `ProvedBy P q w ρ`: the instance ρ of the query is proved with w.  The abstract search of C42 is run again with the positions used so far written to every item (`ARun`); items never have comparable sequences (`Apart`: none is a prefix of another), which gives that no proof is found twice; the instances of an item are exactly what is left of the proofs that begin with its sequence (`Left`), which gives that an answer shows exactly what its proof proves; and every proof is found (`Heads`, by induction on the proof).  `C86_count`: as many answers as proofs.  `OnlyClauses.directed`: without `is`, `==`, `\==` there is no condition.  Examples: the factorial of n ≤ 12 is answered once (`C86_factorial`), what has two proofs twice (`C86_twice`).
* C87 — another order of clauses and goals (`Spec/Rearrange`, `Props/Rearrange`): `Rearranged p p2`, a permutation of the clauses followed by a permutation of the goals of each. The proofs of C86 are the listings of trees (`PTree`, `PTree.of_follows`, `PTree.follows`), and a listing determines the tree (`PTree.unique_list`: whether a goal has a clause depends on its name only). Trees are rearranged along the positions (`perm_index`, `PTree.shuffle`), and back (`PTree.Match.showsL`), which gives a bijection between the proofs of both queries that keeps what is proved (`Rearranged.proofs`); with C86 the answers correspond. `C87_needed`: without modes this fails, as `\==` is decided when it is called.
* C88 — iterations of `unify` (`Spec/Region`, `Props/Expense`): a `Region` is a set of addresses closed under pointers and arguments without unbound variables.  If the two terms lie in disjoint regions, then no two addresses on the stack are ever the same and nothing is bound, so the total size of the terms on the stack falls by one in every iteration (`unifyLoop_exact`; that no comparison fails comes from the completeness of `unifyLoop_spec`).  Two towers of structures, each with two pointers to the one below it, give the family.  `C88_session` (`Props/Growth`) runs a program that builds such towers, for all numbers of answers: the executors of the search are written down (`spine`), and every turn is computed with `m` left open.  C36 gives it for all orders of hash maps.
* C89 — beginnings of proofs (`Spec/Begun`, `Props/Begun`): `BeginsBy` is `Follows` of C86 with goals left over.  The items of the search are tagged with the clauses used for them, as for C86.  From below: every beginning is the tag of a turn, by induction on the beginning (`visit_goals`).  From above: an item may still lead to `SItem.ahead` turns, which counts the listed beginnings that start with its tag (`under`); the tags of the clauses called for an item start with its own tag and exclude each other (`under_children`), so every turn lowers the sum over the queue (`STurn.ventured`).  C76 has the criterion with levels for programs without `is`, `==`, `\==`; here these may be called, and the bound is linear in the beginnings.
* C90 — more special queries (`Spec/Special`, `Props/Special`): `Node.special σ` puts terms in the place of the variables of a goal; the instance of the special goal under ρ is the instance of the goal where each variable has the value of its term under ρ (`through σ ρ`).  So proofs and beginnings of proofs of the more special query are proofs and beginnings of the query (`provedBy_special`, `BegunBy.general`), and a beginning for the first goals is one for all goals (`BegunBy.whole`).  The answers follow with C86, the end with C89: beginnings are closed under prefixes, so none is longer than there are beginnings (`BegunBy.length_lt`), which gives the bound 2(q + t(m + 1)) + 1 + b for each of the t iterations of the first search.  That bound is not sharp; `Props/Fewer` shows by a simulation that the search for the more special query, or for first goals, takes no more iterations than the first search (`C90_fewer`, `C90_fewer_first`): `Costs` counts all turns that come from an item, and each item of the more special search corresponds to a different item of the first one with the same things to do, possibly followed by more, and with instances among its instances (`Narrower`).  The modes of the first query are enough for that: they make `==`, `\==` and `is` decide the same for all instances.  Not claimed: that the answers come in the same order.  The converse is false (`C90_not_back`).
* C91 — queries put together (`Props/Joined`; no new specification): a proof of the goals of both queries is a proof of the first followed by one of the second (`provedBy_append`), and can be split in one way only, because which predicates are left over is determined by the clauses used: no proof is a proper beginning of another one (`Follows.ended`, `ProvedBy.unique`).  The answers follow with C86.  Without common variables, valuations for the two can be put together, so the number is the product (`C91_count`).  A beginning for all goals is one for the first goals or a proof of these with a beginning for the others (`BeginsBy.split`), so the end follows with C89.  A better bound follows with the simulation of C90 (`Props/Both`, `C91_iterations`): the search for both runs like that for the first, with the goals of the second after each item (`Beside`); where the first reports an answer, the scopes that are still open are left, at most one for each iteration of the first, and then the second takes no more turns than by itself (`costs_after`).  This needs modes for the two queries only.
* C92 — giving a query a name (`Spec/Named`, `Props/Named`): if a clause is the only one for its predicate, the proofs of its head are those of its body with the clause before them (`provedBy_named`), for values that agree on the variables of the head; instances of the head determine the values of its variables because different trees have different labels or different subtrees (`inst_same`).  The same for beginnings (`begunBy_named`).  Answers follow with C86, the end with C89.  The exact number of iterations (`Props/Turns`, `C92_iterations`, `C92_body_iterations`) follows with the simulation of C90 in both directions: the body as a query and the body in the place of the head differ only in a scope to be left at the end, which is never left (`costs_body`).
* C93 — alternatives (`Spec/Alternatives`, `Props/Alternatives`): as C92 for any number of clauses with the same head; the proofs of the head are those of the bodies with the clause before them (`provedBy_alternatives`), so proofs that begin with different clauses are different, and the numbers of answers add up.  So do the numbers of iterations, with one for each clause and one for the call (`C93_iterations`).
* C94 — calls stand for bodies (`Spec/Unfold`, `Props/Unfold`): `Instance g c σ` says that the call `g` is the head of `c` with terms in the place of its variables, and that the other variables of the body are renamed apart.  Values for the variables of the call, and for those of the clause, can then be put together (`Instance.values`), so that the proofs of the call are those of the instances of the bodies with the clause before them (`provedBy_unfold`), which gives the answers with C86; and the goals that take the place of the call have the same instances as the instance of the body as a query (`enter_unfold`), which gives the exact number of iterations with the simulation of C90 in both directions, as for C92 and C93, which are the case of the most general call.  Clauses whose head has no instance in common with the call cost one iteration.  Not covered: clauses whose head can be unified with the call, but is not more general; there the call itself is made more special.
* C95 — `append/3` with a list of known length (`Props/Concat`; specification: `Asked`, `itreeAlg`, and `listTo`, the list of given elements with a given end).  The built-in clauses are the only ones for `append/3` in force in any program (`append_only`).  By induction on the length, for any set of instances of a call whose first argument is a list of that length (`Calls`): one turn for the call, one for each of the two clauses; a set of instances contains a true one iff the set entered by the second clause does (`costsA_append`).  Unlike C59 nothing has to be ground, and no modes are needed.
* C96 — `append/3` with a third list of known length (`Props/Divide`; specification: `howMany n Q`, the number of `i < n` with `Q i`, besides that of C95).  As C95, by induction on the length of the third argument for any set of instances (`CallsOn`): there is a true instance with `i+1` elements in the first list iff there is one with `i` elements after the second clause is entered (`divides_succ`), and the same for first arguments that only begin with the elements (`begins_succ`), which gives the exact number of iterations.

## Where the code disagrees with a property

Every item has a theorem with a concrete witness.

1. **Register clashes** (C01, C02, C03, C24, C34, C42, C63).  Head and first goal of a clause share one set of registers.
   In `p(X,Y) :- q(Z,W)` values of the head are overwritten; in `p(X) :- q(a,b,X)` the argument registers of the
   goal are filled while values of the head are still needed.  Wrong answers, lost answers, uninitialised registers.
   `C01_unsound_registers`, `C42_lost_registers`, `C63_lost_registers`, `C03_false_wrong`, `C24_shares_witness`, `C24_lost_witness`, `C34_uninitialised`.
2. **No occurs check** (C01 over finite trees, C11): `C01_unsound_occurs_check`, `C11_unify_may_hang`; a
   query that `get_answer` never comes back from, whatever its time limit: `C56_needed`.  Only if a head contains a variable twice (C56), outside of its inputs (C57).
3. **Chains nest to the right** (C17): `10 - 3 - 2` is answered 9.  `C17_wrong`.
4. **`^` is computed with `float`** (C16): `3^16` is wrong.  `C16_pow_wrong`.
5. **Type errors of `is`** (C15, C20, C34): the message is made from a storage index used as a heap address; it names a wrong
   functor, depends on other programs, and may read outside the heap.  `C15_message_wrong`, `C20_message_changes`, `C34_is_message`.
6. **Integers of more than 32 bits** (C38): `stoi` throws out of `load_program`/`load_query`.  `C38_exception_escapes`.
7. **Text after the dot of a query** (C38, C03, C64): `p(a). q(b).` is dropped, the error returned has the type NONE; the next
   `get_answer` says that there is no answer.  `C38_rejection_unreported`.
8. **Partial lists** (C29): `[a|Xs]` is printed without its last character.  `C29_rest_never_complete`, `C29_witness`.
9. **Names of unbound variables** (C30): one variable can get two names, two variables one.  `C30_two_names`, `C30_one_name`.
10. **16-bit indices** (C27): the 65537th name gets the number of the first.  `C27_numbers_repeat`.
11. **Memory exhaustion** (C37, C19): `clear_memory` also removes the built-in predicates.  `C37_built_ins_lost`.
12. **Loading while a query is pending** (C39): the pending goals point into the replaced program.  `C39_dangling`.  The same holds for the unification tree of a
    finished search: `C33_tree_after_load_dangles`; and after `clear_memory`, which frees the atoms of the query: `C33_tree_after_memory_dangles`.

13. **Files are not read** (C44): the console passes the path of a file to `load_program` as program text.  `C44_files_unread`, `C44_witness`.
14. **End of input** (C45): the console asks the last text again and again.  `C45_endless`, `C45_witness`.
15. **Errors after `;`** (C46): the console prints the error and then reads the answer that is not there (`std::get` on a variant that holds an
    error), which ends it.  `C46_later_error_fatal`, `C46_witness`.
16. **Errors of `load_query` are ignored by the console** (C47): "false" is shown for everything that is not a query.
    `C47_unread_false`, `C47_witness`.
17. **Exhausted memory on the web page** (C51): after "Memory exhausted." the page says "false" although answers are missing.  `C51_witness`.
18. **Stale tree** (C52): an answer that arrives by a timer does not mark the tree as outdated.  `C52_witness`.
19. **Text after the dot on the web page** (C53): because of item 7 it is put into the page as HTML.  `C53_witness`.
20. **Unreadable answers** (C55): the operand of an arithmetic operator can be bound to any term; the text shown, e.g. `(a // 2)`, is then a syntax
    error as input.  `C55_unreadable`.
21. **Undefined variables that are missed** (C61): the check of an arithmetic operand looks at registers, not at variables; in `p(A) :- q(B + 1).` the
    register of `A` stands in for `B`, so the clause is accepted.  `C61_missed`.  Likewise `X is X + 1` is accepted and `X is (X + 1) * 2` is not (`C61_samples`).
22. **Notices that stay** (C65): the listener of `SyntaxError` only knows the last mark, so the mark of an error that was reported twice stays for good
    (`C65_marks_stay`); the alert about an exception has no listener and stays after the mistake was corrected (`C65_trouble_stays`).
23. **Goals without a line** (C67).  A goal before which an environment has to be removed is already in the tree; its text is made from
   `source_code_info{}`, the line of which is uninitialised and the text empty (`C67_no_line`, shown beside an answer).  What stands in line 1696969 of a program is shown as built-in (`C67_far`).
24. **Texts that do not come back** (C69).  An empty text is replaced by `your_program_code_here.` (`C69_empty`), a text that is too long for a cookie by an older one (`C69_long`), and two open pages overwrite
   each other's texts (`C69_two_pages`).
25. **Reading takes exponential time** (C72).  `list` (base_grammar.h:93-99) has three alternatives that begin with the same bracket, and the parser does not remember what it
   has read: `p([…[[X|X]|X]…|X]).` with n brackets takes at least 2^n steps (`C72_exponential`), so no polynomial bounds the time (`C72_no_polynomial`), and a query of n opening
   brackets, which is rejected, does as well (`C72_open_brackets`); forty brackets stop the page or the server for hours.
26. **The time limit does not bound a turn** (C88).  `exec_executors` reads the clock before every turn (bfs_organizer.cpp:63-70), but one `unify` may take exponentially many iterations in the number of cells
   (`C88_towers`).  With `t(A, A). t(A, B) :- t(g(A, A), g(B, B)).` and `t(a,a)` every answer takes three turns and six new cells, but the m-th takes 2^m - 1 iterations (`C88_session`): about the fortieth
   click on "next" does not come back for hours, whatever the limit is.

Seen in the code, but outside of the properties or of the model: if a body cannot be read its `:-` is reported as the error, perhaps rows before the mistake (`C60_row_not_exact`);
`SyntaxError.show` passes a row counted from 0 to `gotoLine`, which counts from 1; clauses for `==/2` and `\==/2` are accepted and silently ignored; a comment at the end of a
program without newline is a parse error; whether an
undefined variable in `is` is reported depends on the order of goals; the unification tree shows `[a|X]` as `[a, X]`, like the
list of two elements.
