import Verif.Model.Parser
/-!
# The console (src/app_runner/normal_mode.cpp)

`app_runner::normal_mode` as a state machine: one step is one pass through the outer loop up to the point
where the user is asked something again.  `std::cin` is the text that is still to be read and whether the stream is
still good; `std::cout` is the text written so far.

Simplified: the arguments are the paths, without the parsing of options by boost (apps/main.cpp:17-23 and
include/prolog_bfs/program_arguments/parser.h); memory exhaustion is left out, as in `Org.getAnswer`; the limit
`max_size` of strings is ignored.
-/
namespace PBfs

/-- The texts of runtime errors (err_handling.cpp:11-24, arithmetic_checks.cpp:11-15, bfs_organizer.cpp:55, 68) -/
def RtErr.explanation (e : RtErr) : Name :=
  match e.kind with
  | .notInstantiated =>
    n!"ERROR: Arguments are not sufficiently instantiatedHint: " ++ e.mention ++ n!" points to nothing and is therefore not evaluable"
  | .notArithmetic => n!"ERROR: Arithmetic: " ++ e.mention ++ n!" is not a function"
  | .divByZero => n!"ERROR: Arithmetic: evaluation error: zero_divisor"
  | .outOfTime => n!"Time limit exceeded"
  | .outOfMemory => n!"Memory exhausted."

/-- `std::cin`: what can still be read; `good` is false as soon as the end of the input has been hit. -/
structure Cin where
  rest : List Char
  good : Bool
  deriving DecidableEq, Repr

namespace Cin

/-- The characters up to the delimiter, and what follows the delimiter, if there is one. -/
def upTo (d : Char) : List Char → List Char × Option (List Char)
  | [] => ([], none)
  | c :: cs => if c = d then ([], some cs) else (c :: (upTo d cs).1, (upTo d cs).2)

/-- `std::getline(std::cin, s, d)`: a stream that is not good does not touch `s`. -/
def getline (d : Char) (c : Cin) (s : Name) : Name × Cin :=
  if c.good then
    match upTo d c.rest with
    | (t, some r) => (t, ⟨r, true⟩)
    | (t, none) => (t, ⟨[], false⟩)
  else (s, c)

def skip (d : Char) : Nat → List Char → Cin
  | 0, s => ⟨s, true⟩
  | _ + 1, [] => ⟨[], false⟩
  | n + 1, c :: cs => if c = d then ⟨cs, true⟩ else skip d n cs

/-- `std::cin.ignore(n, d)` -/
def ignore (n : Nat) (d : Char) (c : Cin) : Cin := if c.good then skip d n c.rest else c

end Cin

/-- Where the console stands. -/
inductive Phase where
  /-- at the beginning of the outer loop -/
  | prompt
  /-- bindings have been printed, the user is asked whether they want more -/
  | more
  /-- `normal_mode` has returned -/
  | quit
  /-- the process has been ended by an exception or an assertion -/
  | abort
  /-- a call of `get_answer` did not return within the clock readings given -/
  | busy
  deriving DecidableEq, Repr

structure Con where
  org : Org
  cin : Cin
  /-- `cur_input` -/
  cur : Name
  out : List Char
  phase : Phase

namespace Con

def write (s : List Char) (c : Con) : Con := { c with out := c.out ++ s }

/-- The bindings of an answer (normal_mode.cpp:62-64). -/
def bindingLines : List Binding → List Char
  | [] => []
  | [b] => b.str
  | b :: bs => b.str ++ n!"\n" ++ bindingLines bs

/-- The body of `while(answer)` up to the question whether the user wants more (normal_mode.cpp:57-64). -/
def showAnswer (bs : List Binding) (c : Con) : Con :=
  match bs with
  | [] => { c.write n!"true\n" with phase := .prompt }
  | bs => { c.write (bindingLines bs) with phase := .more }

/-- normal_mode.cpp:35-64: the prompt, the query, the first answer. -/
def ask (fuel : Nat) (ord : HashOrder) (clock : List Bool) (c : Con) : R Con :=
  let c := c.write n!"?- "
  let (cur, cin) := c.cin.getline '.' c.cur
  let c := { c with cur := cur, cin := cin }
  if cur = n!"q" then pure { c with phase := .quit }
  else do
    let c := { c with cin := c.cin.ignore 1024 '\n' }
    let (org, l) := c.org.loadQueryText ord cur
    let c := { c with org := org }
    match l with
    | .exception => pure { c with phase := .abort }
    | _ => do
      let (org, r) ← c.org.getAnswer fuel clock
      let c := { c with org := org }
      match r with
      | .error e => pure { c.write (n!"error: " ++ e.explanation ++ n!"\n") with phase := .prompt }
      | .noAnswer => pure { c.write n!"false\n" with phase := .prompt }
      | .answer bs => pure (c.showAnswer bs)
      | .running => pure { c with phase := .busy }

/-- normal_mode.cpp:66-81: whether the user wants more, and the next answer.  After an error
`result.get_answer()` (line 74) fails: its assertion (result.h:40), or `std::get` if assertions are off. -/
def next (fuel : Nat) (clock : List Bool) (c : Con) : R Con :=
  let (req, cin) := c.cin.getline '\n' []
  let c := { c with cin := cin }
  if req = n!";" then do
    let (org, r) ← c.org.getAnswer fuel clock
    let c := { c with org := org }
    match r with
    | .error e => pure { c.write (n!"Error: " ++ e.explanation ++ n!"\n") with phase := .abort }
    | .noAnswer => pure { c.write n!"false\n" with phase := .prompt }
    | .answer bs => pure (c.showAnswer bs)
    | .running => pure { c with phase := .busy }
  else pure { c with phase := .prompt }

/-- One step of the console. -/
def step (fuel : Nat) (ord : HashOrder) (clock : List Bool) (c : Con) : R Con :=
  match c.phase with
  | .prompt => c.ask fuel ord clock
  | .more => c.next fuel clock
  | _ => pure c

/-- A number of steps, each with the iteration order of hash maps and the clock readings it meets. -/
def steps (fuel : Nat) : List (HashOrder × List Bool) → Con → R Con
  | [], c => pure c
  | e :: es, c => do
    let c ← c.step fuel e.1 e.2
    steps fuel es c

/-- normal_mode.cpp:19-22: every argument is given to `load_program`, whose result is ignored; `none` if an
exception leaves it. -/
def loadAll (ord : HashOrder) : List Name → Org → Option Org
  | [], o => some o
  | a :: as, o =>
    match o.loadProgramText ord a with
    | (_, .exception) => none
    | (o, _) => loadAll ord as o

/-- normal_mode.cpp:28-31 -/
def greeting : List Char :=
  n!"Entered query mode. Type \"q.\" to quit\n" ++
  n!"Enter a query (e.G. \"p(Z).\"). Make sure to add the .\n" ++
  n!"To get more than 1 unification, type \";\" + Enter \n" ++
  n!"Bugreports are welcome: https://github.com/LhKipp/Prolog_BFS\n"

/-- normal_mode.cpp:16-33, on a new interpreter. -/
def start (ord : HashOrder) (args : List Name) (input : List Char) (o : Org) : Con :=
  let out := (if args = [] then n!"No file found to read source code from!\n" else []) ++ greeting
  match loadAll ord args o with
  | some o => ⟨o, ⟨input, true⟩, [], out, .prompt⟩
  | none => ⟨o, ⟨input, true⟩, [], [], .abort⟩

end Con
end PBfs
