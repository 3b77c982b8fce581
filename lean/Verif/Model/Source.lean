import Verif.Model.Parser
/-!
# Source positions

Where clauses and goals stand in the text (`source_code_info`), and the row a `compiler::error` of the compiler
carries (`get_row`, compiler_error.h:42-44; shown by InterpreterHandler.js:54-55, 67-68).  `Model/Parser.lean`
and `Model/Compile.lean` leave the positions out; the functions here are those functions with positions, and
`Proof/Source.lean` shows that without the positions they are the same.

Left out: `code_info` of the whole query (never read), the columns, the texts of the messages.
-/
namespace PBfs

/-- `source_code_info` (include/prolog_bfs/wam/data/source_code_info.h:12-22): the row in which a piece of text
begins, the row in which it ends, and the text. -/
structure Info where
  lineBegin : Nat
  lineEnd : Nat
  value : List Char
  deriving DecidableEq, Repr

/-- `add_source_code_info` (include/prolog_bfs/wam/compiler/parser/util/parser_util.h:21-33).  The iterators are
given by the texts from there on. -/
def sourceInfo (text b e : List Char) : Info := ⟨errorRow text b, errorRow text e, b.take (b.length - e.length)⟩

/-- `iter_pos >> p >> no_skip[iter_pos]` (base_grammar.h:104, program_grammar.h:39, 44): the first `iter_pos` skips
white space, the second does not. -/
def located (text : List Char) (p : P α) : P (α × Info) := fun s =>
  (p (skipWs s)).bind fun a r => .ok (a, sourceInfo text (skipWs s) r) r

/-- A clause with the positions of itself, of its head and of its goals. -/
structure ClauseAt where
  info : Info
  head : Node × Info
  body : List (Node × Info)
  deriving Repr

def ClauseAt.clause (c : ClauseAt) : Clause := ⟨c.head.1, c.body.map (·.1)⟩

/-- `atom` (base_grammar.h:104-106) -/
def atomAtP (text : List Char) (n : Nat) : P (Node × Info) := located text (atomP n)

/-- `clause_head` (program_grammar.h:44-46) -/
def headAtP (text : List Char) (n : Nat) : P (Node × Info) :=
  located text fun s => (functorP (elementP n) s).orElse (constantP s)

/-- `clause` (program_grammar.h:47-48): head and goals. -/
def clauseAtP (text : List Char) (n : Nat) : P ((Node × Info) × List (Node × Info)) := fun s =>
  (headAtP text n s).bind fun h r =>
    let body : PR (List (Node × Info)) := (lit n!":-" r).bind fun _ r => sepBy1 (atomAtP text n) [','] (r.length + 1) r
    (body.orElse (.ok [] r)).bind fun b r => ((lit ['.'] r).must (skipWs r)).map fun _ => (h, b)

/-- `rule` (program_grammar.h:39-41) -/
def ruleAtP (text : List Char) (n : Nat) : P ClauseAt := fun s =>
  (located text (clauseAtP text n) s).bind fun c r =>
    match commentP r with
    | .ok _ r => .ok ⟨c.2, c.1.1, c.1.2⟩ r
    | .fail => .ok ⟨c.2, c.1.1, c.1.2⟩ r
    | .expect p => .expect p
    | .hang => .hang

def lineAtP (text : List Char) (n : Nat) : P (Option ClauseAt) := fun s =>
  ((commentP s).map fun _ => none).orElse ((ruleAtP text n s).map some)

/-- `parse_program` (parser.h:34-46), see `parseProgram`. -/
def parseProgramAt (text : List Char) : Parsed (List ClauseAt) :=
  match many (lineAtP text (text.length + 1)) (text.length + 1) text with
  | .ok ls r => if skipWs r = [] then .ok (ls.filterMap id) else .error (skipWs r)
  | .expect p => .error p
  | _ => .error text

/-- `parse_query` (parser.h:19-31), see `parseQuery`. -/
def parseQueryAt (text : List Char) : Parsed (List (Node × Info)) :=
  match sepBy1 (atomAtP text (text.length + 1)) [','] (text.length + 1) text with
  | .ok as r =>
    match lit ['.'] r with
    | .ok _ r => if skipWs r = [] then .ok as else .blank
    | _ => .error (skipWs r)
  | .fail => .error (skipWs text)
  | .expect p => .error p
  | .hang => .error text

/-! ## Compiling -/

/-- Results of the compiler; an error carries `source_info` (compiler_error.h:17). -/
abbrev CRAt := Except (CErr × Info × Storage)

/-- What is thrown while the atom at this position is compiled (undefined_var.cpp:18-22,
redefinition_of_built_in_pred.cpp:11-16). -/
def at? (i : Info) : CR α → CRAt α
  | .ok a => .ok a
  | .error (e, st) => .error (e, i, st)

/-- `compile_query_atom` for several atoms (compiler.cpp:413-421, 560-568).  Every compiled atom gets the position of the
parsed one (compiler.cpp:446). -/
def compileQueryAtomsAt (yOf : Name → Option Nat) (pre : List Instr) (fromQuery : Bool) :
    List (Node × Info) → GenSt → CRAt (List (CAtom × Info) × GenSt)
  | [], g => pure ([], g)
  | a :: as, g => do
    let (c, g) ← at? a.2 (compileQueryAtom yOf pre fromQuery a.1 g)
    let (cs, g) ← compileQueryAtomsAt yOf [] fromQuery as g
    pure ((c, a.2) :: cs, g)

/-- `compile_query` (compiler.cpp:393-427), after parsing. -/
def compileQueryAt (ord : HashOrder) (atoms : List (Node × Info)) (st : Storage) : CRAt (List (CAtom × Info) × Storage) := do
  let ys := permVars ord false (atoms.map (·.1))
  let (cs, g) ← compileQueryAtomsAt (indexOf? · ys) (allocInstrs ys.length) true atoms ⟨[], st⟩
  pure (cs, g.st)

/-- The position of a deallocate atom, `source_code_info{}` (compiler.cpp:579).  The rows are not initialised there (`0` stands
for whatever they are); it can be shown, see `C67_no_line`. -/
def noInfo : Info := ⟨0, 0, []⟩

/-- `compile_program_term` (compiler.cpp:487-585). -/
def compileClauseAt (ord : HashOrder) (c : ClauseAt) (st : Storage) : CRAt (FV × List (CAtom × Info) × Storage) := do
  let head := c.head.1
  let ys := permVars ord true (head :: c.body.map (·.1))
  let yOf := (indexOf? · ys)
  if redefines head then .error (.redefinition, c.head.2, st)
  match c.body with
  | [] =>
    let (hs, _, n) := assignSingle head
    let (is, g) ← at? c.head.2 (toProgram yOf head hs ⟨[], st⟩)
    pure (head.fv, [(⟨n, allocInstrs ys.length ++ is, varRegs yOf hs [], head, false⟩, c.head.2)] ++
      (deallocAtoms ys.length).map (·, noInfo), g.st)
  | b :: bs =>
    let ((hs, _), (fs, fv), n) := assignPair head b.1
    let (is, g) ← at? c.head.2 (toProgram yOf head hs ⟨[], st⟩)
    let g := { g with seen := eraseStructRegs head hs g.seen }
    let (js, g) ← at? b.2 (toQuery yOf (fv.lookup ·) b.1 fs g)
    let (cs, g) ← compileQueryAtomsAt yOf [] false bs { g with seen := dropX g.seen }
    pure (head.fv,
      [(⟨n, allocInstrs ys.length ++ is, varRegs yOf hs [], head, false⟩, c.head.2),
       (⟨n, js, varRegs yOf fs [], b.1, false⟩, b.2)] ++ cs ++ (deallocAtoms ys.length).map (·, noInfo), g.st)

/-- `compile_program` (compiler.cpp:455-485), after parsing: the rules in the order of the text, each with its functor and its position
(compiler.cpp:472). -/
def compileProgramAt (ord : HashOrder) : List ClauseAt → Storage → CRAt (List (FV × Info × List (CAtom × Info)) × Storage)
  | [], st => pure ([], st)
  | c :: cs, st => do
    let (f, r, st) ← compileClauseAt ord c st
    let (rs, st) ← compileProgramAt ord cs st
    pure ((f, c.info, r) :: rs, st)

/-! ## What the caller is told -/

/-- The `compiler::error` returned by `load_program` and `load_query`: its type and `get_row()`.  `empty`: `exists()` is false.
`exception`: another exception (C38). -/
inductive Report where
  | empty
  | error (type : CErr) (row : Nat)
  | exception
  deriving DecidableEq, Repr

def Report.of : CRAt α → Report
  | .ok _ => .empty
  | .error (.outOfRange, _) => .exception
  | .error (e, i, _) => .error e i.lineBegin

/-- What is seen of a report without the row. -/
def Report.load : Report → Org.Load
  | .empty => .ok
  | .error e _ => .rejected e
  | .exception => .exception

namespace Org

/-- `load_program` (bfs_organizer.cpp:20-22, 37-47) -/
def programReport (ord : HashOrder) (text : List Char) (o : Org) : Report :=
  match parseProgramAt text with
  | .ok p => .of (compileProgramAt ord p o.st)
  | .error pos => .error .parse (errorRow text pos)
  | .blank => .empty

/-- `load_query` (bfs_organizer.cpp:109-134) -/
def queryReport (ord : HashOrder) (text : List Char) (o : Org) : Report :=
  match parseQueryAt (appendDot text) with
  | .ok q => .of (compileQueryAt ord q o.st)
  | .error pos => .error .parse (errorRow (appendDot text) pos)
  | .blank => .empty

end Org
end PBfs
