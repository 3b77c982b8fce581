import Verif.Model.Organizer
/-!
# The parser

The grammars are written with Boost.Spirit.Qi: `include/prolog_bfs/wam/compiler/parser/base_grammar.h`,
`program_grammar.h`, `query_grammar.h`, `parser.h`; the terms are built by the constructors of `node`
(`src/wam/compiler/util/node.cpp`).  Qi parsers are parsing expressions (ordered choice, greedy
repetition, no reconsidering of a choice that succeeded).  `a >> b` fails if `b` fails, `a > b` throws
`expectation_failure` if `b` fails; that exception leaves all rules up to the start rule, whose
`on_error<fail>` handler (base_grammar.h:163-173) fills in the error.  Every character and string parser
first skips white space, except inside `lexeme`.

Left out: the source positions of clauses and goals (see Model/Source.lean), the texts of error messages.  Attributes of alternatives that failed are not
rolled back by Qi; in these grammars every alternative that fails after having touched its attribute is
followed only by alternatives that overwrite it, so this is not visible and not modelled.
-/
namespace PBfs

/-- What a parser does at a position: a value and the remaining text, failure without consequences
(`false` is returned), or an `expectation_failure`, which carries the iterator `first` the failing parser
left behind (`_3` in base_grammar.h:171, `error_pos` in error_handler.h:24), given by the text from there
on.  `hang` is only used to cut off the recursion of the
model (theorem `element_total`). -/
inductive PR (α : Type) where
  | ok (a : α) (rest : List Char)
  | fail
  | expect (pos : List Char)
  | hang
  deriving DecidableEq, Repr

abbrev P (α : Type) := List Char → PR α

namespace PR

/-- `a >> b` -/
def bind (x : PR α) (k : α → List Char → PR β) : PR β :=
  match x with
  | ok a r => k a r
  | fail => fail
  | expect p => expect p
  | hang => hang

/-- What follows a `>`: failure is an `expectation_failure`.  `pos` is where the failing parser leaves the
iterator: character and string parsers have skipped white space, all other parsers put it back. -/
def must (x : PR α) (pos : List Char) : PR α :=
  match x with
  | fail => expect pos
  | x => x

/-- `a | b` -/
def orElse (x : PR α) (y : PR α) : PR α :=
  match x with
  | fail => y
  | x => x

/-- Attribute conversion. -/
def map (f : α → β) (x : PR α) : PR β := x.bind fun a r => ok (f a) r

end PR

/-- The skipper: `boost::spirit::qi::space` (parser.h:26, 41). -/
def skipWs (s : List Char) : List Char := s.dropWhile isSpace

/-- `char_("a-z")` -/
def isLower (c : Char) : Bool := 'a' ≤ c && c ≤ 'z'

/-- `char_("A-Z")` -/
def isUpper (c : Char) : Bool := 'A' ≤ c && c ≤ 'Z'

/-- `char_("0-9")` -/
def isDigit (c : Char) : Bool := '0' ≤ c && c ≤ '9'

/-- `char_("a-zA-Z_0-9")` -/
def isWord (c : Char) : Bool := isLower c || isUpper c || c = '_' || isDigit c

/-- `lit("…")` and `string("…")`, without skipping. -/
def exactly : List Char → P Unit
  | [], s => .ok () s
  | c :: cs, s =>
    match s with
    | [] => .fail
    | d :: s => if d = c then exactly cs s else .fail

/-- `lit("…")`, `string("…")`, `lit('…')`, `char_("…")` with pre-skip. -/
def lit (t : List Char) : P Unit := fun s => exactly t (skipWs s)

/-- `lexeme[char_(…) > *char_("a-zA-Z_0-9")]` with a first character satisfying `p`. -/
def word (p : Char → Bool) : P Name := fun s =>
  match skipWs s with
  | [] => .fail
  | c :: s => if p c then .ok (c :: s.takeWhile isWord) (s.dropWhile isWord) else .fail

/-- `constant` (base_grammar.h:86) -/
def constantP : P Node := fun s => (word isLower s).map .cons

/-- `variable` (base_grammar.h:87) -/
def variableP : P Node := fun s => (word isUpper s).map .var

/-- The value of a string of digits. -/
def digitsVal (ds : List Char) : Nat := ds.foldl (fun n d => 10 * n + (d.toNat - 48)) 0

/-- `number` (base_grammar.h:88): an optional minus sign immediately followed by digits.  The node keeps the
number instead of its text. -/
def numberP : P Node := fun s =>
  let s := skipWs s
  let (neg, s) := match s with
    | '-' :: r => (true, r)
    | _ => (false, s)
  match s.takeWhile isDigit with
  | [] => .fail
  | d :: ds =>
    let v : Int := digitsVal (d :: ds)
    .ok (.int (if neg then -v else v)) (s.dropWhile isDigit)

/-- `*p`; the first argument bounds the number of iterations. -/
def many (p : P α) : Nat → P (List α)
  | 0, _ => .hang
  | n + 1, s =>
    match p s with
    | .ok a r => (many p n r).map (a :: ·)
    | .fail => .ok [] s
    | .expect p => .expect p
    | .hang => .hang

/-- `p % sep`; the first argument bounds the number of iterations. -/
def sepBy1 (p : P α) (sep : List Char) (n : Nat) : P (List α) := fun s =>
  (p s).bind fun a r =>
    (many (fun s => (lit sep s).bind fun _ r => p r) n r).map (a :: ·)

/-! ## Expressions -/

/-- `value` (base_grammar.h:109); `ex` is `expression`. -/
def valueP (ex : P Node) : P Node := fun s =>
  (variableP s).orElse <| (numberP s).orElse <|
    (lit ['('] s).bind fun _ r => ((ex r).must r).bind fun e r => ((lit [')'] r).must (skipWs r)).map fun _ => e

/-- One link `op > operand` of a chain (base_grammar.h:110, 113-114, 117-118): the operators are tried in
turn. -/
def chainedP (operand : P Node) : List Name → P (Name × Node)
  | [], _ => .fail
  | op :: ops, s =>
    ((lit op s).bind fun _ r => ((operand r).must r).map fun v => (op, v)).orElse (chainedP operand ops s)

/-- `node(const parser::chained_expr&)` (node.cpp:86-106): the chain is nested to the right. -/
def chainNode (v : Node) : List (Name × Node) → Node
  | [] => v
  | (op, w) :: rest => .efn op [v, chainNode w rest]

/-- `power_helper` and `power` (base_grammar.h:110-112): at most one `^`. -/
def powerP (ex : P Node) : P Node := fun s =>
  (valueP ex s).bind fun v r =>
    match chainedP (valueP ex) [n!"^"] r with
    | .ok c r => .ok (chainNode v [c]) r
    | .fail => .ok v r
    | .expect p => .expect p
    | .hang => .hang

/-- `operand >> *chained` (base_grammar.h:115-116, 119-120) -/
def chainP (operand : P Node) (ops : List Name) : P Node := fun s =>
  (operand s).bind fun v r =>
    (many (chainedP operand ops) (r.length + 1) r).map fun cs => chainNode v cs

/-- `product` (base_grammar.h:113-116) -/
def productP (ex : P Node) : P Node := chainP (powerP ex) [n!"*", n!"//"]

/-- `expression` (base_grammar.h:117-120); the first argument bounds the nesting of parentheses. -/
def expressionP : Nat → P Node
  | 0 => fun _ => .hang
  | n + 1 => chainP (productP (expressionP n)) [n!"+", n!"-"]

/-! ## Terms -/

/-- `functor` (base_grammar.h:81-85); `el` is `prolog_element`.  No white space between name and parenthesis. -/
def functorP (el : P Node) : P Node := fun s =>
  (word isLower s).bind fun w r => (exactly ['('] r).bind fun _ r =>
    ((sepBy1 el [','] (r.length + 1) r).must r).bind fun cs r =>
    ((lit [')'] r).must (skipWs r)).map fun _ => .fn w cs

/-- `list` (base_grammar.h:93-99) with the constructors of `node` (node.cpp:127-157); `el` is
`prolog_element`, `ls` is `list`. -/
def listP (el ls : P Node) : P Node := fun s =>
  ((lit ['['] s).bind fun _ r => (lit [']'] r).map fun _ => Node.nil).orElse <|
  ((lit ['['] s).bind fun _ r => (sepBy1 el [','] (r.length + 1) r).bind fun cs r =>
    (lit [']'] r).map fun _ => Node.list cs).orElse <|
  ((lit ['['] s).bind fun _ r => (sepBy1 el [','] (r.length + 1) r).bind fun cs r =>
    (lit ['|'] r).bind fun _ r => ((variableP r).orElse (ls r)).bind fun t r =>
    (lit [']'] r).map fun _ => Node.listWith t cs)

/-- `prolog_element` and `list` (base_grammar.h:93-101); the argument bounds the nesting. -/
def elementList : Nat → P Node × P Node
  | 0 => (fun _ => .hang, fun _ => .hang)
  | n + 1 =>
    let el := (elementList n).1
    let ls := listP el (elementList n).2
    (fun s => (functorP el s).orElse <| (constantP s).orElse <| (ls s).orElse (expressionP (n + 1) s), ls)

/-- `prolog_element` -/
def elementP (n : Nat) : P Node := (elementList n).1

/-! ## Goals, queries, programs -/

/-- A built-in predicate written between its arguments (base_grammar.h:123-126, node.cpp:80-84). -/
def infixP (el : P Node) (op : Name) (rhs : P Node) : P Node := fun s =>
  (el s).bind fun l r => (lit op r).bind fun _ r => (rhs r).map fun x => .fn op [l, x]

/-- `atom` (base_grammar.h:104-106, 123-129) -/
def atomP (n : Nat) : P Node := fun s =>
  (infixP (elementP n) n!"==" (elementP n) s).orElse <|
  (infixP (elementP n) n!"\\==" (elementP n) s).orElse <|
  (infixP (elementP n) n!"is" (expressionP n) s).orElse <|
  (functorP (elementP n) s).orElse (constantP s)

/-- `comment` (base_grammar.h:79): up to and including the end of the line. -/
def commentP : P Unit := fun s =>
  (lit ['%'] s).bind fun _ r => (exactly ['\n'] (r.dropWhile (· ≠ '\n'))).must (r.dropWhile (· ≠ '\n'))

/-- `clause` (program_grammar.h:44-48) -/
def clauseP (n : Nat) : P Clause := fun s =>
  ((functorP (elementP n) s).orElse (constantP s)).bind fun h r =>
    let body : PR (List Node) := (lit n!":-" r).bind fun _ r => sepBy1 (atomP n) [','] (r.length + 1) r
    (body.orElse (.ok [] r)).bind fun b r => ((lit ['.'] r).must (skipWs r)).map fun _ => ⟨h, b⟩

/-- `rule` (program_grammar.h:39-41): a clause, after it perhaps a comment. -/
def ruleP (n : Nat) : P Clause := fun s =>
  (clauseP n s).bind fun c r =>
    match commentP r with
    | .ok _ r => .ok c r
    | .fail => .ok c r
    | .expect p => .expect p
    | .hang => .hang

/-- `comment | rule`, i.e. `boost::optional<node>` -/
def lineP (n : Nat) : P (Option Clause) := fun s =>
  ((commentP s).map fun _ => none).orElse ((ruleP n s).map some)

/-- What `parse_program` and `parse_query` (parser.h:19-46) lead to: a result, `grammar.error` thrown with the
type PARSER_ERROR set by the handler (error_handler.h:24-32) and the position `error_pos` from which it
calculates row and column, or thrown as it was constructed, i.e. with the type NONE. -/
inductive Parsed (α : Type) where
  | ok (a : α)
  | error (pos : List Char)
  | blank
  deriving DecidableEq, Repr

/-- `program` (program_grammar.h:36) and `parse_program` (parser.h:34-46).  The comments are dropped
(compiler.cpp:466-468).  `many` does not fail, and the bounds are not reached (`C41_total`). -/
def parseProgram (text : List Char) : Parsed (List Clause) :=
  match many (lineP (text.length + 1)) (text.length + 1) text with
  | .ok ls r => if skipWs r = [] then .ok (ls.filterMap id) else .error (skipWs r)
  | .expect p => .error p
  | _ => .error text

/-- `query` (query_grammar.h:30-32) and `parse_query` (parser.h:19-31).  The first `iter_pos` skips white space. -/
def parseQuery (text : List Char) : Parsed (List Node) :=
  match sepBy1 (atomP (text.length + 1)) [','] (text.length + 1) text with
  | .ok as r =>
    match lit ['.'] r with
    | .ok _ r => if skipWs r = [] then .ok as else .blank
    | _ => .error (skipWs r)
  | .fail => .error (skipWs text)
  | .expect p => .error p
  | .hang => .error text

/-- `boost::spirit::get_line(error_pos)` (error_handler.h:26): `line_pos_iterator` (parser.h:17) starts with 1
and counts the ends of lines it passes.  For texts without `'\r'`; the library counts this character as
well.  The column is left out: it depends on the version of the library. -/
def errorRow (text pos : List Char) : Nat := 1 + (text.take (text.length - pos.length)).count '\n'

namespace Org

/-- `load_program` (bfs_organizer.cpp:20-22, 37-47) -/
def loadProgramText (ord : HashOrder) (text : List Char) (o : Org) : Org × Load :=
  match parseProgram text with
  | .ok p => o.loadProgram ord (some p)
  | _ => o.loadProgram ord none

/-- `load_query` (bfs_organizer.cpp:109-134).  If the parser throws an error of type NONE this is what is
returned: `exists()` (compiler_error.h:34-36) says that there is no error. -/
def loadQueryText (ord : HashOrder) (text : List Char) (o : Org) : Org × Load :=
  match parseQuery (appendDot text) with
  | .ok q => o.loadQuery ord (some q)
  | .error _ => o.loadQuery ord none
  | .blank => ((o.loadQuery ord none).1, .ok)

end Org
end PBfs
