import Verif.Model.Parser
/-!
# How long the parser works

The grammars again (`include/prolog_bfs/wam/compiler/parser/base_grammar.h`, `program_grammar.h`, `query_grammar.h`), now with the number of
steps.  A step is: skipping one character of white space, trying one character or string parser, taking one further character of a word, a number or
a comment.  An alternative that is tried in vain is paid for, also if everything in it was read correctly up to its last character: Qi does not remember
what it has read, the next alternative begins anew at the same place.

`Proof/Reading.lean` shows that without the steps these functions are those of `Model/Parser.lean`.  Left out: copying the attributes, and, as there, the
positions.
-/
namespace PBfs

/-- What a parser does at a position (`PR`), and how many steps it takes. -/
structure Timed (α : Type) where
  res : PR α
  steps : Nat

abbrev TP (α : Type) := List Char → Timed α

namespace Timed

/-- `a >> b` -/
def bind (x : Timed α) (k : α → List Char → Timed β) : Timed β :=
  match x.res with
  | .ok a r => ⟨(k a r).res, x.steps + (k a r).steps⟩
  | .fail => ⟨.fail, x.steps⟩
  | .expect p => ⟨.expect p, x.steps⟩
  | .hang => ⟨.hang, x.steps⟩

/-- What follows a `>`. -/
def must (x : Timed α) (pos : List Char) : Timed α := ⟨x.res.must pos, x.steps⟩

/-- `a | b`: the second is only tried if the first failed. -/
def orElse (x : Timed α) (y : Timed α) : Timed α :=
  match x.res with
  | .fail => ⟨y.res, x.steps + y.steps⟩
  | _ => x

/-- Attribute conversion. -/
def map (f : α → β) (x : Timed α) : Timed β := ⟨x.res.map f, x.steps⟩

end Timed

/-- How much white space the skipper passes. -/
def blanks (s : List Char) : Nat := s.length - (skipWs s).length

/-- `lit("…")`, `string("…")`, `lit('…')`, `char_("…")` -/
def litT (t : List Char) : TP Unit := fun s => ⟨lit t s, blanks s + 1⟩

/-- The same without skipping, inside of `lexeme`. -/
def exactlyT (t : List Char) : TP Unit := fun s => ⟨exactly t s, 1⟩

/-- `lexeme[char_(…) > *char_("a-zA-Z_0-9")]` -/
def wordT (p : Char → Bool) : TP Name := fun s =>
  ⟨word p s, blanks s + 1 + match word p s with | .ok w _ => w.length | _ => 0⟩

/-- `constant` (base_grammar.h:86) -/
def constantT : TP Node := fun s => (wordT isLower s).map .cons

/-- `variable` (base_grammar.h:87) -/
def variableT : TP Node := fun s => (wordT isUpper s).map .var

/-- `number` (base_grammar.h:88): the sign and the digits are tried. -/
def numberT : TP Node := fun s =>
  ⟨numberP s, blanks s + 2 + match numberP s with | .ok _ r => (skipWs s).length - r.length | _ => 0⟩

/-- `*p` -/
def manyT (p : TP α) : Nat → TP (List α)
  | 0, _ => ⟨.hang, 0⟩
  | n + 1, s =>
    match (p s).res with
    | .ok a r => ⟨(manyT p n r).res.map (a :: ·), (p s).steps + (manyT p n r).steps⟩
    | .fail => ⟨.ok [] s, (p s).steps⟩
    | .expect q => ⟨.expect q, (p s).steps⟩
    | .hang => ⟨.hang, (p s).steps⟩

/-- `p % sep` -/
def sepBy1T (p : TP α) (sep : List Char) (n : Nat) : TP (List α) := fun s =>
  (p s).bind fun a r =>
    (manyT (fun s => (litT sep s).bind fun _ r => p r) n r).map (a :: ·)

/-! ## Expressions -/

/-- `value` (base_grammar.h:109) -/
def valueT (ex : TP Node) : TP Node := fun s =>
  (variableT s).orElse <| (numberT s).orElse <|
    (litT ['('] s).bind fun _ r => ((ex r).must r).bind fun e r => ((litT [')'] r).must (skipWs r)).map fun _ => e

/-- One link of a chain (base_grammar.h:110, 113-114, 117-118). -/
def chainedT (operand : TP Node) : List Name → TP (Name × Node)
  | [], _ => ⟨.fail, 0⟩
  | op :: ops, s =>
    ((litT op s).bind fun _ r => ((operand r).must r).map fun v => (op, v)).orElse (chainedT operand ops s)

/-- `power_helper` and `power` (base_grammar.h:110-112) -/
def powerT (ex : TP Node) : TP Node := fun s =>
  (valueT ex s).bind fun v r =>
    ((chainedT (valueT ex) [n!"^"] r).map fun c => chainNode v [c]).orElse ⟨.ok v r, 0⟩

/-- `operand >> *chained` (base_grammar.h:115-116, 119-120) -/
def chainT (operand : TP Node) (ops : List Name) : TP Node := fun s =>
  (operand s).bind fun v r =>
    (manyT (chainedT operand ops) (r.length + 1) r).map fun cs => chainNode v cs

/-- `product` (base_grammar.h:113-116) -/
def productT (ex : TP Node) : TP Node := chainT (powerT ex) [n!"*", n!"//"]

/-- `expression` (base_grammar.h:117-120) -/
def expressionT : Nat → TP Node
  | 0 => fun _ => ⟨.hang, 0⟩
  | n + 1 => chainT (productT (expressionT n)) [n!"+", n!"-"]

/-! ## Terms -/

/-- `functor` (base_grammar.h:81-85) -/
def functorT (el : TP Node) : TP Node := fun s =>
  (wordT isLower s).bind fun w r => (exactlyT ['('] r).bind fun _ r =>
    ((sepBy1T el [','] (r.length + 1) r).must r).bind fun cs r =>
    ((litT [')'] r).must (skipWs r)).map fun _ => .fn w cs

/-- `list` (base_grammar.h:93-99): three alternatives, each of which begins at the opening bracket. -/
def listT (el ls : TP Node) : TP Node := fun s =>
  ((litT ['['] s).bind fun _ r => (litT [']'] r).map fun _ => Node.nil).orElse <|
  ((litT ['['] s).bind fun _ r => (sepBy1T el [','] (r.length + 1) r).bind fun cs r =>
    (litT [']'] r).map fun _ => Node.list cs).orElse <|
  ((litT ['['] s).bind fun _ r => (sepBy1T el [','] (r.length + 1) r).bind fun cs r =>
    (litT ['|'] r).bind fun _ r => ((variableT r).orElse (ls r)).bind fun t r =>
    (litT [']'] r).map fun _ => Node.listWith t cs)

/-- `prolog_element` and `list` (base_grammar.h:93-101) -/
def elementListT : Nat → TP Node × TP Node
  | 0 => (fun _ => ⟨.hang, 0⟩, fun _ => ⟨.hang, 0⟩)
  | n + 1 =>
    let el := (elementListT n).1
    let ls := listT el (elementListT n).2
    (fun s => (functorT el s).orElse <| (constantT s).orElse <| (ls s).orElse (expressionT (n + 1) s), ls)

/-- `prolog_element` -/
def elementT (n : Nat) : TP Node := (elementListT n).1

/-! ## Goals, queries, programs -/

/-- A built-in predicate written between its arguments (base_grammar.h:123-126). -/
def infixT (el : TP Node) (op : Name) (rhs : TP Node) : TP Node := fun s =>
  (el s).bind fun l r => (litT op r).bind fun _ r => (rhs r).map fun x => .fn op [l, x]

/-- `atom` (base_grammar.h:104-106, 123-129) -/
def atomT (n : Nat) : TP Node := fun s =>
  (infixT (elementT n) n!"==" (elementT n) s).orElse <|
  (infixT (elementT n) n!"\\==" (elementT n) s).orElse <|
  (infixT (elementT n) n!"is" (expressionT n) s).orElse <|
  (functorT (elementT n) s).orElse (constantT s)

/-- `comment` (base_grammar.h:79) -/
def commentT : TP Unit := fun s =>
  (litT ['%'] s).bind fun _ r =>
    ⟨(exactly ['\n'] (r.dropWhile (· ≠ '\n'))).must (r.dropWhile (· ≠ '\n')), (r.takeWhile (· ≠ '\n')).length + 1⟩

/-- `clause` (program_grammar.h:44-48) -/
def clauseT (n : Nat) : TP Clause := fun s =>
  ((functorT (elementT n) s).orElse (constantT s)).bind fun h r =>
    let body : Timed (List Node) := (litT n!":-" r).bind fun _ r => sepBy1T (atomT n) [','] (r.length + 1) r
    (body.orElse ⟨.ok [] r, 0⟩).bind fun b r => ((litT ['.'] r).must (skipWs r)).map fun _ => ⟨h, b⟩

/-- `rule` (program_grammar.h:39-41) -/
def ruleT (n : Nat) : TP Clause := fun s =>
  (clauseT n s).bind fun c r => ((commentT r).map fun _ => c).orElse ⟨.ok c r, 0⟩

/-- `comment | rule` -/
def lineT (n : Nat) : TP (Option Clause) := fun s =>
  ((commentT s).map fun _ => none).orElse ((ruleT n s).map some)

/-- The steps of `parse_program` (parser.h:34-46), with those for the `eoi` at the end. -/
def programSteps (text : List Char) : Nat :=
  let m := manyT (lineT (text.length + 1)) (text.length + 1) text
  m.steps + match m.res with | .ok _ r => blanks r + 1 | _ => 0

/-- The steps of `parse_query` (parser.h:19-31), with those for the dot and for what is skipped behind it. -/
def querySteps (text : List Char) : Nat :=
  let m := sepBy1T (atomT (text.length + 1)) [','] (text.length + 1) text
  m.steps + match m.res with
    | .ok _ r => blanks r + 1 + match lit ['.'] r with | .ok _ r => blanks r + 1 | _ => 0
    | _ => 0

end PBfs
