import Verif.Model.Parser
/-!
# The language the parser is meant to accept

A text is a sequence of tokens with white space anywhere between them; the grammar is an ordinary
context-free grammar on tokens.  Nothing here refers to the way the parser works.
-/
namespace PBfs

/-- Tokens.  `opening w` is the name of a functor with its parenthesis; between the two there is no white space. -/
inductive Tok where
  | name (w : Name)
  | opening (w : Name)
  | var (w : Name)
  | num (neg : Bool) (ds : List Char)
  | sym (t : List Char)
  | comment (t : List Char)
  deriving DecidableEq, Repr

def Tok.text : Tok → List Char
  | .name w => w
  | .opening w => w ++ ['(']
  | .var w => w
  | .num neg ds => (if neg then ['-'] else []) ++ ds
  | .sym t => t
  | .comment t => '%' :: t ++ ['\n']

/-- A word whose first character satisfies `p`. -/
def IsWord (p : Char → Bool) (w : Name) : Prop := ∃ c cs, w = c :: cs ∧ p c = true ∧ ∀ d ∈ cs, isWord d = true

def Tok.Valid : Tok → Prop
  | .name w => IsWord isLower w
  | .opening w => IsWord isLower w
  | .var w => IsWord isUpper w
  | .num _ ds => ds ≠ [] ∧ ∀ d ∈ ds, isDigit d = true
  | .sym t => ∃ c cs, t = c :: cs ∧ isSpace c = false
  | .comment t => '\n' ∉ t

/-- Which texts may follow a token immediately, such that the token ends there. -/
def Tok.stops : Tok → List Char → Prop
  | .name _, s => ∀ c, s.head? = some c → isWord c = false ∧ c ≠ '('
  | .var _, s => ∀ c, s.head? = some c → isWord c = false
  | .num _ _, s => ∀ c, s.head? = some c → isDigit c = false
  | _, _ => True

/-- The text consists of these tokens. -/
inductive Spell : List Tok → List Char → Prop
  | nil {ws} : (∀ c ∈ ws, isSpace c = true) → Spell [] ws
  | cons {ws t ts s} : (∀ c ∈ ws, isSpace c = true) → t.Valid → t.stops s → Spell ts s →
      Spell (t :: ts) (ws ++ (t.text ++ s))

/-- The number written with these digits. -/
def decimal : List Char → Nat
  | [] => 0
  | d :: ds => (d.toNat - '0'.toNat) * 10 ^ ds.length + decimal ds

/-- Syntactic categories. -/
inductive Cat where
  | value | power | product | sum | elem | list | args

open Cat Tok in
/-- The grammar of terms (the comments of `base_grammar.h`).  All categories but `args` describe one term.
Chains of operators of the same level are nested to the right. -/
inductive Syn : Cat → List Node → List Tok → Prop
  | var {w} : Syn value [.var w] [var w]
  | num {neg ds} : Syn value [.int (if neg then -(decimal ds : Int) else decimal ds)] [num neg ds]
  | paren {e ts} : Syn sum [e] ts → Syn value [e] (sym ['('] :: ts ++ [sym [')']])
  | power1 {e ts} : Syn value [e] ts → Syn power [e] ts
  | pow {a b ts us} : Syn value [a] ts → Syn value [b] us → Syn power [.efn n!"^" [a, b]] (ts ++ sym n!"^" :: us)
  | product1 {e ts} : Syn power [e] ts → Syn product [e] ts
  | mul {a b ts us op} : op = n!"*" ∨ op = n!"//" → Syn power [a] ts → Syn product [b] us →
      Syn product [.efn op [a, b]] (ts ++ sym op :: us)
  | sum1 {e ts} : Syn product [e] ts → Syn sum [e] ts
  | add {a b ts us op} : op = n!"+" ∨ op = n!"-" → Syn product [a] ts → Syn sum [b] us →
      Syn sum [.efn op [a, b]] (ts ++ sym op :: us)
  | fn {w cs ts} : Syn args cs ts → Syn elem [.fn w cs] (opening w :: ts ++ [sym [')']])
  | cons {w} : Syn elem [.cons w] [name w]
  | elist {e ts} : Syn list [e] ts → Syn elem [e] ts
  | esum {e ts} : Syn sum [e] ts → Syn elem [e] ts
  | nil : Syn list [.fn n!"[" []] [sym ['['], sym [']']]
  | list {cs ts} : Syn args cs ts → Syn list [Node.listWith (.fn n!"[" []) cs] (sym ['['] :: ts ++ [sym [']']])
  | listVar {cs ts w} : Syn args cs ts →
      Syn list [Node.listWith (.var w) cs] (sym ['['] :: ts ++ [sym ['|'], var w, sym [']']])
  | listList {cs ts t us} : Syn args cs ts → Syn list [t] us →
      Syn list [Node.listWith t cs] (sym ['['] :: ts ++ sym ['|'] :: us ++ [sym [']']])
  | one {e ts} : Syn elem [e] ts → Syn args [e] ts
  | more {e cs ts us} : Syn elem [e] ts → Syn args cs us → Syn args (e :: cs) (ts ++ sym [','] :: us)

/-- Heads of clauses. -/
inductive HeadSyn : Node → List Tok → Prop
  | fn {w cs ts} : Syn .args cs ts → HeadSyn (.fn w cs) (.opening w :: ts ++ [.sym [')']])
  | cons {w} : HeadSyn (.cons w) [.name w]

/-- Goals. -/
inductive GoalSyn : Node → List Tok → Prop
  | eq {a b ts us} : Syn .elem [a] ts → Syn .elem [b] us → GoalSyn (.fn n!"==" [a, b]) (ts ++ .sym n!"==" :: us)
  | neq {a b ts us} : Syn .elem [a] ts → Syn .elem [b] us → GoalSyn (.fn n!"\\==" [a, b]) (ts ++ .sym n!"\\==" :: us)
  | is {a b ts us} : Syn .elem [a] ts → Syn .sum [b] us → GoalSyn (.fn n!"is" [a, b]) (ts ++ .sym n!"is" :: us)
  | head {a ts} : HeadSyn a ts → GoalSyn a ts

/-- Goals separated by commas. -/
inductive GoalsSyn : List Node → List Tok → Prop
  | one {a ts} : GoalSyn a ts → GoalsSyn [a] ts
  | more {a as ts us} : GoalSyn a ts → GoalsSyn as us → GoalsSyn (a :: as) (ts ++ .sym [','] :: us)

/-- Clauses. -/
inductive ClauseSyn : Clause → List Tok → Prop
  | fact {h ts} : HeadSyn h ts → ClauseSyn ⟨h, []⟩ (ts ++ [.sym ['.']])
  | rule {h b ts us} : HeadSyn h ts → GoalsSyn b us → ClauseSyn ⟨h, b⟩ (ts ++ .sym n!":-" :: us ++ [.sym ['.']])

/-- Programs: clauses and comments. -/
inductive ProgSyn : List Clause → List Tok → Prop
  | nil : ProgSyn [] []
  | comment {t p ts} : ProgSyn p ts → ProgSyn p (.comment t :: ts)
  | clause {c p ts us} : ClauseSyn c ts → ProgSyn p us → ProgSyn (c :: p) (ts ++ us)

/-- `text` is a text of the program `p`. -/
def ProgText (p : List Clause) (text : List Char) : Prop := ∃ ts, ProgSyn p ts ∧ Spell ts text

/-- `text` is a text of the query `q`. -/
def QueryText (q : List Node) (text : List Char) : Prop := ∃ ts, GoalsSyn q ts ∧ Spell (ts ++ [.sym ['.']]) text

end PBfs
