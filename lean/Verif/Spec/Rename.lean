import Verif.Spec.Lockstep
import Verif.Model.Parser
/-!
# Replacing names

A user may replace the names in their program and their queries by others, everywhere in the same way.
What they hear then should be the same with the names replaced.
-/
namespace PBfs

/-- The names that stand for something: those of lists, of the built-in predicates and of arithmetic, and the names of variables in the built-in
predicates (which can occur in answers).  The interpreter itself uses `DEALLOCATE` for an atom, and the empty name for numbers. -/
def reservedNames : List Name :=
  [n!"[", n!"|", n!"append", n!"is", n!"==", n!"\\==", n!"^", n!"+", n!"-", n!"*", n!"//",
   n!"X", n!"Xs", n!"Ys", n!"Rs", n!"List2", n!"Lhs", n!"Rhs", n!"DEALLOCATE", []]

/-- A replacement of names: different names stay different, and the reserved ones stay. -/
structure Renaming (ρ : Name → Name) : Prop where
  inj : ∀ a b, ρ a = ρ b → a = b
  fixed : ∀ n ∈ reservedNames, ρ n = n

mutual
/-- A term with its names replaced, those of variables, too. -/
def Node.rename (ρ : Name → Name) : Node → Node
  | .var n => .var (ρ n)
  | .cons n => .cons (ρ n)
  | .int v => .int v
  | .fn n cs => .fn (ρ n) (renames ρ cs)
  | .efn n cs => .efn (ρ n) (renames ρ cs)
def Node.renames (ρ : Name → Name) : List Node → List Node
  | [] => []
  | c :: cs => Node.rename ρ c :: Node.renames ρ cs
end

def Clause.rename (ρ : Name → Name) (c : Clause) : Clause := ⟨c.head.rename ρ, Node.renames ρ c.body⟩

/-- A text in which the places of names are known; `cut` is the text without its last character. -/
inductive Doc where
  | lit (s : List Char)
  | name (n : Name)
  | cat (a b : Doc)
  | cut (a : Doc)
  deriving Repr

/-- The text with its names replaced. -/
def Doc.text (ρ : Name → Name) : Doc → List Char
  | .lit s => s
  | .name n => ρ n
  | .cat a b => a.text ρ ++ b.text ρ
  | .cut a => (a.text ρ).dropLast

/-- What is said to an interpreter. -/
inductive Say where
  /-- a program; `none` if it cannot be parsed -/
  | program (ord : HashOrder) (parsed : Option (List Clause))
  /-- a query -/
  | query (ord : HashOrder) (parsed : Option (List Node))
  /-- the text of a query with something behind the dot: it is not parsed, but no error is returned -/
  | blank (ord : HashOrder)
  /-- `get_answer` -/
  | more (clock : List Bool)
  /-- the memory runs out -/
  | forget

/-- The text of a program. -/
def Say.programText (ord : HashOrder) (text : List Char) : Say :=
  match parseProgram text with
  | .ok p => .program ord (some p)
  | _ => .program ord none

/-- The text of a query. -/
def Say.queryText (ord : HashOrder) (text : List Char) : Say :=
  match parseQuery (appendDot text) with
  | .ok q => .query ord (some q)
  | .error _ => .query ord none
  | .blank => .blank ord

/-- What it says. -/
inductive Heard where
  | loaded (l : Org.Load)
  | result (r : Org.Res)
  | forgot
  deriving DecidableEq, Repr

/-- A conversation. -/
def Org.converse (fuel : Nat) : List Say → Org → R (List Heard)
  | [], _ => pure []
  | .program ord parsed :: ws, o => do
    let rest ← Org.converse fuel ws (o.loadProgram ord parsed).1
    pure (.loaded (o.loadProgram ord parsed).2 :: rest)
  | .query ord parsed :: ws, o => do
    let rest ← Org.converse fuel ws (o.loadQuery ord parsed).1
    pure (.loaded (o.loadQuery ord parsed).2 :: rest)
  | .blank ord :: ws, o => do
    let rest ← Org.converse fuel ws (o.loadQuery ord none).1
    pure (.loaded .ok :: rest)
  | .more clock :: ws, o => do
    let (o, r) ← o.getAnswer fuel clock
    let rest ← Org.converse fuel ws o
    pure (.result r :: rest)
  | .forget :: ws, o => do
    let rest ← Org.converse fuel ws o.clearMemory
    pure (.forgot :: rest)

/-- The second says the same as the first, with names replaced.  The order of hash maps may be any. -/
inductive Say.Renamed (ρ : Name → Name) : Say → Say → Prop
  | program {ord ord' parsed} : ord'.OK → Say.Renamed ρ (.program ord parsed) (.program ord' (parsed.map (·.map (Clause.rename ρ))))
  | query {ord ord' parsed} : ord'.OK → Say.Renamed ρ (.query ord parsed) (.query ord' (parsed.map (Node.renames ρ)))
  | blank {ord ord'} : ord'.OK → Say.Renamed ρ (.blank ord) (.blank ord')
  | more {clock} : Say.Renamed ρ (.more clock) (.more clock)
  | forget : Say.Renamed ρ .forget .forget

/-- What is heard, with the places of names: names and values of bindings, and what an error mentions. -/
inductive HeardDoc where
  | loaded (l : Org.Load)
  | answer (bs : List (Name × Doc))
  | noAnswer
  | error (kind : ErrKind) (mention : Doc)
  | running
  | forgot

/-- What is heard, with names replaced. -/
def HeardDoc.text (ρ : Name → Name) : HeardDoc → Heard
  | .loaded l => .loaded l
  | .answer bs => .result (.answer (bs.map fun b => ⟨ρ b.1, b.2.text ρ⟩))
  | .noAnswer => .result .noAnswer
  | .error k m => .result (.error ⟨k, m.text ρ⟩)
  | .running => .result .running
  | .forgot => .forgot

/-- What kind of thing is heard; of an answer, how many variables it has values for. -/
inductive HeardKind where
  | loaded (l : Org.Load)
  | answer (n : Nat)
  | noAnswer
  | error (k : ErrKind)
  | running
  | forgot
  deriving DecidableEq

def Heard.kind : Heard → HeardKind
  | .loaded l => .loaded l
  | .result (.answer bs) => .answer bs.length
  | .result .noAnswer => .noAnswer
  | .result (.error e) => .error e.kind
  | .result .running => .running
  | .forgot => .forgot

/-- The orders in which hash maps are enumerated are possible ones. -/
def Say.OK : Say → Prop
  | .program ord _ => ord.OK
  | .query ord _ => ord.OK
  | .blank ord => ord.OK
  | _ => True

end PBfs
