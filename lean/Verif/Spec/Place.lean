import Verif.Model.Place
import Verif.Spec.Goals
/-! # Where goals and clauses stand -/
namespace PBfs

/-- Where the head of a clause stands, and its goals. -/
structure Where where
  head : Info
  body : List (Node × Info)

def ClauseAt.place (c : ClauseAt) : Where := ⟨c.head.2, c.body⟩

/-- A position that is not in the program: the line 1696969 stands for that. -/
def nowhere (text : Name) : Info := ⟨1696969, 1696969, text⟩

/-- The built-in predicates. -/
def builtinWhere (f : FV) : Option (List Where) :=
  if f = ⟨n!"is", 2⟩ then some [⟨nowhere n!"Lhs is Rhs", []⟩]
  else if f = ⟨n!"==", 2⟩ then some [⟨nowhere n!"Lhs == Rhs", []⟩]
  else if f = ⟨n!"\\==", 2⟩ then some [⟨nowhere n!"Lhs \\== Rhs", []⟩]
  else if f = ⟨n!"append", 3⟩ then some
    [⟨nowhere n!"append([], List2, List2)", []⟩,
     ⟨nowhere n!"append([X | Xs], Ys, [X | Rs])",
      [(.fn n!"append" [.var n!"Xs", .var n!"Ys", .var n!"Rs"], nowhere n!"append(Xs, Ys, Rs)")]⟩]
  else none

/-- The clauses for a predicate when the program `p` is loaded. -/
def clausesAt (p : List ClauseAt) (f : FV) : List Where :=
  match builtinWhere f with
  | some ws => ws
  | none => (p.filter (fun c => c.head.1.fv = f)).map (·.place)

/-- `a` is an interpreter whose last accepted program is `p`, see `Serves`. -/
inductive PServes : Placed → List ClauseAt → Prop
  | init {a} : Placed.init = .ok a → PServes a []
  | program {a a' ord p text p'} : PServes a p → a.loadProgram ord text = (a', .ok) → parseProgramAt text = .ok p' → PServes a' p'
  | rejected {a a' ord p text l} : PServes a p → a.loadProgram ord text = (a', l) → l ≠ .ok → PServes a' p
  | query {a ord p text} : PServes a p → PServes (a.loadQuery ord text).1 p
  | answer {a a' p fuel clock r} : PServes a p → a.getAnswer fuel clock = .ok (a', r) → PServes a' p

/-- Answers have been asked for, any number of times. -/
inductive PAsked : Placed → Placed → Prop
  | refl {a} : PAsked a a
  | step {a b c fuel clock r} : PAsked a b → b.getAnswer fuel clock = .ok (c, r) → PAsked a c

/-- The text for a goal or the head of a clause: the line in which it begins, unless it is built-in, and how it is written there. -/
def placeText (i : Info) : Name :=
  if i.lineBegin = 1696969 then n!"built-in predicate: " ++ i.value else n!"Line " ++ Nat.toDigits 10 i.lineBegin ++ n!": " ++ i.value

/-- The text for a binding. -/
def shownBinding (b : Binding) : Name := n!"[" ++ b.name ++ n!" / " ++ b.value ++ n!"] "

/-- The text at an alternative for a clause whose head stands at `i`. -/
def edgeText (s : EState) (i : Info) (bs : List Binding) : Option Name :=
  match s with
  | .running => none
  | .fail | .rtErr => some (placeText i)
  | .success | .archived => some (placeText i ++ n!"\n" ++ (bs.map shownBinding).flatten)

mutual
/-- The texts in the tree below a goal are right, when what is to be done is the list of goals, each of which stands at its position. -/
inductive ShownGoal (a : Placed) (p : List ClauseAt) : List (Node × Info) → UTree → Prop
  /-- The goal has been called. -/
  | called {g i rest n ks e} : a.org.execs[n.exec]? = some e → e.state ≠ .running → a.goalTip (.node n ks) = .ok (placeText i) →
      ShownClauses a p (clausesAt p g.fv) rest ks → ShownGoal a p ((g, i) :: rest) (.node n ks)
  /-- It is to be called next. -/
  | next {g i rest n e} : a.org.execs[n.exec]? = some e → e.state = .running → (∃ t ts, e.codes = t :: ts ∧ t.atom.goal? = some g) →
      a.goalTip (.node n []) = .ok (placeText i) → ShownGoal a p ((g, i) :: rest) (.node n [])
  /-- The environment of a finished clause is to be removed before. -/
  | later {l n e} : l ≠ [] → a.org.execs[n.exec]? = some e → e.state = .running → (∃ t ts, e.codes = t :: ts ∧ t.atom = deallocAtom) →
      ShownGoal a p l (.node n [])
/-- The alternatives for the clauses, one for each, in the same order. -/
inductive ShownClauses (a : Placed) (p : List ClauseAt) : List Where → List (Node × Info) → List UTree → Prop
  | nil {rest} : ShownClauses a p [] rest []
  /-- with nothing below -/
  | leaf {w ws rest n ts e} : a.org.execs[n.exec]? = some e → a.clauseTip (.node n []) = .ok (edgeText e.state w.head n.bindings) →
      ShownClauses a p ws rest ts → ShownClauses a p (w :: ws) rest (.node n [] :: ts)
  /-- then the goals of the clause are to be done before the others -/
  | more {w ws rest n k ts e} : a.org.execs[n.exec]? = some e → e.state = .archived →
      a.clauseTip (.node n [k]) = .ok (edgeText e.state w.head n.bindings) → ShownGoal a p (w.body ++ rest) k →
      ShownClauses a p ws rest ts → ShownClauses a p (w :: ws) rest (.node n [k] :: ts)
end

end PBfs
