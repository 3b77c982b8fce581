import Verif.Spec.Meaning
import Verif.Spec.Page
import Verif.Spec.Printing
import Verif.Spec.Registers
import Verif.Spec.Syntax
import Verif.Proof.Ground
/-!
# What can be read off a box on the web page
-/
namespace PBfs

/-- The variables of a query. -/
def InQuery (atoms : List Node) (x : Name) : Prop := ∃ a ∈ atoms, x ∈ Node.varss a.children

/-- The line `l` shows these values of the variables of the query: for each variable, once, its name and the text of its value; "true" if there are no variables. -/
def Line (atoms : List Node) (ρ : Name → ITree) (l : Name) : Prop :=
  ∃ bs : List (Name × Name), (bs.map (·.1)).Nodup ∧ (∀ x, x ∈ bs.map (·.1) ↔ InQuery atoms x) ∧ (∀ b ∈ bs, ∃ u : Tree, ρ b.1 = u.fold itreeAlg ∧ Text u b.2) ∧
    (bs = [] → l = n!"true") ∧ (bs ≠ [] → l = ((bs.map fun b => n!"[" ++ b.1 ++ n!" / " ++ b.2 ++ n!"]").intersperse n!" ").flatten)

/-- In all solutions the variables of the query have values that can be written down. -/
def HasTexts (P : List Clause) (atoms : List Node) : Prop :=
  ∀ ρ, Solves P atoms ρ → ∀ x, InQuery atoms x → ∃ (u : Tree) (s : Name), ρ x = u.fold itreeAlg ∧ Text u s

/-- All tables of hash codes used when "Run" is clicked are proper ones. -/
def ProperRuns (es : List Event) : Prop := ∀ ord program query c, Event.run ord program query c ∈ es → ord.OK

/-- The two texts are a program, without clashes of registers, and a query, and are not too long. -/
structure Readable (program query : List Char) (cs : List Clause) (q : List Node) : Prop where
  prog : ProgText cs program
  goals : QueryText q (appendDot query)
  untangled : Untangled cs
  short : program.length + query.length ≤ 32765

/-- Clicks on "Next" in the box `i`, with these circumstances; if there is no line yet, then first its timer goes off. -/
def clicks (i : Nat) (p : Page) : List Call → List Event
  | [] => []
  | c :: calls => (if p.lines = [] then .timer i 0 c else .next i c) :: calls.map (.next i)

end PBfs
