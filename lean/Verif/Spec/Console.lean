import Verif.Model.Console
import Verif.Spec.History
/-!
# Conversations with the console

What a user types and what the console writes in return, described by exchanges: a query, the results the
interpreter has for it as far as the user asks for them, and how the user ends the exchange.
-/
namespace PBfs

/-- One exchange.  `text` is the query without its dot, `skipped` what is ignored behind the dot, `line` the line by which
the user says that they do not want more answers. -/
structure Exchange where
  text : List Char
  skipped : List Char
  results : List Org.Res
  line : Option (List Char)

/-- The rest of a line, if it has less than 1024 characters; otherwise 1024 characters of it. -/
def Skipped (s : List Char) : Prop :=
  (∃ j, s = j ++ ['\n'] ∧ '\n' ∉ j ∧ j.length < 1024) ∨ s.length = 1024 ∧ '\n' ∉ s

/-- Results that are told one after the other, and the line that ends the telling: the exchange ends with "false", "true" or with bindings
after which the user does not want more. -/
inductive Told : List Org.Res → Option (List Char) → Prop
  | no : Told [.noAnswer] none
  | yes : Told [.answer []] none
  | enough {bs l} : bs ≠ [] → l ≠ n!";" → '\n' ∉ l → Told [.answer bs] (some l)
  | more {bs rs line} : bs ≠ [] → Told rs line → Told (.answer bs :: rs) line

/-- The exchange is a proper one: the query is not `q`, which is reserved for leaving, and an error is the first and only result. -/
structure Exchange.Proper (x : Exchange) : Prop where
  text : '.' ∉ x.text
  notQ : x.text ≠ n!"q"
  skipped : Skipped x.skipped
  told : Told x.results x.line ∨ ∃ e, x.results = [.error e] ∧ x.line = none

/-- What the user types. -/
def Exchange.typed (x : Exchange) : List Char :=
  x.text ++ n!"." ++ x.skipped ++ (List.replicate (x.results.length - 1) n!";\n").flatten ++
    (match x.line with
     | none => []
     | some l => l ++ n!"\n")

/-- What the user reads as one result: one line for each binding. -/
def said : Org.Res → List Char
  | .noAnswer => n!"false\n"
  | .answer [] => n!"true\n"
  | .answer bs => n!"\n".intercalate (bs.map fun b => n!"[" ++ b.name ++ n!" / " ++ b.value ++ n!"]")
  | .error e => n!"error: " ++ e.explanation ++ n!"\n"
  | .running => []

/-- What the user reads. -/
def Exchange.shown (x : Exchange) : List Char := n!"?- " ++ x.results.flatMap said

/-- The iteration orders of hash maps met in a number of steps are orders. -/
def Envs (es : List (HashOrder × List Bool)) : Prop := ∀ e ∈ es, e.1.OK

/-- A conversation with an interpreter: each query is loaded, the results are those of as many calls of `get_answer`. -/
inductive Talk (fuel : Nat) : Org → List Exchange → Org → Prop
  | nil {o} : Talk fuel o [] o
  | snoc {o xs o1 ord x o2 l clocks o3} : Talk fuel o xs o1 → x.Proper → ord.OK → o1.loadQueryText ord x.text = (o2, l) → l ≠ .exception →
      o2.session fuel clocks = .ok (o3, x.results) → Talk fuel o (xs ++ [x]) o3

end PBfs
