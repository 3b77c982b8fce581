import Verif.Model.Page
import Verif.Spec.History
/-! # What is shown on the web page -/
namespace PBfs

/-- `o` is a new interpreter that has accepted the two texts (with this order of the hash tables). -/
def OpenedBy (ord : HashOrder) (program query : List Char) (o : Org) : Prop :=
  ∃ o0 o1, Org.init = .ok o0 ∧ o0.loadProgramText ord program = (o1, .ok) ∧ o1.loadQueryText ord query = (o, .ok)

/-- `o` is a new interpreter that has accepted the two texts. -/
def Opened (program query : List Char) (o : Org) : Prop := ∃ ord, OpenedBy ord program query o

/-- `s` is the line for the result `r`: an answer is shown with all its bindings, an error with its kind and what it is about. -/
def LineFor : Org.Res → Name → Prop
  | .noAnswer, s => s = n!"false"
  | .answer [], s => s = n!"true"
  | .answer (b :: bs), s => s = (((b :: bs).map fun b => n!"[" ++ b.name ++ n!" / " ++ b.value ++ n!"]").intersperse n!" ").flatten
  | .error e, s =>
    match e.kind with
    | .divByZero => s = n!"ERROR: Arithmetic: evaluation error: zero_divisor"
    | .notInstantiated => ∃ pre post, s = pre ++ e.mention ++ post ∧ n!"ERROR: Arguments are not sufficiently instantiated" <+: pre
    | .notArithmetic => ∃ post, s = n!"ERROR: Arithmetic: " ++ e.mention ++ post
    | .outOfTime => s = n!"Time limit exceeded"
    | .outOfMemory => s = n!"Memory exhausted."
  | .running, s => s = []

/-- The lines show what the uninterrupted search that starts with `o0` reports until it gets to `o`, in order and without gaps, and
"false" only after it has come to its end.  In between there may be messages about the memory limit. -/
def ShowsSearch (fuel : Nat) (o0 o : Org) (lines : List Name) : Prop :=
  ∃ ts k, o0.iterate fuel ts.length = .ok (o, ts) ∧ (k ≠ 0 → o.queue = []) ∧
    lines.filter (· ≠ n!"Soft memory limit reached. Please close some results.") =
      (reports ts).map Org.Res.text ++ List.replicate k n!"false"

/-- The circumstances of the call of `get_answer` in an event, if there is one. -/
def Event.call? : Event → Option Call
  | .run _ _ _ c | .timer _ _ c | .next _ c | .node _ c => some c
  | _ => none

/-- In none of the events the memory is exhausted. -/
def Ample (es : List Event) : Prop := ∀ e ∈ es, ∀ c, e.call? = some c → c.exhausted = false

/-- The tree view contains the drawing of the present state of the search of the box `i`. -/
def Site.ShowsTree (fuel : Nat) (s : Site) (i : Nat) : Prop :=
  ∃ p o t d, s.pages[i]? = some p ∧ p.org = some o ∧ o.unificationTree fuel = .ok t ∧ o.draw fuel t = .ok d ∧ s.view = some (i, d)

/-- Whenever a tree is drawn, no timer of its box is set. -/
def Settled (fuel : Nat) : Site → List Event → Prop
  | _, [] => True
  | s, e :: es => ∀ s', s.step fuel e = .ok s' →
    ((∃ i, e = .tree i) ∨ (∃ n c, e = .node n c) → ∀ i d p, s'.view = some (i, d) → s'.pages[i]? = some p → p.polls = []) ∧ Settled fuel s' es

end PBfs
