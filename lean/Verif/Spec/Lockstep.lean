import Verif.Spec.Session
import Batteries.Data.List.Basic
/-!
# Comparing interpreters

What can be observed of an interpreter are the outcomes of `load_program`, `load_query` and `get_answer`.
-/
namespace PBfs

/-- Two interpreters which have been put through the same calls - the same texts, the same clocks - since they were
in states related by `start`.  Only the order in which hash maps are enumerated may be different, in every single call. -/
inductive Lockstep (start : Org → Org → Prop) : Org → Org → Prop
  | start {o o'} : start o o' → Lockstep start o o'
  | program {o o'} {ord ord' : HashOrder} (parsed) : Lockstep start o o' → ord.OK → ord'.OK →
      Lockstep start (o.loadProgram ord parsed).1 (o'.loadProgram ord' parsed).1
  | query {o o'} {ord ord' : HashOrder} (parsed) : Lockstep start o o' → ord.OK → ord'.OK →
      Lockstep start (o.loadQuery ord parsed).1 (o'.loadQuery ord' parsed).1
  | answer {o o' o1 o1' fuel clock r r'} : Lockstep start o o' → o.getAnswer fuel clock = .ok (o1, r) →
      o'.getAnswer fuel clock = .ok (o1', r') → Lockstep start o1 o1'
  | memory {o o'} : Lockstep start o o' → Lockstep start o.clearMemory o'.clearMemory

/-- Both have just been constructed. -/
def BothNew (o o' : Org) : Prop := Org.init = .ok o ∧ Org.init = .ok o'

/-- Both have just run out of memory, after any histories. -/
def BothCleared (o o' : Org) : Prop := ∃ a b, Reach a ∧ Reach b ∧ o = a.clearMemory ∧ o' = b.clearMemory

/-- The results of a series of calls of `get_answer`; or what undefined behaviour they lead to. -/
def Org.talk (fuel : Nat) (clocks : List (List Bool)) (o : Org) : R (List Org.Res) := (Org.session fuel clocks o).map (·.2)

/-- No call tells the two apart: loading any text has the same outcome, and so has any series of calls of `get_answer`. -/
structure SameTalk (o o' : Org) : Prop where
  program : ∀ ord ord' parsed, HashOrder.OK ord → HashOrder.OK ord' → (o.loadProgram ord parsed).2 = (o'.loadProgram ord' parsed).2
  query : ∀ ord ord' parsed, HashOrder.OK ord → HashOrder.OK ord' → (o.loadQuery ord parsed).2 = (o'.loadQuery ord' parsed).2
  answers : ∀ fuel clocks, o.talk fuel clocks = o'.talk fuel clocks

/-- Numbers of functors and variables fit in the `short`s of heap cells. -/
def Org.Small (o : Org) : Prop := o.st.functors.length ≤ 32768 ∧ o.st.vars.length ≤ 32768

/-- All goals of a program text are for the given predicates. -/
def ProgCalls (calls : FV → Prop) (parsed : Option (List Clause)) : Prop := ∀ cs, parsed = some cs → ∀ c ∈ cs, ∀ a ∈ c.body, calls a.fv

/-- All goals of a query are for the given predicates. -/
def QueryCalls (calls : FV → Prop) (parsed : Option (List Node)) : Prop := ∀ as, parsed = some as → ∀ a ∈ as, calls a.fv

/-- Two interpreters put through the same calls, except that the first has also been given programs that it rejected.
(No memory exhaustion, numbers fit, and only the given predicates are called.) -/
inductive Rejecting (calls : FV → Prop) : Org → Org → Prop
  | init {o} : Org.init = .ok o → Rejecting calls o o
  | program {o o'} {ord ord' : HashOrder} (parsed) : Rejecting calls o o' → ord.OK → ord'.OK → ProgCalls calls parsed →
      (o.loadProgram ord parsed).1.Small → (o'.loadProgram ord' parsed).1.Small →
      Rejecting calls (o.loadProgram ord parsed).1 (o'.loadProgram ord' parsed).1
  | query {o o'} {ord ord' : HashOrder} (parsed) : Rejecting calls o o' → ord.OK → ord'.OK → QueryCalls calls parsed →
      (o.loadQuery ord parsed).1.Small → (o'.loadQuery ord' parsed).1.Small →
      Rejecting calls (o.loadQuery ord parsed).1 (o'.loadQuery ord' parsed).1
  | answer {o o' o1 o1' fuel clock r r'} : Rejecting calls o o' → o.getAnswer fuel clock = .ok (o1, r) →
      o'.getAnswer fuel clock = .ok (o1', r') → Rejecting calls o1 o1'
  | rejected {o o' o1 ord parsed l} : Rejecting calls o o' → o.loadProgram ord parsed = (o1, l) → l ≠ .ok →
      o1.Small → Rejecting calls o1 o'

/-- The same result, except that the text of "not an arithmetic term" may be another. -/
inductive Org.Res.Like : Org.Res → Org.Res → Prop
  | same (r) : Org.Res.Like r r
  | text (s t : Name) : Org.Res.Like (.error ⟨.notArithmetic, s⟩) (.error ⟨.notArithmetic, t⟩)

/-- The same results, except for texts of "not an arithmetic term" and unless one of both reads outside the heap. -/
def Alike (x y : R (List Org.Res)) : Prop :=
  x = y ∨ x = .error .memory ∨ y = .error .memory ∨ ∃ rs rs', x = .ok rs ∧ y = .ok rs' ∧ List.Forall₂ Org.Res.Like rs rs'

end PBfs
