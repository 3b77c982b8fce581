import Verif.Spec.Answers
/-!
# Breadth-first resolution

A search for the answers of a query that knows nothing of registers, heaps or instructions.  An open goal list
is represented by the set of its ground instances over finite and infinite trees, each with the values that it
gives to the variables of the query.  Trees may be infinite because the interpreter unifies without occurs check:
`X` and `f(X)` have a common instance.
-/
namespace PBfs

/-- A set of ground instances of a goal list: the values of the variables of the query, and the goals. -/
abbrev Insts := (Name → ITree) → List (GAtom ITree) → Prop

/-- All instances of the query. -/
def Insts.query (atoms : List Node) : Insts := fun ρq gs => gs = atoms.map (Node.inst itreeAlg ρq)

/-- The first goal is resolved with the clause `c`: where it is an instance of the head, the same instance of the
body takes its place. -/
def Insts.enter (S : Insts) (c : Clause) : Insts := fun ρq gs =>
  ∃ ρ rest, S ρq (c.head.inst itreeAlg ρ :: rest) ∧ gs = c.body.map (Node.inst itreeAlg ρ) ++ rest

/-- The first goal is taken away. -/
def Insts.drop (S : Insts) : Insts := fun ρq gs => ∃ g, S ρq (g :: gs)

/-- The first goal, a call of `is`, is taken away; only the instances are kept in which its first argument is `v`. -/
def Insts.is (S : Insts) (v : Int) : Insts := fun ρq gs => ∃ d, S ρq (⟨n!"is", [itreeAlg.int v, d]⟩ :: gs)

def Insts.Empty (S : Insts) : Prop := ∀ ρq gs, ¬ S ρq gs

/-- In some instance the arguments of the first goal are related by `R`. -/
def Insts.Once (S : Insts) (R : ITree → ITree → Prop) : Prop := ∃ ρq n d e gs, S ρq (⟨n, [d, e]⟩ :: gs) ∧ R d e

/-- In all instances, of which there are some, the arguments of the first goal are related by `R`. -/
def Insts.Always (S : Insts) (R : ITree → ITree → Prop) : Prop := S.Once R ∧ ∀ ρq n d e gs, S ρq (⟨n, [d, e]⟩ :: gs) → R d e

/-- What the evaluation of an expression comes to: a value, or an error.  The left operand is evaluated first. -/
inductive Outcome {D} (A : Alg D) : D → ErrKind ⊕ Int → Prop
  | value {d v} : Evals A d v → Outcome A d (.inr v)
  | cons {n} : Outcome A (A.cons n) (.inl .notArithmetic)
  | fn {n ds} : Outcome A (A.fn n ds) (.inl .notArithmetic)
  | left {f l r k} : Outcome A l (.inl k) → Outcome A (A.efn f [l, r]) (.inl k)
  | right {f l r a k} : Evals A l a → Outcome A r (.inl k) → Outcome A (A.efn f [l, r]) (.inl k)
  | zero {l r a} : Evals A l a → Evals A r 0 → Outcome A (A.efn n!"//" [l, r]) (.inl .divByZero)

/-- What is left to do: a predicate is to be called; or the environment of a clause of which all goals have been called is to be thrown
away, which takes a turn of its own. -/
inductive Todo where
  | goal (f : FV)
  | leave

/-- Some name is in two of the lists. -/
def inTwo : List (List Name) → Bool
  | [] => false
  | ns :: rest => ns.any (fun n => rest.any (·.contains n)) || inTwo rest

/-- The variables of a clause, those of each goal apart; nothing happens between the head and the first goal. -/
def Clause.parts (c : Clause) : List (List Name) :=
  match c.body with
  | [] => [Node.varss c.head.children]
  | b :: bs => (Node.varss c.head.children ++ Node.varss b.children) :: bs.map fun a => Node.varss a.children

/-- What is to be done for a clause once its head has been unified: it has an environment if its goals share variables. -/
def Clause.todo (c : Clause) : List Todo := c.body.map (.goal ·.fv) ++ if inTwo c.parts then [.leave] else []

/-- Nothing is to be called. -/
def NoGoal (ts : List Todo) : Prop := ∀ f, .goal f ∉ ts

/-- What waits in the queue. -/
inductive SItem where
  /-- a goal list: what is to be done, and the instances of the goals -/
  | goals (ts : List Todo) (S : Insts)
  /-- the first goal of `S` is to be resolved with `c`, and then there is `ts` to be done -/
  | clause (c : Clause) (ts : List Todo) (S : Insts)
  /-- the first goal of `S` is a call of the predicate `f`, which is not defined by clauses -/
  | own (f : FV) (ts : List Todo) (S : Insts)

inductive Rep where
  | answer (S : Insts)
  | error (k : ErrKind)

/-- The predicates that are not defined by clauses: `is`, `==` and `\==`. -/
def ownFVs : List FV := [⟨n!"is", 2⟩, ⟨n!"==", 2⟩, ⟨n!"\\==", 2⟩]

/-- What a predicate that is not defined by clauses leaves: nothing if it fails. -/
inductive Own : FV → Insts → Option Insts → Prop
  | eq_pass {S} : S.Always (· = ·) → Own ⟨n!"==", 2⟩ S (some S.drop)
  | eq_fail {S} : S.Once (· ≠ ·) → Own ⟨n!"==", 2⟩ S none
  | neq_pass {S} : S.Once (· ≠ ·) → Own ⟨n!"\\==", 2⟩ S (some S.drop)
  | neq_fail {S} : S.Always (· = ·) → Own ⟨n!"\\==", 2⟩ S none
  | is_pass {S v} : S.Always (fun _ e => Outcome itreeAlg e (.inr v)) → ¬ (S.is v).Empty → Own ⟨n!"is", 2⟩ S (some (S.is v))
  | is_fail {S v} : S.Always (fun _ e => Outcome itreeAlg e (.inr v)) → (S.is v).Empty → Own ⟨n!"is", 2⟩ S none

/-- Errors of `is`: an expression is not instantiated if what its evaluation comes to depends on the values of its variables. -/
inductive OwnErr : FV → Insts → ErrKind → Prop
  | open {S} : (¬ ∃ x, S.Always (fun _ e => Outcome itreeAlg e x)) → OwnErr ⟨n!"is", 2⟩ S .notInstantiated
  | other {S k} : S.Always (fun _ e => Outcome itreeAlg e (.inl k)) → OwnErr ⟨n!"is", 2⟩ S k

/-- One turn: what the front of the queue is replaced by, at the back, and what is reported. -/
inductive STurn (P : List Clause) : SItem → List SItem → Option Rep → Prop
  | leave {ts S} : STurn P (.goals (.leave :: ts) S) [.goals ts S] none
  | call {f ts S} : f ∉ ownFVs → STurn P (.goals (.goal f :: ts) S) ((P.filter (·.head.fv = f)).map (.clause · ts S)) none
  | callOwn {f ts S} : f ∈ ownFVs → STurn P (.goals (.goal f :: ts) S) [.own f ts S] none
  | reject {c ts S} : (S.enter c).Empty → STurn P (.clause c ts S) [] none
  | enter {c ts S} : ¬ (S.enter c).Empty → ¬ NoGoal (c.todo ++ ts) → STurn P (.clause c ts S) [.goals (c.todo ++ ts) (S.enter c)] none
  | answer {c ts S} : ¬ (S.enter c).Empty → NoGoal (c.todo ++ ts) → STurn P (.clause c ts S) [] (some (.answer (S.enter c)))
  | ownFail {f ts S} : Own f S none → STurn P (.own f ts S) [] none
  | ownPass {f ts S S'} : Own f S (some S') → ¬ NoGoal ts → STurn P (.own f ts S) [.goals ts S'] none
  | ownAnswer {f ts S S'} : Own f S (some S') → NoGoal ts → STurn P (.own f ts S) [] (some (.answer S'))
  | error {f ts S k} : OwnErr f S k → STurn P (.own f ts S) [] (some (.error k))

/-- Turns one after the other, first in, first out. -/
inductive SRun (P : List Clause) : List SItem → List (Option Rep) → List SItem → Prop
  | nil {q} : SRun P q [] q
  | cons {i q news r rs q'} : STurn P i news r → SRun P (q ++ news) rs q' → SRun P (i :: q) (r :: rs) q'

end PBfs
