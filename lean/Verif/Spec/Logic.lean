import Verif.Model.Compile
import Verif.Model.Arith
/-!
# What programs mean

An independent, machine-free description: terms are evaluated in an arbitrary algebra, and a ground atom
is provable if it is an instance of a clause head whose body is provable.  Nothing here refers to
registers, heaps, instructions or the organizer.
-/
namespace PBfs

/-- An interpretation of constants, integers, functors and arithmetic functors. -/
structure Alg (D : Type) where
  cons : Name → D
  int : Int → D
  fn : Name → List D → D
  efn : Name → List D → D

mutual
/-- The value of a term when its variables have the values `ρ`. -/
def Node.eval {D} (A : Alg D) (ρ : Name → D) : Node → D
  | .var n => ρ n
  | .cons c => A.cons c
  | .int v => A.int v
  | .fn f cs => A.fn f (Node.evals A ρ cs)
  | .efn f cs => A.efn f (Node.evals A ρ cs)
def Node.evals {D} (A : Alg D) (ρ : Name → D) : List Node → List D
  | [] => []
  | c :: cs => Node.eval A ρ c :: Node.evals A ρ cs
end

/-- A ground atom: a predicate name with argument values (the arity is their number). -/
structure GAtom (D : Type) where
  name : Name
  args : List D

/-- The instance of an atom under an assignment. -/
def Node.inst {D} (A : Alg D) (ρ : Name → D) (n : Node) : GAtom D := ⟨n.name, Node.evals A ρ n.children⟩

/-- Exact integer arithmetic within 32 bits, division truncating towards zero.  The power operator is
left as the implementation computes it. -/
inductive ArithSpec : Name → Int → Int → Int → Prop
  | add {a b} : ArithSpec n!"+" a b (a + b)
  | sub {a b} : ArithSpec n!"-" a b (a - b)
  | mul {a b} : ArithSpec n!"*" a b (a * b)
  | div {a b} : b ≠ 0 → ArithSpec n!"//" a b (a.tdiv b)
  | pow {a b v} : powInt a b = .ok v → ArithSpec n!"^" a b v

/-- The value of an arithmetic expression (in any algebra). -/
inductive Evals {D} (A : Alg D) : D → Int → Prop
  | int {v} : Evals A (A.int v) v
  | op {f l r a b v} : Evals A l a → Evals A r b → ArithSpec f a b v → Evals A (A.efn f [l, r]) v

/-- Provability of ground atoms from clauses.  The built-in predicates: `==` holds of equal values, `is`
of a number and an expression with this value; `\==` is not restricted at all here (what it does depends
on when it is called; see C13). -/
inductive Proves {D} (A : Alg D) (P : List Clause) : GAtom D → Prop
  | clause {c ρ} : c ∈ P → (∀ b ∈ c.body, Proves A P (b.inst A ρ)) → Proves A P (c.head.inst A ρ)
  | eq {d} : Proves A P ⟨n!"==", [d, d]⟩
  | neq {d e} : Proves A P ⟨n!"\\==", [d, e]⟩
  | is {d v} : Evals A d v → Proves A P ⟨n!"is", [A.int v, d]⟩

/-- Ground terms. -/
inductive Tree where
  | cons (n : Name)
  | int (v : Int)
  | fn (n : Name) (ts : List Tree)
  | efn (n : Name) (ts : List Tree)

/-- The algebra of ground terms. -/
def treeAlg : Alg Tree := ⟨.cons, .int, .fn, .efn⟩

/-- The predicates that are always the built-in ones. -/
def builtinFVs : List FV := [⟨n!"is", 2⟩, ⟨n!"==", 2⟩, ⟨n!"\\==", 2⟩, ⟨n!"append", 3⟩]

/-- The clauses in force after a program was loaded: its own clauses, except those for built-in
predicates, and the two clauses of `append/3`. -/
def inForce (p : List Clause) : List Clause :=
  p.filter (fun c => !builtinFVs.contains c.head.fv) ++ appendClauses

end PBfs
