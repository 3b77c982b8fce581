import Verif.Spec.Terms
import Verif.Spec.Logic
import Verif.Model.Render
/-!
# What answers mean

Values of heap terms in an algebra, and trees that may be infinite (an interpreter without occurs check
computes with those).
-/
namespace PBfs

mutual
/-- The value of a heap term: `I` tells which symbol an index stands for, `ω` the values of the open
variables. -/
def OTerm.eval {D} (A : Alg D) (I : Int → FV) (ω : Nat → D) : OTerm → D
  | .var a => ω a
  | .cons i => A.cons (I i).name
  | .int v => A.int v
  | .fn f ts => A.fn (I f).name (OTerm.evals A I ω ts)
  | .efn f ts => A.efn (arithNames.getD f []) (OTerm.evals A I ω ts)
def OTerm.evals {D} (A : Alg D) (I : Int → FV) (ω : Nat → D) : List OTerm → List D
  | [] => []
  | t :: ts => OTerm.eval A I ω t :: OTerm.evals A I ω ts
end

/-- Labels of tree nodes: a symbol and the number of children. -/
inductive Label where
  | cons (n : Name)
  | int (v : Int)
  | fn (n : Name) (k : Nat)
  | efn (n : Name) (k : Nat)
  deriving DecidableEq

/-- Trees of any depth, finite or infinite: which label is found at the end of a path of child numbers. -/
abbrev ITree := List Nat → Option Label

def ITree.node (l : Label) (ts : List ITree) : ITree
  | [] => some l
  | i :: p => (ts[i]?).bind (· p)

/-- The algebra of finite and infinite trees. -/
def itreeAlg : Alg ITree where
  cons n := .node (.cons n) []
  int v := .node (.int v) []
  fn n ts := .node (.fn n ts.length) ts
  efn n ts := .node (.efn n ts.length) ts

/-- The bindings `bs` are what is printed for the list `L` of variables with their heap addresses: every
variable once, its value being the text of the term at an address recorded for it. -/
structure Prints (text : Nat → R Name) (L : List (Name × Nat)) (bs : List Binding) : Prop where
  once : (bs.map (·.name)).Nodup
  value : ∀ b ∈ bs, ∃ a, (b.name, a) ∈ L ∧ text a = .ok b.value
  all : ∀ p ∈ L, p.1 ∈ bs.map (·.name)

end PBfs
