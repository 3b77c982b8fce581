import Verif.Spec.Tree
import Verif.Spec.Printing
/-!
# What is written at the nodes of the unification tree

Relations only: what a node has to say about an address of a heap, how it is written, and which bindings are to be shown.
-/
namespace PBfs

/-- `n` describes what is at the address `a` of the heap. -/
inductive StandsAt (st : Storage) (H : Nat → Option Cell) : Nat → RNode → Prop
  | ref {a b v n} : H a = some (.ref b v) → b ≠ a → StandsAt st H b n → StandsAt st H a n
  | str {a b n} : H a = some (.str b) → b ≠ a → StandsAt st H b n → StandsAt st H a n
  | var {a v x} : H a = some (.ref a v) → st.varAt v = some x → StandsAt st H a (.var x a)
  | cons {a i f} : H a = some (.cons i) → st.functorAt i = some f → StandsAt st H a (.cons f.name)
  | int {a v} : H a = some (.int v) → StandsAt st H a (.int v)
  | fn {a i k f cs} : H a = some (.fn i k) → st.functorAt i = some f → cs.length = f.arity →
      (∀ (j : Nat) c, cs[j]? = some c → StandsAt st H (a + 1 + j) c) → StandsAt st H a (.fn f.name cs)
  | efn {a f k cs} : H a = some (.efn f k) → cs.length = 2 →
      (∀ (j : Nat) c, cs[j]? = some c → StandsAt st H (a + 1 + j) c) → StandsAt st H a (.efn (arithNames.getD f []) cs)

/-- Texts separated by commas and blanks. -/
def listed : List Name → Name
  | [] => []
  | s :: ss => s ++ ss.flatMap (n!", " ++ ·)

/-- What is shown of the rest of a list: its elements, and what is left if it is not a list (like one more element). -/
inductive RestOf : RNode → List RNode → Prop
  | nil : RestOf (.fn n!"[" []) []
  | cons {h t ts} : RestOf t ts → RestOf (.fn n!"[" [h, t]) (h :: ts)
  | other {r} : (∀ cs, r ≠ .fn n!"[" cs) → RestOf r [r]

/-- `s` is the text of the node. -/
inductive NText : RNode → Name → Prop
  | var {x a} : NText (.var x a) x
  | cons {x} : NText (.cons x) x
  | int {v s} : IntText v s → NText (.int v) s
  | nil : NText (.fn n!"[" []) n!"[]"
  | list {h t ts ss} : RestOf t ts → ss.length = ts.length + 1 →
      (∀ (j : Nat) c s, (h :: ts)[j]? = some c → ss[j]? = some s → NText c s) → NText (.fn n!"[" [h, t]) (n!"[" ++ listed ss ++ n!"]")
  | fn {f cs ss} : f ≠ n!"[" → cs ≠ [] → ss.length = cs.length →
      (∀ (j : Nat) c s, cs[j]? = some c → ss[j]? = some s → NText c s) → NText (.fn f cs) (f ++ n!"(" ++ listed ss ++ n!")")
  | sign {f c s} : NText c s → NText (.efn f [c]) (n!"(" ++ f ++ n!"(" ++ s ++ n!")" ++ n!")")
  | efn {f c d s t} : NText c s → NText d t → NText (.efn f [c, d]) (n!"(" ++ s ++ n!" " ++ f ++ n!" " ++ t ++ n!")")

/-- The parsed atom with its variables replaced by nodes that are right for them. -/
inductive Fills (g : Name → RNode → Prop) : Node → RNode → Prop
  | var {v n} : g v n → Fills g (.var v) n
  | cons {x} : Fills g (.cons x) (.cons x)
  | int {v} : Fills g (.int v) (.int v)
  | fn {f cs ns} : ns.length = cs.length → (∀ (j : Nat) c n, cs[j]? = some c → ns[j]? = some n → Fills g c n) → Fills g (.fn f cs) (.fn f ns)
  | efn {f cs ns} : ns.length = cs.length → (∀ (j : Nat) c n, cs[j]? = some c → ns[j]? = some n → Fills g c n) → Fills g (.efn f cs) (.efn f ns)

/-- The variable with this name and address occurs in the node. -/
inductive Occ (x : Name × Nat) : RNode → Prop
  | var : Occ x (.var x.1 x.2)
  | fn {f cs c} : c ∈ cs → Occ x c → Occ x (.fn f cs)
  | efn {f cs c} : c ∈ cs → Occ x c → Occ x (.efn f cs)

/-- The register assigned to a variable holds this address. -/
def Holds (e : Exec) (r : VarReg) (a : Nat) : Prop := ∃ c, (if r.perm then e.perm r.reg else e.reg r.reg) = .ok c ∧ c.addr = .ok a

/-- The heap an executor sees. -/
def Org.heap (o : Org) (e : Exec) : Nat → Option Cell := e.hp.at? (preOf o.execs e)

/-- The piece of code an executor has at the front. -/
def Front (e : Exec) (a : CAtom) : Prop := ∃ t ts, e.codes = t :: ts ∧ t.atom = a

/-- The registers listed for an atom are those of its variables: every variable is listed exactly once. -/
def Lists (a : CAtom) : Prop := (a.subst.map (·.name)).Nodup ∧ ∀ v, v ∈ a.subst.map (·.name) ↔ v ∈ Node.varss a.parsed.children

/-- `n` is the goal the executor has worked on, as it was when it was called. -/
def GoalIs (o : Org) (e : Exec) (n : RNode) : Prop :=
  ∃ a, Front e a ∧ Lists a ∧ Fills (fun v n => ∃ r ad, r ∈ a.subst ∧ r.name = v ∧ Holds e r ad ∧ StandsAt o.st (o.heap e) ad n) a.parsed n

/-- The bindings to be shown for these variables: those that are bound to something else than themselves. -/
inductive Shown (st : Storage) (H : Nat → Option Cell) : List (Name × Nat) → List Binding → Prop
  | nil : Shown st H [] []
  | self {v a vs bs} : StandsAt st H a (.var v a) → Shown st H vs bs → Shown st H ((v, a) :: vs) bs
  | bound {v a n s vs bs} : StandsAt st H a n → n ≠ .var v a → NText n s → Shown st H vs bs → Shown st H ((v, a) :: vs) (⟨v, s⟩ :: bs)

/-- What is right about the bindings at an alternative of the goal `n`. -/
def BindingsOK (o : Org) (n : RNode) (k : UTree) : Prop :=
  ∃ e, o.execs[k.info.exec]? = some e ∧
    (e.failed = true ∨ e.state = .running → k.info.bindings = [] ∧ k.info.firstFact = 0) ∧
    (e.failed = false → e.state ≠ .running → ∃ a qs fs bq bf, Front e a ∧ Lists a ∧ qs.Nodup ∧ (∀ x, x ∈ qs ↔ ∃ c ∈ n.children, Occ x c) ∧
      List.Forall₂ (fun r x => x.1 = r.name ∧ Holds e r x.2) a.subst fs ∧ Shown o.st (o.heap e) qs bq ∧ Shown o.st (o.heap e) fs bf ∧
      k.info.bindings = bq ++ bf ∧ k.info.firstFact = bq.length)

/-- What is right about a goal and its alternatives. -/
def LabelOK (o : Org) (s : UTree) : Prop :=
  ∃ e, o.execs[s.info.exec]? = some e ∧
    (e.state = .running → s.info.title = n!"cant determine name yet" ∧ s.kids = []) ∧
    (e.state ≠ .running → ∃ n, GoalIs o e n ∧ NText n s.info.title ∧ ∀ k ∈ s.kids, BindingsOK o n k)

end PBfs
