import Verif.Spec.Session
/-! # What an alternative still has to do -/
namespace PBfs

/-- The source atom of a piece of code that calls a predicate. -/
def CAtom.goal? (a : CAtom) : Option Node :=
  match a.instrs.getLast? with
  | some (.call _) => some a.parsed
  | _ => none

/-- The source atom of a piece of code that enters a clause. -/
def CAtom.head? (a : CAtom) : Option Node :=
  match a.instrs.getLast? with
  | some .proceed => some a.parsed
  | _ => none

/-- The goals among pieces of code. -/
def goalsOf (cs : List TCode) : List Node := cs.filterMap (·.atom.goal?)

/-- A sequence of iterations of the main loop with, for each, the goal that the executor at work had to call
(if it had to call one). -/
inductive Works (o : Org) : List (Option Node) → Org → Prop
  | nil : Works o [] o
  | snoc {l o1 o2 fuel id q e t ts r} : Works o l o1 → o1.queue = id :: q → o1.execs[id]? = some e → e.codes = t :: ts →
      o1.turn fuel = .ok (o2, r) → Works o (l ++ [t.atom.goal?]) o2

/-- Atoms as the parser delivers them: constants, and structures with arguments. -/
def Node.callable : Node → Bool
  | .cons _ => true
  | .fn _ cs => !cs.isEmpty
  | .efn _ cs => !cs.isEmpty
  | _ => false

/-- Histories (`Reach`) in which the parser only delivers atoms that can be called and no empty queries. -/
inductive Typed : Org → Prop
  | init {o} : Org.init = .ok o → Typed o
  | program {o} (ord parsed) : Typed o → (∀ p, parsed = some p → ∀ cl ∈ p, ∀ a ∈ cl.head :: cl.body, a.callable = true) →
      Typed (o.loadProgram ord parsed).1
  | query {o} (ord parsed) : Typed o → (∀ l, parsed = some l → l ≠ [] ∧ ∀ a ∈ l, a.callable = true) → Typed (o.loadQuery ord parsed).1
  | answer {o o' fuel clock r} : Typed o → o.getAnswer fuel clock = .ok (o', r) → Typed o'
  | memory {o} : Typed o → Typed o.clearMemory

theorem Typed.reach {o} (h : Typed o) : Reach o := by
  induction h with
  | init h => exact .init h
  | program _ _ _ _ ih => exact .program _ _ ih
  | query _ _ _ _ ih => exact .query _ _ ih
  | answer _ ha ih => exact .answer ih ha
  | memory _ ih => exact .memory ih

/-- `Within m o id o' j`: the alternative `j` at `o'` continues the work of `id` at `o` (it is `id` or one of the
alternatives that came out of it), and in between there were always more than `m` pieces of code left to do. -/
inductive Within (m : Nat) (o : Org) (id : Nat) : Org → Nat → Prop
  | here : Within m o id o id
  | other {o1 o2 fuel j k q r} : Within m o id o1 j → o1.queue = k :: q → j ∈ q → o1.turn fuel = .ok (o2, r) → Within m o id o2 j
  | own {o1 o2 fuel j k q e r} : Within m o id o1 j → o1.queue = j :: q → o1.execs[j]? = some e → m < e.codes.length →
      o1.turn fuel = .ok (o2, r) → k ∈ o2.queue → k ∉ q → Within m o id o2 k

/-- A new alternative for the clause `cl`, with `ts` left to do afterwards. -/
def Alternative (id : Nat) (ts : List TCode) (n : Exec) (cl : Clause) : Prop :=
  n.parent = some id ∧ n.state = .running ∧ ∃ t cs, n.codes = t :: (cs ++ ts) ∧ t.atom.head? = some cl.head ∧ goalsOf cs = cl.body

end PBfs
