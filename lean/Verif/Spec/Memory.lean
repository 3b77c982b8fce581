import Verif.Model.Organizer
/-!
# How much memory a search holds

Everything that an organizer keeps for a query, counted in heap cells, registers and pointers.  What has a fixed size (the
other fields of an executor) is counted as one.
-/
namespace PBfs

/-- The number of different elements of a list. -/
def distinct : List Nat → Nat
  | [] => 0
  | a :: l => if a ∈ l then distinct l else distinct l + 1

/-- The environments of an executor: every environment is one vector. -/
def Exec.envRoom (e : Exec) : Nat := (e.envs.map (·.length + 1)).sum

/-- What an executor holds: itself, its part of the heap, the entries of the map of changed cells (one for every address), registers, the
atoms that are left, pointers to its children, environments. -/
def Exec.room (e : Exec) : Nat :=
  1 + e.hp.own.length + distinct (e.hp.changes.map (·.1)) + e.regs.length + e.codes.length + e.children.length + e.envRoom

/-- What all executors of a query and the queue hold. -/
def Org.room (o : Org) : Nat := (o.execs.map Exec.room).sum + o.queue.length

/-- Sizes of a compiled program and a query. -/
structure Sizes where
  /-- clauses of a predicate -/
  clauses : Nat
  /-- atoms of a clause or query -/
  atoms : Nat
  /-- instructions of an atom -/
  instrs : Nat
  /-- registers of an atom -/
  regs : Nat
  /-- environments of an atom, with their registers -/
  envs : Nat

/-- The environments that an atom makes. -/
def madeEnvs : List Instr → Nat
  | [] => 0
  | .allocate n :: is => n + 1 + madeEnvs is
  | _ :: is => madeEnvs is

def CAtom.Within (Z : Sizes) (a : CAtom) : Prop := a.instrs.length ≤ Z.instrs ∧ a.regCount ≤ Z.regs ∧ madeEnvs a.instrs ≤ Z.envs

def ruleWithin (Z : Sizes) (r : Rule) : Prop := r.length ≤ Z.atoms ∧ ∀ a ∈ r, a.Within Z

/-- The program and the query of an organizer are not larger than that. -/
structure Org.Within (Z : Sizes) (o : Org) : Prop where
  program : ∀ f rules, o.program.rules? f = some rules → rules.length ≤ Z.clauses ∧ ∀ r ∈ rules, ruleWithin Z r
  query : ruleWithin Z o.query

/-- How many executors there are at most after `n` iterations: an iteration makes one for every clause of a predicate, or one for the
goals that are left. -/
def Sizes.executors (Z : Sizes) (n : Nat) : Nat := 1 + n * max 1 Z.clauses

/-- What a query holds at most after `n` iterations. -/
def Sizes.room (Z : Sizes) (n : Nat) : Nat :=
  Z.executors n * (3 + Z.regs + n * Z.instrs + (n + 1) * Z.atoms + n * Z.envs) + n * Z.instrs

mutual
/-- The number of symbols of a term: names, numbers and variables. -/
def Node.symbols : Node → Nat
  | .fn _ cs => 1 + Node.symbolss cs
  | .efn _ cs => 1 + Node.symbolss cs
  | .var _ | .cons _ | .int _ => 1
def Node.symbolss : List Node → Nat
  | [] => 0
  | c :: cs => Node.symbols c + Node.symbolss cs
end

/-- Sizes of the code for clauses and a query of at most `T` symbols, if no predicate has more than `b` clauses. -/
def textSizes (b T : Nat) : Sizes := ⟨b, T + 1, 2 * T + 2, 2 * T + 1, T + 1⟩

end PBfs
