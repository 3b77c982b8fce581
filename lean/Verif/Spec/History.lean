import Verif.Model.Organizer
/-!
# Histories of an interpreter

What a user can do with the organizer, and the sequence of loop iterations behind it.
-/
namespace PBfs

/-- The states an interpreter can be in after any history of calls of its interface
(bfs_organizer.h:73-160): construction, loading programs and queries (with any text, i.e. any result of
the parser, and any iteration order of hash maps), `get_answer` under any clock, and the clean-up after
memory exhaustion. -/
inductive Reach : Org → Prop
  | init {o} : Org.init = .ok o → Reach o
  | program {o} (ord parsed) : Reach o → Reach (o.loadProgram ord parsed).1
  | query {o} (ord parsed) : Reach o → Reach (o.loadQuery ord parsed).1
  | answer {o o' fuel clock r} : Reach o → o.getAnswer fuel clock = .ok (o', r) → Reach o'
  | memory {o} : Reach o → Reach o.clearMemory

/-- A sequence of iterations of the main loop: which alternative was worked on, and what came out. -/
inductive Runs (fuel : Nat) (o : Org) : List (Nat × Org.Turn) → Org → Prop
  | nil : Runs fuel o [] o
  | snoc {hist o1 o2 id q t} : Runs fuel o hist o1 → o1.queue = id :: q → o1.turn fuel = .ok (o2, t) →
      Runs fuel o (hist ++ [(id, t)]) o2

/-- The alternatives from `id` up to the root of the search tree. -/
def branch (execs : List Exec) : Nat → Nat → List Nat
  | 0, _ => []
  | n + 1, id =>
    match execs[id]? with
    | none => []
    | some e =>
      match e.parent with
      | none => [id]
      | some p => id :: branch execs n p

/-- The number of work steps done on the branch of `id` in a history. -/
def workOn (execs : List Exec) (hist : List (Nat × Org.Turn)) (id : Nat) : Nat :=
  (hist.filter fun h => (branch execs (id + 1) id).contains h.1).length

/-- What iterations of the main loop report. -/
def reports : List Org.Turn → List Org.Res
  | [] => []
  | .continue :: ts => reports ts
  | .answer bs :: ts => .answer bs :: reports ts
  | .error e :: ts => .error e :: reports ts

/-- `n` iterations of the main loop, stopping earlier when nothing is left. -/
def Org.iterate (fuel : Nat) : Nat → Org → R (Org × List Org.Turn)
  | 0, o => pure (o, [])
  | n + 1, o =>
    match o.queue with
    | [] => pure (o, [])
    | _ :: _ => do
      let r ← o.turn fuel
      let s ← Org.iterate fuel n r.1
      pure (s.1, r.2 :: s.2)

/-- The history of the first `n` work steps. -/
def Org.history (fuel : Nat) : Nat → Org → List (Nat × Org.Turn) → R (Org × List (Nat × Org.Turn))
  | 0, o, hist => pure (o, hist)
  | n + 1, o, hist =>
    match o.queue with
    | [] => pure (o, hist)
    | id :: _ => do
      let r ← o.turn fuel
      Org.history fuel n r.1 (hist ++ [(id, r.2)])

/-- Repeated calls of `get_answer`, each with its own clock. -/
def Org.session (fuel : Nat) : List (List Bool) → Org → R (Org × List Org.Res)
  | [], o => pure (o, [])
  | c :: cs, o => do
    let r ← o.getAnswer fuel c
    let s ← Org.session fuel cs r.1
    pure (s.1, r.2 :: s.2)

/-- Answers and errors of evaluation, as opposed to time-outs, unfinished calls and the final "no". -/
def Org.Res.isReport : Org.Res → Bool
  | .answer _ => true
  | .error e => e.kind != .outOfTime
  | _ => false

theorem Org.history_runs {fuel : Nat} {o : Org} : ∀ {n o1 hist r}, Runs fuel o hist o1 →
    Org.history fuel n o1 hist = .ok r → Runs fuel o r.2 r.1 := by
  intro n
  induction n with
  | zero =>
    intro o1 hist r hr h
    simp only [history, pure, Except.pure, Except.ok.injEq] at h
    rw [← h]; exact hr
  | succ n ih =>
    intro o1 hist r hr h
    unfold history at h
    split at h
    · simp only [pure, Except.pure, Except.ok.injEq] at h
      rw [← h]; exact hr
    · rename_i id q hq
      cases ht : o1.turn fuel with
      | error => rw [ht] at h; cases h
      | ok x =>
        rw [ht] at h
        exact ih (.snoc hr hq (show o1.turn fuel = .ok (x.1, x.2) from ht)) h

end PBfs
