import Verif.Spec.Growth
import Verif.Props.Expense
import Verif.Props.History
/-! # C88: the turns of a search may get exponentially longer -/
namespace PBfs
open Org
namespace Growth

/-- The first clause. -/
def same : CAtom := ⟨3, [.getVariable 2 0, .getValue 2 1, .proceed], [⟨n!"A", 2, false⟩], .fn n!"t" [.var n!"A", .var n!"A"], false⟩

/-- Head of the second clause. -/
def head : CAtom := ⟨4, [.getVariable 2 0, .getVariable 3 1, .proceed], [⟨n!"A", 2, false⟩, ⟨n!"B", 3, false⟩], .fn n!"t" [.var n!"A", .var n!"B"], false⟩

/-- Goal of the second clause. -/
def goal : CAtom := ⟨4, [.putStructure (.fn 2 2) 0, .setValue 2, .setValue 2, .putStructure (.fn 2 2) 1, .setValue 3, .setValue 3, .call ⟨n!"t", 2⟩],
  [⟨n!"A", 2, false⟩, ⟨n!"B", 3, false⟩], .fn n!"t" [.fn n!"g" [.var n!"A", .var n!"A"], .fn n!"g" [.var n!"B", .var n!"B"]], false⟩

/-- The query. -/
def ask : CAtom := ⟨2, [.putStructure (.cons 3) 0, .putStructure (.cons 3) 1, .call ⟨n!"t", 2⟩], [], .fn n!"t" [.cons n!"a", .cons n!"a"], true⟩

/-- The interpreter after program and query have been loaded. -/
def start : Org := ((Org.init0.loadProgramText id growthText).1.loadQueryText id growthAsk).1

theorem loaded : (Org.init0.loadProgramText id growthText).2 = .ok ∧ ((Org.init0.loadProgramText id growthText).1.loadQueryText id growthAsk).2 = .ok := by
  decide +kernel

theorem start_rules : start.program.rules? ⟨n!"t", 2⟩ = some [[same], [head, goal]] := by rfl
theorem start_gen : start.gen = 2 := by rfl
theorem start_st : start.st = ⟨[⟨n!"[", 0⟩, ⟨n!"[", 2⟩, ⟨n!"g", 2⟩, ⟨n!"a", 0⟩], [n!"X", n!"Xs", n!"Rs"]⟩ := by rfl
theorem start_execs : start.execs = [initExec [ask]] := by rfl
theorem start_queue : start.queue = [0] := by rfl
theorem start_calls : start.calls = 0 := by rfl

/-! ## The executors -/

/-- The registers when `t` is called. -/
def regs : Nat → List Cell
  | 0 => [.str (towerAt 0 0), .str (towerAt 1 0)]
  | m + 1 => [.str (towerAt 0 (m + 1)), .str (towerAt 1 (m + 1)), .str (towerAt 0 m), .str (towerAt 1 m)]

/-- The executor of the query, after its turn. -/
def root : Exec := ⟨none, ⟨0, [], [.cons 3, .cons 3]⟩, [1, 2], regs 0, .read, 0, .archived, [⟨0, ask⟩], [], none⟩

/-- An executor for the call of `t` at level `m`, for the clause `r`. -/
def kid (m : Nat) (r : Rule) : Exec := ⟨some (3 * m), ⟨6 * m + 2, [], []⟩, [], regs m, .read, 0, .running, r.map (⟨2, ·⟩), [], none⟩

/-- The one for the first clause after its turn. -/
def done (m : Nat) : Exec := ⟨some (3 * m), ⟨6 * m + 2, [], []⟩, [], [.str (towerAt 0 m), .str (towerAt 1 m), .str (towerAt 0 m)], .read, 0,
  .success, [⟨2, same⟩], [], none⟩

/-- The one for the second clause after its turn. -/
def past (m : Nat) : Exec := ⟨some (3 * m), ⟨6 * m + 2, [], []⟩, [3 * m + 3],
  [.str (towerAt 0 m), .str (towerAt 1 m), .str (towerAt 0 m), .str (towerAt 1 m)], .read, 0, .archived, [⟨2, head⟩], [], none⟩

/-- The executor for the goal of the second clause. -/
def next (m : Nat) : Exec := ⟨some (3 * m + 2), ⟨6 * m + 2, [], []⟩, [],
  [.str (towerAt 0 m), .str (towerAt 1 m), .str (towerAt 0 m), .str (towerAt 1 m)], .read, 0, .running, [⟨2, goal⟩], [], none⟩

/-- The same after its turn. -/
def built (m : Nat) : Exec := ⟨some (3 * m + 2), ⟨6 * m + 2, [], [.fn 2 2, .str (towerAt 0 m), .str (towerAt 0 m), .fn 2 2, .str (towerAt 1 m), .str (towerAt 1 m)]⟩,
  [3 * m + 4, 3 * m + 5], regs (m + 1), .read, 0, .archived, [⟨2, goal⟩], [], none⟩

/-- The executors that are finished when level `m` begins. -/
def spine : Nat → List Exec
  | 0 => [root]
  | m + 1 => spine m ++ [done m, past m, built m]

/-- When `t` has been called at level `m`. -/
def called (m : Nat) : Org := { start with execs := spine m ++ [kid m [same], kid m [head, goal]], queue := [3 * m + 1, 3 * m + 2], calls := m + 1 }

/-- After the turn of the first clause. -/
def told (m : Nat) : Org := { start with execs := spine m ++ [done m, kid m [head, goal]], queue := [3 * m + 2], calls := m + 1 }

/-- After the turn of the second clause. -/
def entered (m : Nat) : Org := { start with execs := spine m ++ [done m, past m, next m], queue := [3 * m + 3], calls := m + 1 }

theorem spine_length : ∀ m, (spine m).length = 3 * m + 1
  | 0 => rfl
  | m + 1 => by rw [spine, List.length_append, spine_length m]; simp; omega

section
variable {α : Type} {L : List α} {k : Nat} (hk : L.length = k) (a b c x : α) (l : List α)
include hk
theorem at0 : (L ++ a :: l)[k]? = some a := by subst hk; simp
theorem at1 : (L ++ a :: b :: l)[k + 1]? = some b := by subst hk; simp
theorem at2 : (L ++ a :: b :: c :: l)[k + 2]? = some c := by subst hk; simp
theorem set0 : (L ++ a :: l).set k x = L ++ x :: l := by subst hk; simp
theorem set1 : (L ++ a :: b :: l).set (k + 1) x = L ++ a :: x :: l := by subst hk; simp [List.set_append_right]
theorem set2 : (L ++ a :: b :: c :: l).set (k + 2) x = L ++ a :: b :: x :: l := by subst hk; simp [List.set_append_right]
end

theorem turn_start (fuel : Nat) : start.turn fuel = .ok (called 0, .continue) := by
  rfl

theorem goal_isDealloc : goal.isDealloc = false := rfl

theorem regs3 (m : Nat) : ∃ p, resize 3 (regs m) = [.str (towerAt 0 m), .str (towerAt 1 m), p] := by
  rcases m with _ | m <;> exact ⟨_, rfl⟩

theorem regs4 (m : Nat) : ∃ p q, resize 4 (regs m) = [.str (towerAt 0 m), .str (towerAt 1 m), p, q] := by
  rcases m with _ | m <;> exact ⟨_, _, rfl⟩

theorem turn_head (m fuel : Nat) : (told m).turn fuel = .ok (entered m, .continue) := by
  have hs := spine_length m
  obtain ⟨p, q, hr⟩ := regs4 m
  simp [turn, turnOf, told, Org.exec, set1 hs, kid, orFault, Org.code, stale, start_gen, head, setExec, hr, instrs, instr, stepData,
    Exec.reg, Exec.setReg, Exec.failed, Org.proceed, allDealloc, goal_isDealloc, entered, hs, past, next, proceedChild, Hp.size]
  rfl

theorem towerAt_zero (m : Nat) : towerAt 0 (m + 1) = 6 * m + 2 := by unfold towerAt; rw [if_neg (by omega)]; omega
theorem towerAt_one (m : Nat) : towerAt 1 (m + 1) = 6 * m + 5 := by unfold towerAt; rw [if_neg (by omega)]; omega

theorem turn_goal (m fuel : Nat) : (entered m).turn fuel = .ok (called (m + 1), .continue) := by
  have hs := spine_length m
  simp [turn, turnOf, entered, Org.exec, set2 hs, next, orFault, Org.code, stale, start_gen, goal, setExec, resize, instrs, instr, stepData,
    Exec.reg, Exec.setReg, Exec.failed, Exec.push, Hp.push, Org.call, start_rules, callChild, called, spine, hs, kid, built, Hp.size, Exec.clear, regs,
    towerAt_zero, towerAt_one]
  rfl

/-! ## The heap -/

theorem Towers.last {H : HV} {m : Nat} {c f : Int} (h : Towers H m c f) :
    Towers (Hp.at? H ⟨6 * m + 2, [], []⟩) m c f := by
  intro x
  by_cases hx : x < 6 * m + 2
  · simp only [Hp.at?, show ¬ 6 * m + 2 ≤ x by omega, if_false, List.lookup_nil, h x]
  · simp [Hp.at?, show 6 * m + 2 ≤ x by omega, hx]

theorem Towers.grow {H : HV} {m : Nat} {c f : Int} (h : Towers H m c f) :
    Towers (Hp.at? H ⟨6 * m + 2, [], [.fn f 2, .str (towerAt 0 m), .str (towerAt 0 m), .fn f 2, .str (towerAt 1 m), .str (towerAt 1 m)]⟩) (m + 1) c f := by
  intro x
  by_cases hx : x < 6 * m + 2
  · simp only [Hp.at?, show ¬ 6 * m + 2 ≤ x by omega, if_false, List.lookup_nil, h x, hx, if_true, show x < 6 * (m + 1) + 2 by omega]
  · simp only [Hp.at?, show 6 * m + 2 ≤ x by omega, if_true]
    by_cases hx' : x < 6 * (m + 1) + 2
    · rw [if_pos hx']
      obtain ⟨i, rfl⟩ : ∃ i, x = 6 * m + 2 + i := ⟨x - (6 * m + 2), by omega⟩
      rw [Nat.add_sub_cancel_left]
      unfold towerCell
      rw [if_neg (by omega)]
      have : i = 0 ∨ i = 1 ∨ i = 2 ∨ i = 3 ∨ i = 4 ∨ i = 5 := by omega
      rcases this with rfl | rfl | rfl | rfl | rfl | rfl
      · rw [if_pos (by omega)]; rfl
      · rw [if_neg (by omega), show (6 * m + 2 + 1 - 2) / 3 % 2 = 0 by omega, show (6 * m + 2 + 1 - 2) / 6 = m by omega]; rfl
      · rw [if_neg (by omega), show (6 * m + 2 + 2 - 2) / 3 % 2 = 0 by omega, show (6 * m + 2 + 2 - 2) / 6 = m by omega]; rfl
      · rw [if_pos (by omega)]; rfl
      · rw [if_neg (by omega), show (6 * m + 2 + 4 - 2) / 3 % 2 = 1 by omega, show (6 * m + 2 + 4 - 2) / 6 = m by omega]; rfl
      · rw [if_neg (by omega), show (6 * m + 2 + 5 - 2) / 3 % 2 = 1 by omega, show (6 * m + 2 + 5 - 2) / 6 = m by omega]; rfl
    · rw [if_neg hx', List.getElem?_eq_none (by simp; omega)]

/-- The heap that the executors for level `m` see. -/
theorem spine_heap : ∀ m Q k, 2 * m < k → Towers (heapAtF (spine m ++ Q) k (3 * m)) m 3 2
  | 0, Q, k, hk => by
    obtain ⟨k, rfl⟩ : ∃ j, k = j + 1 := ⟨k - 1, by omega⟩
    intro x
    simp only [heapAtF, spine, Nat.mul_zero, List.cons_append, List.nil_append, List.getElem?_cons_zero, root, Hp.at?, Nat.zero_le, if_true, Nat.sub_zero]
    rcases x with _ | _ | x
    · rfl
    · rfl
    · rw [if_neg (by omega)]; rfl
  | m + 1, Q, k, hk => by
    obtain ⟨k, rfl⟩ : ∃ j, k = j + 2 := ⟨k - 2, by omega⟩
    have ih := spine_heap m (done m :: past m :: built m :: Q) k (by omega)
    have hs := spine_length m
    have e : spine (m + 1) ++ Q = spine m ++ done m :: past m :: built m :: Q := by simp [spine]
    rw [e]
    have := Towers.grow (Towers.last ih)
    simpa only [heapAtF, show 3 * (m + 1) = 3 * m + 1 + 2 from rfl, at2 hs, built, show 3 * m + 2 = 3 * m + 1 + 1 from rfl, at1 hs, past] using this

/-- The substitutions found on the way to the root: none. -/
theorem spine_subs : ∀ m Q k (o : Org), o.gen = 2 → o.execs = spine m ++ Q → m < k → o.collectSubs k (3 * m) = .ok []
  | 0, Q, k, o, hg, he, hk => by
    obtain ⟨k, rfl⟩ : ∃ j, k = j + 1 := ⟨k - 1, by omega⟩
    simp [collectSubs, Org.exec, he, spine, root, Org.code, stale, orFault, ask, pointSubs]
    rfl
  | m + 1, Q, k, o, hg, he, hk => by
    obtain ⟨k, rfl⟩ : ∃ j, k = j + 1 := ⟨k - 1, by omega⟩
    have hs := spine_length m
    have e : spine (m + 1) ++ Q = spine m ++ done m :: past m :: built m :: Q := by simp [spine]
    rw [e] at he
    have ih := spine_subs m (done m :: past m :: built m :: Q) k o hg he (by omega)
    simp [collectSubs, Org.exec, he, show 3 * (m + 1) = 3 * m + 1 + 2 from rfl, at2 hs, built, Org.code, stale, orFault, hg, goal,
      show 3 * m + 2 = 3 * m + 1 + 1 from rfl, at1 hs, past, ih]

/-- What the indices stand for. -/
def sym (i : Int) : FV := if i = 0 then ⟨n!"[", 0⟩ else if i = 1 then ⟨n!"[", 2⟩ else if i = 2 then ⟨n!"g", 2⟩ else ⟨n!"a", 0⟩

theorem sym_ok : Interp sym start.st := by
  rw [start_st]
  intro k fv h
  rcases k with _ | _ | _ | _ | k
  · cases h; rfl
  · cases h; rfl
  · cases h; rfl
  · cases h; rfl
  · simp at h

theorem st_ok : StOK start.st := by rw [start_st]; exact ⟨by decide, by decide⟩

theorem tops (m : Nat) (Q : List Exec) (fuel : Nat) : unify (heapAtF (spine m ++ Q) (3 * m + 1) (3 * m)) fuel ⟨6 * m + 2, [], []⟩ (towerAt 0 m) (towerAt 1 m) =
    if 2 ^ (m + 1) - 1 ≤ fuel then .ok ⟨⟨6 * m + 2, [], []⟩, true⟩ else .error .hang := by
  refine C88_tops st_ok sym_ok rfl (Towers.last (spine_heap m Q _ (by omega))) ?_ ?_ rfl rfl fuel
  · rw [start_st]; exact ⟨3, _, rfl, rfl, rfl⟩
  · rw [start_st]; exact ⟨2, _, rfl, rfl, rfl, by simp⟩

theorem turn_same (m fuel : Nat) : (called m).turn fuel = if 2 ^ (m + 1) - 1 ≤ fuel then .ok (told m, .answer []) else .error .hang := by
  have hs := spine_length m
  obtain ⟨p, hr⟩ := regs3 m
  have ha : (told m).collectSubs (3 * m + 1) (3 * m) = .ok [] := spine_subs m _ _ _ start_gen rfl (by omega)
  by_cases hf : 2 ^ (m + 1) - 1 ≤ fuel
  · have hu := fun Q => (tops m Q fuel).trans (if_pos hf)
    rw [if_pos hf]
    simp only [told, done, same, kid, List.map, start_gen] at ha
    simp [turn, turnOf, called, Org.exec, at0 hs, set0 hs, kid, orFault, Org.code, stale, start_gen, same, setExec, hr, instrs, instr, stepData,
      Exec.reg, Exec.setReg, Exec.failed, Cell.addr, Cell.ptr, Exec.unify, preOf, hu, Org.proceed, allDealloc, Exec.clear, Org.answer]
    rw [ha]
    simp [renderSubs, told, done, same, kid, start_gen]
    rfl
  · have hu := fun Q => (tops m Q fuel).trans (if_neg hf)
    rw [if_neg hf]
    simp [turn, turnOf, called, Org.exec, at0 hs, set0 hs, kid, orFault, Org.code, stale, start_gen, same, setExec, hr, instrs, instr, stepData,
      Exec.reg, Exec.setReg, Exec.failed, Cell.addr, Cell.ptr, Exec.unify, preOf, hu]

/-! ## The session -/

/-- One click after the first: three turns. -/
theorem click (m fuel : Nat) : (told m).getAnswer fuel (List.replicate 3 false) =
    if 2 ^ (m + 2) - 1 ≤ fuel then .ok (told (m + 1), .answer []) else .error .hang := by
  rw [getAnswer.eq_def]
  simp only [show (told m).queue = [3 * m + 2] from rfl, List.replicate, turn_head, ok_bind]
  rw [getAnswer.eq_def]
  simp only [show (entered m).queue = [3 * m + 3] from rfl, turn_goal, ok_bind]
  rw [getAnswer.eq_def]
  simp only [show (called (m + 1)).queue = [3 * (m + 1) + 1, 3 * (m + 1) + 2] from rfl, turn_same]
  by_cases hf : 2 ^ (m + 1 + 1) - 1 ≤ fuel
  · rw [if_pos hf, if_pos hf]; rfl
  · rw [if_neg hf, if_neg hf]; rfl

theorem first (fuel : Nat) : start.getAnswer fuel (List.replicate 3 false) = if 2 ^ 1 - 1 ≤ fuel then .ok (told 0, .answer []) else .error .hang := by
  rw [getAnswer.eq_def]
  simp only [start_queue, List.replicate, turn_start, ok_bind]
  rw [getAnswer.eq_def]
  simp only [show (called 0).queue = [1, 2] from rfl, turn_same]
  by_cases hf : 2 ^ (0 + 1) - 1 ≤ fuel
  · rw [if_pos hf, if_pos hf]; rfl
  · rw [if_neg hf, if_neg hf]; rfl

theorem clicked : ∀ n m fuel, (told m).session fuel (List.replicate n (List.replicate 3 false)) =
    if n = 0 ∨ 2 ^ (m + n + 1) - 1 ≤ fuel then .ok (told (m + n), List.replicate n (.answer [])) else .error .hang
  | 0, m, fuel => by simp [Org.session]; rfl
  | n + 1, m, fuel => by
    have hmono : 2 ^ (m + 2) ≤ 2 ^ (m + (n + 1) + 1) := Nat.pow_le_pow_right (by omega) (by omega)
    rw [List.replicate_succ, Org.session, click]
    by_cases h1 : 2 ^ (m + 2) - 1 ≤ fuel
    · rw [if_pos h1]
      simp only [ok_bind, clicked n (m + 1) fuel]
      rw [show m + 1 + n = m + (n + 1) by omega]
      by_cases h2 : 2 ^ (m + (n + 1) + 1) - 1 ≤ fuel
      · rw [if_pos (.inr h2), if_pos (.inr h2)]
        rfl
      · rcases n with _ | n
        · exact absurd h1 h2
        · rw [if_neg (by omega), if_neg (by omega)]; rfl
    · rw [if_neg h1, if_neg (by omega)]; rfl

theorem told_cells : ∀ m, ((told m).execs.map (·.hp.own.length)).sum = 6 * m + 2 := by
  have : ∀ m, ((spine m).map (·.hp.own.length)).sum = 6 * m + 2 := by
    intro m
    induction m with
    | zero => rfl
    | succ m ih => simp [spine, ih, done, past, built]; omega
  intro m
  simp [told, this, done, kid]

end Growth

open Growth in
/-- **C88.** A new interpreter is given the program `t(A, A). t(A, B) :- t(g(A, A), g(B, B)).` and the query `t(a,a)`.
Both are accepted.  Every call of `get_answer` finds an answer after at most three turns, and every answer is just
`true`.  After `m + 1` answers there are `3m + 3` executors with `6m + 2` cells.  But the unification for the last of
them takes `2^(m+1) - 1` iterations, in one turn: with fewer the calls do not come to an end. -/
theorem C88_session : (Org.init0.loadProgramText id growthText).2 = .ok ∧
    ((Org.init0.loadProgramText id growthText).1.loadQueryText id growthAsk).2 = .ok ∧
    ∀ m, ∃ o, o.execs.length = 3 * m + 3 ∧ (o.execs.map (·.hp.own.length)).sum = 6 * m + 2 ∧ ∀ fuel,
      ((Org.init0.loadProgramText id growthText).1.loadQueryText id growthAsk).1.session fuel (List.replicate (m + 1) (List.replicate 3 false)) =
        if 2 ^ (m + 1) - 1 ≤ fuel then .ok (o, List.replicate (m + 1) (.answer [])) else .error .hang := by
  refine ⟨loaded.1, loaded.2, fun m => ⟨told m, by simp [told, spine_length], told_cells m, fun fuel => ?_⟩⟩
  show start.session _ _ = _
  rw [List.replicate_succ, Org.session, first]
  have hmono : 2 ^ 1 ≤ 2 ^ (m + 1) := Nat.pow_le_pow_right (by omega) (by omega)
  by_cases h1 : 2 ^ 1 - 1 ≤ fuel
  · rw [if_pos h1]
    simp only [ok_bind, clicked m 0 fuel, Nat.zero_add]
    by_cases h2 : 2 ^ (m + 1) - 1 ≤ fuel
    · rw [if_pos (.inr h2), if_pos h2]; rfl
    · rcases m with _ | m
      · exact absurd h1 h2
      · rw [if_neg (by omega), if_neg h2]; rfl
  · rw [if_neg h1, if_neg (by omega)]; rfl

/-- **C88.** The same, whatever the orders in which hash maps are enumerated when the texts are compiled. -/
theorem C88_orders {ord ord' : HashOrder} (ho : ord.OK) (ho' : ord'.OK) (m fuel : Nat) :
    ((Org.init0.loadProgramText ord growthText).1.loadQueryText ord' growthAsk).1.talk fuel (List.replicate (m + 1) (List.replicate 3 false)) =
      if 2 ^ (m + 1) - 1 ≤ fuel then .ok (List.replicate (m + 1) (.answer [])) else .error .hang := by
  have h0 : Lockstep BothNew Org.init0 Org.init0 := .start ⟨Org.init_eq, Org.init_eq⟩
  have h1 : Lockstep BothNew ((Org.init0.loadProgramText ord growthText).1.loadQueryText ord' growthAsk).1
      ((Org.init0.loadProgramText id growthText).1.loadQueryText id growthAsk).1 :=
    .query _ (.program _ h0 ho HashOrder.id_ok) ho' HashOrder.id_ok
  rw [(C36_hash_order h1).answers]
  obtain ⟨o, -, -, h⟩ := C88_session.2.2 m
  rw [Org.talk, h]
  split <;> rfl

/-- **C88.** So there is no polynomial in the number of answers (or turns, or cells) that bounds the iterations of the
unifications for the first answers of this query. -/
theorem C88_turns : ¬ ∃ c d : Nat, ∀ m, ∃ r,
    ((Org.init0.loadProgramText id growthText).1.loadQueryText id growthAsk).1.session (c * (m + 1) ^ d) (List.replicate (m + 1) (List.replicate 3 false)) = .ok r := by
  intro ⟨c, d, h⟩
  obtain ⟨n, hn⟩ := beats c d
  obtain ⟨r, hr⟩ := h n
  obtain ⟨o, -, -, h'⟩ := C88_session.2.2 n
  have h1 : c * (n + 1) ^ d ≤ c * (4 * n + 6) ^ d := Nat.mul_le_mul_left _ (Nat.pow_le_pow_left (by omega) d)
  have h2 : 2 ^ (n + 1) = 2 ^ n * 2 := Nat.pow_succ ..
  rw [h', if_neg (by omega)] at hr
  cases hr

end PBfs
