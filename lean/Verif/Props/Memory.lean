import Verif.Proof.Memory2
import Verif.Props.Effort
/-!
# How much memory a search holds

C70.  `Runs fuel o hist o'` means: `hist.length` iterations of the main loop lead from `o` to `o'`.
-/
namespace PBfs
open Org

theorem MemHeld.loaded {o0 o : Org} {ord parsed Z} (hl : o0.loadQuery ord parsed = (o, .ok)) (hz : o.Within Z) : MemHeld Z 0 o := by
  simp only [loadQuery] at hl
  split at hl
  · simp at hl
  · split at hl
    · simp only [Prod.mk.injEq] at hl
      exact absurd hl.2 (loadErr_ne_ok _)
    · simp only [Prod.mk.injEq, and_true] at hl
      subst hl
      have hq := hz.query
      refine ⟨hz.program, by simp [Sizes.executors], by simp [initExec], by simp [initExec], ?_, ?_⟩
      · intro e he
        simp only [List.mem_singleton] at he
        subst he
        refine ⟨by simp [initExec, Hp.size], below_new, by simp [initExec], by simpa [initExec] using hq.1, ?_, by simp [initExec, Exec.envRoom]⟩
        intro t ht
        simp only [initExec, List.mem_map] at ht
        obtain ⟨a, ha, rfl⟩ := ht
        exact hq.2 a ha
      · intro e he
        simp only [List.mem_singleton] at he
        subst he
        exact fun x => absurd rfl x

theorem MemHeld.runs {Z fuel} {o o' : Org} {hist} (hi : RInv o) (h : MemHeld Z 0 o) (hr : Runs fuel o hist o') : MemHeld Z hist.length o' := by
  induction hr with
  | nil => exact h
  | snoc hr hq ht ih =>
    rw [List.length_append]
    exact MemHeld.turn (hr.rinv hi).inv ih hq ht

theorem nodup_distinct : ∀ {l : List Nat}, l.Nodup → distinct l = l.length
  | [], _ => rfl
  | a :: l, h => by
    rw [List.nodup_cons] at h
    simp [distinct, h.1, nodup_distinct h.2]

theorem queue_le {o : Org} (inv : Inv o) : o.queue.length ≤ o.execs.length := by
  rw [← nodup_distinct inv.qnd]
  apply distinct_le
  intro id hid
  obtain ⟨e, he, _⟩ := inv.qrun id hid
  exact (List.getElem?_eq_some_iff.1 he).1

theorem sum_add {α} (f g : α → Nat) : ∀ (l : List α), (l.map fun a => f a + g a).sum = (l.map f).sum + (l.map g).sum
  | [] => rfl
  | a :: l => by
    have := sum_add f g l
    simp only [List.map_cons, List.sum_cons] at this ⊢
    omega

theorem MemHeld.room {Z n} {o : Org} (inv : Inv o) (h : MemHeld Z n o) : o.room ≤ Z.room n := by
  have hc : ∀ e ∈ o.execs, (1 + distinct (e.hp.changes.map (·.1)) + e.regs.length + e.codes.length + e.envRoom) ≤
      1 + Z.regs + n * Z.instrs + (n + 1) * Z.atoms + n * Z.envs := by
    intro e he
    have hE := h.each e he
    have h1 : distinct (e.hp.changes.map (·.1)) ≤ e.hp.start := distinct_le _ _ fun a ha => by
      obtain ⟨c, hc, rfl⟩ := List.mem_map.1 ha
      exact hE.below c hc
    have h2 := hE.size
    have h3 := hE.regs
    have h4 := hE.codes
    have h5 := hE.envs
    simp only [Hp.size] at h2
    omega
  have hs := sum_le _ _ hc
  have hsplit : (o.execs.map Exec.room).sum = (o.execs.map fun e => 1 + distinct (e.hp.changes.map (·.1)) + e.regs.length + e.codes.length + e.envRoom).sum +
      ((o.execs.map (·.hp.own.length)).sum + (o.execs.map (·.children.length)).sum) := by
    rw [← sum_add, ← sum_add]
    congr 2
    funext e
    simp only [Exec.room]
    omega
  have h1 := h.execs
  have h2 := h.own
  have h3 := h.kids
  have h4 := queue_le inv
  have h5 := Nat.mul_le_mul_right (1 + Z.regs + n * Z.instrs + (n + 1) * Z.atoms + n * Z.envs) h1
  have h6 : Z.room n = Z.executors n * (1 + Z.regs + n * Z.instrs + (n + 1) * Z.atoms + n * Z.envs) + Z.executors n * 2 + n * Z.instrs := by
    rw [Sizes.room, ← Nat.mul_add]
    congr 2
    omega
  rw [Org.room, hsplit, h6]
  omega

/-- **C70**, executors: after `n` iterations there are at most `1 + n * b` executors, if no predicate has more than `b` clauses (and `b` is
at least 1), and every executor but the first is a child of one. -/
theorem C70_executors {o0 o o' : Org} {ord parsed fuel hist Z} (hr : Reach o0) (hl : o0.loadQuery ord parsed = (o, .ok)) (hz : o.Within Z)
    (h : Runs fuel o hist o') : o'.execs.length ≤ 1 + hist.length * max 1 Z.clauses ∧ (o'.execs.map (·.children.length)).sum + 1 = o'.execs.length := by
  have hr' : Reach o := by have := Reach.query ord parsed hr; rwa [hl] at this
  have := MemHeld.runs hr'.rinv (.loaded hl hz) h
  exact ⟨this.execs, this.kids⟩

/-- **C70**, heap: after `n` iterations the heaps of all executors together have at most `n * k` cells, if no atom has more than `k`
instructions; nor does an executor see more cells than that. -/
theorem C70_cells {o0 o o' : Org} {ord parsed fuel hist Z} (hr : Reach o0) (hl : o0.loadQuery ord parsed = (o, .ok)) (hz : o.Within Z)
    (h : Runs fuel o hist o') : (o'.execs.map (·.hp.own.length)).sum ≤ hist.length * Z.instrs ∧
      ∀ e ∈ o'.execs, e.hp.size ≤ hist.length * Z.instrs ∧ distinct (e.hp.changes.map (·.1)) ≤ hist.length * Z.instrs := by
  have hr' : Reach o := by have := Reach.query ord parsed hr; rwa [hl] at this
  have := MemHeld.runs hr'.rinv (.loaded hl hz) h
  refine ⟨this.own, fun e he => ?_⟩
  have hE := this.each e he
  refine ⟨hE.size, Nat.le_trans (distinct_le e.hp.start _ fun a ha => ?_) (Nat.le_trans (Nat.le_add_right _ _) hE.size)⟩
  obtain ⟨c, hc, rfl⟩ := List.mem_map.1 ha
  exact hE.below c hc

/-- **C70**: what a query holds after `n` iterations, in numbers. -/
theorem C70_room {o0 o o' : Org} {ord parsed fuel hist Z} (hr : Reach o0) (hl : o0.loadQuery ord parsed = (o, .ok)) (hz : o.Within Z)
    (h : Runs fuel o hist o') : o'.room ≤ Z.room hist.length := by
  have hr' : Reach o := by have := Reach.query ord parsed hr; rwa [hl] at this
  exact MemHeld.room (h.rinv hr'.rinv).inv (MemHeld.runs hr'.rinv (.loaded hl hz) h)

/-! ## Every program and query has sizes -/

theorem le_sum {α} (f : α → Nat) : ∀ {l : List α} {a : α}, a ∈ l → f a ≤ (l.map f).sum
  | x :: l, a, h => by
    simp only [List.map_cons, List.sum_cons]
    rcases List.mem_cons.1 h with rfl | h
    · omega
    · have := le_sum f h
      omega

/-- The sizes of an organizer. -/
def Org.sizes (o : Org) : Sizes :=
  let rules := o.program.flatMap (·.2) ++ [o.query]
  let atoms := rules.flatten
  ⟨(o.program.map (·.2.length)).sum, (rules.map List.length).sum, (atoms.map (·.instrs.length)).sum, (atoms.map (·.regCount)).sum, (atoms.map (madeEnvs ·.instrs)).sum⟩

theorem Org.within (o : Org) : o.Within o.sizes := by
  have key : ∀ r ∈ o.program.flatMap (·.2) ++ [o.query], ruleWithin o.sizes r := by
    intro r hr
    refine ⟨le_sum (α := Rule) List.length hr, fun a ha => ?_⟩
    have hm : a ∈ (o.program.flatMap (·.2) ++ [o.query]).flatten := List.mem_flatten.2 ⟨r, hr, ha⟩
    exact ⟨le_sum (fun a : CAtom => a.instrs.length) hm, le_sum (·.regCount) hm, le_sum (fun a : CAtom => madeEnvs a.instrs) hm⟩
  refine ⟨fun f rules h => ?_, key _ (by simp)⟩
  have hm : (f, rules) ∈ o.program := by
    simp only [Program.rules?] at h
    obtain ⟨l, r, h, _⟩ := List.lookup_eq_some_iff.1 h
    rw [h]; simp
  refine ⟨le_sum (fun x : FV × List Rule => x.2.length) hm, fun r hr => key r ?_⟩
  simp only [List.mem_append, List.mem_flatMap]
  exact .inl ⟨_, hm, hr⟩

/-- **C70**, what is given back: an alternative that is not worked on any more keeps at most one atom and one environment. -/
theorem C70_given_back {o0 o o' : Org} {ord parsed fuel hist} (hr : Reach o0) (hl : o0.loadQuery ord parsed = (o, .ok))
    (h : Runs fuel o hist o') {e : Exec} (he : e ∈ o'.execs) (hs : e.state ≠ .running) : e.codes.length ≤ 1 ∧ e.envs.length ≤ 1 := by
  have hr' : Reach o := by have := Reach.query ord parsed hr; rwa [hl] at this
  exact (MemHeld.runs hr'.rinv (.loaded hl o.within) h).kept e he hs

theorem Sizes.room_le (Z : Sizes) (n : Nat) :
    Z.room n ≤ ((1 + max 1 Z.clauses) * (3 + Z.regs + Z.instrs + Z.atoms + Z.envs) + Z.instrs) * ((n + 1) * (n + 1)) := by
  have h1 : Z.executors n ≤ (1 + max 1 Z.clauses) * (n + 1) := by
    simp only [Sizes.executors, Nat.add_mul, Nat.mul_add, Nat.mul_comm n]; omega
  have h2 : 3 + Z.regs + n * Z.instrs + (n + 1) * Z.atoms + n * Z.envs ≤ (3 + Z.regs + Z.instrs + Z.atoms + Z.envs) * (n + 1) := by
    simp only [Nat.add_mul, Nat.mul_add, Nat.mul_comm n]; omega
  have h3 : n * Z.instrs ≤ Z.instrs * ((n + 1) * (n + 1)) := by
    rw [Nat.mul_comm]
    exact Nat.mul_le_mul_left _ (Nat.le_trans (Nat.le_succ n) (Nat.le_mul_of_pos_right _ (by omega)))
  rw [Sizes.room, Nat.add_mul ((1 + max 1 Z.clauses) * _) Z.instrs]
  refine Nat.add_le_add ?_ h3
  rw [Nat.mul_mul_mul_comm]
  exact Nat.mul_le_mul h1 h2

/-- **C70**: the memory that a query holds grows at most with the square of the number of iterations: there is a number `C`, depending
only on the program and the query, such that for every `n` at most `C * (n + 1) * (n + 1)` cells and pointers are held after `n` iterations. -/
theorem C70_quadratic {o0 o : Org} {ord parsed} (hr : Reach o0) (hl : o0.loadQuery ord parsed = (o, .ok)) :
    ∃ C, ∀ fuel hist o', Runs fuel o hist o' → o'.room ≤ C * ((hist.length + 1) * (hist.length + 1)) :=
  ⟨_, fun _ _ _ h => Nat.le_trans (C70_room hr hl o.within h) (o.sizes.room_le _)⟩

/-- **C70**, the rest: iterations change nothing but executors, queue and the number of calls; neither the program nor the query nor
the tables of names grow. -/
theorem C70_rest {o0 o o' : Org} {ord parsed fuel hist} (hr : Reach o0) (hl : o0.loadQuery ord parsed = (o, .ok)) (h : Runs fuel o hist o') :
    o' = { o with execs := o'.execs, queue := o'.queue, calls := o'.calls } := by
  have hr' : Reach o := by have := Reach.query ord parsed hr; rwa [hl] at this
  have hi := hr'.rinv
  clear hl hr hr'
  induction h with
  | nil => rfl
  | snoc hrun hq ht ih =>
    rw [ih] at ht hq
    have := turn_desc (by rw [← ih]; exact (hrun.rinv hi).inv) hq ht
    cases this <;> rfl

/-! ## Calls of `get_answer` -/

theorem Runs.append {fuel} {o o1 o2 : Org} {h h'} (a : Runs fuel o h o1) (b : Runs fuel o1 h' o2) : Runs fuel o (h ++ h') o2 := by
  induction b with
  | nil => simpa using a
  | snoc _ hq ht ih => rw [← List.append_assoc]; exact .snoc ih hq ht

theorem getAnswer_runs {fuel} : ∀ {clock : List Bool} {o o' : Org} {r}, o.getAnswer fuel clock = .ok (o', r) → ∃ hist, Runs fuel o hist o' ∧ hist.length ≤ clock.count false := by
  intro clock
  induction clock with
  | nil =>
    intro o o' r h
    unfold Org.getAnswer at h
    split at h <;> (simp only [pure_ok, Prod.mk.injEq] at h; rw [← h.1]; exact ⟨[], .nil, by simp⟩)
  | cons c clock ih =>
    intro o o' r h
    unfold Org.getAnswer at h
    split at h
    · simp only [pure_ok, Prod.mk.injEq] at h; rw [← h.1]; exact ⟨[], .nil, by simp⟩
    · rename_i id q hq
      cases c with
      | true => simp only [pure_ok, Prod.mk.injEq] at h; rw [← h.1]; exact ⟨[], .nil, by simp⟩
      | false =>
        simp only [bind_ok] at h
        obtain ⟨⟨o1, t⟩, h1, h⟩ := h
        have one : Runs fuel o [(id, t)] o1 := by simpa using Runs.snoc .nil hq h1
        cases t with
        | «continue» =>
          obtain ⟨hist, hr, hle⟩ := ih h
          exact ⟨_, one.append hr, by simp; omega⟩
        | answer bs => simp only [pure_ok, Prod.mk.injEq] at h; rw [← h.1]; exact ⟨_, one, by simp⟩
        | error e => simp only [pure_ok, Prod.mk.injEq] at h; rw [← h.1]; exact ⟨_, one, by simp⟩

theorem session_runs {fuel} : ∀ {clocks : List (List Bool)} {o o' : Org} {rs}, o.session fuel clocks = .ok (o', rs) →
    ∃ hist, Runs fuel o hist o' ∧ hist.length ≤ (clocks.map (·.count false)).sum
  | [], o, o', rs, h => by
    simp only [Org.session, pure_ok, Prod.mk.injEq] at h
    rw [← h.1]; exact ⟨[], .nil, by simp⟩
  | c :: cs, o, o', rs, h => by
    simp only [Org.session, bind_ok, pure_ok, Prod.mk.injEq] at h
    obtain ⟨⟨o1, r⟩, h1, ⟨o2, rs2⟩, h2, rfl, _⟩ := h
    obtain ⟨hist, a, ha⟩ := getAnswer_runs h1
    obtain ⟨hist', b, hb⟩ := session_runs h2
    exact ⟨_, a.append b, by simp; omega⟩

/-- **C70** for calls of `get_answer`: the list contains for every call the readings of the clock; `false` means that there is time for
one more iteration. -/
theorem C70_session {o0 o o' : Org} {ord parsed fuel clocks rs} (hr : Reach o0) (hl : o0.loadQuery ord parsed = (o, .ok))
    (h : o.session fuel clocks = .ok (o', rs)) {n : Nat} (hn : (clocks.map (·.count false)).sum ≤ n) : o'.room ≤ o.sizes.room n := by
  obtain ⟨hist, hrun, hle⟩ := session_runs h
  have h1 := C70_room hr hl o.within hrun
  refine Nat.le_trans h1 ?_
  have hle : hist.length ≤ n := by omega
  have hx : o.sizes.executors hist.length ≤ o.sizes.executors n := by
    simp only [Sizes.executors]
    have := Nat.mul_le_mul_right (max 1 o.sizes.clauses) hle
    omega
  have := Nat.mul_le_mul_right o.sizes.instrs hle
  have := Nat.mul_le_mul_right o.sizes.atoms (Nat.succ_le_succ hle)
  have := Nat.mul_le_mul_right o.sizes.envs hle
  simp only [Sizes.room]
  refine Nat.add_le_add (Nat.mul_le_mul hx ?_) (by omega)
  simp only [Nat.succ_eq_add_one] at *
  omega

/-! ## Programs and queries as texts -/

theorem within_of_codes {ord bi st b T} (ho : HashOrder.OK ord) : ∀ {rs : List Rule} {cls : List Clause}, List.Forall₂ (CodeOf ord bi st) rs cls →
    (∀ c ∈ cls, Node.symbolss (c.head :: c.body) ≤ T) → rs.length = cls.length ∧ ∀ r ∈ rs, ruleWithin (textSizes b T) r := by
  intro rs cls h
  induction h with
  | nil => exact fun _ => ⟨rfl, by simp⟩
  | @cons r cl rs cls k _ ih =>
    intro hT
    obtain ⟨k1, k2⟩ := ih fun c hc => hT c (by simp [hc])
    refine ⟨by simp [k1], fun x hx => ?_⟩
    rcases List.mem_cons.1 hx with rfl | hx
    · obtain ⟨s0, s1, k3, _⟩ := k
      exact clause_within ho (by rw [← symbolss_sizes]; exact hT cl (by simp)) k3
    · exact k2 x hx

theorem Serves.within {o0 o : Org} {ord ord' p atoms b T} (hs : Serves o0 ord p) (ho : ord.OK) (ho' : ord'.OK) (hl : o0.loadQuery ord' (some atoms) = (o, .ok))
    (hb : AtMost b (inForce p)) (hT : ∀ c ∈ inForce p, Node.symbolss (c.head :: c.body) ≤ T) (hq : Node.symbolss atoms ≤ T) : o.Within (textSizes b T) := by
  have hi : ServInv o ord p := by have := (Serves.query (ord' := ord') (parsed := some atoms) hs).inv; rwa [hl] at this
  have happ : ∀ c ∈ appendClauses, c ∈ inForce p := fun c hc => List.mem_append_right _ hc
  have hT12 : 12 ≤ T := hT _ (happ ⟨.fn n!"append" [.fn n!"[" [.var n!"X", .var n!"Xs"], .var n!"Ys", .fn n!"[" [.var n!"X", .var n!"Rs"]],
    [.fn n!"append" [.var n!"Xs", .var n!"Ys", .var n!"Rs"]]⟩ (by simp [appendClauses]))
  have hb2 : 2 ≤ b := by
    have := hb ⟨n!"append", 3⟩
    rw [filter_inForce_append] at this
    exact this
  refine ⟨fun f rules h => ?_, ?_⟩
  · by_cases hf : f ∈ builtinFVs
    · have h' := hi.own f hf
      rw [h] at h'
      by_cases ha : f = ⟨n!"append", 3⟩
      · subst ha
        obtain ⟨rs, k1, k2⟩ := hi.builtins.append
        rw [k1] at h'
        cases h'
        obtain ⟨k3, k4⟩ := within_of_codes (b := b) (T := T) (ord := id) (fun l => .refl l) k2 fun c hc => hT c (happ c hc)
        exact ⟨by rw [k3]; exact hb2, k4⟩
      · have : ∃ i : Builtin, f = ⟨i.name, 2⟩ := by
          unfold builtinFVs at hf
          simp only [List.mem_cons, List.not_mem_nil, or_false] at hf
          rcases hf with rfl | rfl | rfl | rfl
          · exact ⟨.is, rfl⟩
          · exact ⟨.eq, rfl⟩
          · exact ⟨.neq, rfl⟩
          · exact absurd rfl ha
        obtain ⟨i, rfl⟩ := this
        obtain ⟨sub, src, k⟩ := hi.builtins.own i
        rw [k] at h'
        cases h'
        refine ⟨by simp [textSizes]; omega, fun r hr => ?_⟩
        simp only [List.mem_singleton] at hr
        subst hr
        refine ⟨by simp [builtinRule, textSizes], fun a ha => ?_⟩
        simp only [builtinRule, List.mem_singleton] at ha
        subst ha
        refine ⟨?_, ?_, ?_⟩ <;> simp [textSizes, madeEnvs] <;> omega
    · have k := hi.rules f hf
      rw [h] at k
      obtain ⟨k3, k4⟩ := within_of_codes (b := b) (T := T) ho k (fun c hc => by
        rw [← filter_inForce_user hf] at hc
        exact hT c (List.mem_filter.1 hc).1)
      refine ⟨?_, k4⟩
      have := hb f
      rw [filter_inForce_user hf] at this
      simp only [Option.getD_some] at k3
      rw [k3]; exact this
  · simp only [loadQuery] at hl
    split at hl
    · simp only [Prod.mk.injEq] at hl
      exact absurd hl.2 (loadErr_ne_ok _)
    · rename_i q st hc
      simp only [Prod.mk.injEq, and_true] at hl
      subst hl
      exact query_within ho' (by rw [← symbolss_sizes]; exact hq) hc

/-- **C70** for programs and queries as texts: if no predicate has more than `b` clauses, and no clause has more than `T` symbols, nor has the
query, then after `n` iterations there are at most `1 + n * b` executors, their heaps have together at most `n * (2 * T + 2)` cells, and everything
together is at most `(b + 1) * (8 * T + 10) * (n + 1) * (n + 1)` cells and pointers. -/
theorem C70_text {o0 o o' : Org} {ord ord' p atoms b T fuel hist} (hs : Serves o0 ord p) (ho : ord.OK) (ho' : ord'.OK) (hl : o0.loadQuery ord' (some atoms) = (o, .ok))
    (hb : AtMost b (inForce p)) (hT : ∀ c ∈ inForce p, Node.symbolss (c.head :: c.body) ≤ T) (hq : Node.symbolss atoms ≤ T) (h : Runs fuel o hist o') :
    o'.execs.length ≤ 1 + hist.length * b ∧ (o'.execs.map (·.hp.own.length)).sum ≤ hist.length * (2 * T + 2) ∧
    o'.room ≤ (b + 1) * (8 * T + 10) * ((hist.length + 1) * (hist.length + 1)) := by
  have hz := hs.within ho ho' hl hb hT hq
  have hb2 : 2 ≤ b := by
    have := hb ⟨n!"append", 3⟩
    rw [filter_inForce_append] at this
    exact this
  have h1 := (C70_executors hs.reach hl hz h).1
  have hm : max 1 (textSizes b T).clauses = b := Nat.max_eq_right (by simp only [textSizes]; omega)
  rw [hm] at h1
  refine ⟨h1, (C70_cells hs.reach hl hz h).1, Nat.le_trans (C70_room hs.reach hl hz h) (Nat.le_trans ((textSizes b T).room_le _) (Nat.mul_le_mul_right _ ?_))⟩
  rw [hm]
  simp only [textSizes]
  have e1 : 3 + (2 * T + 1) + (2 * T + 2) + (T + 1) + (T + 1) = 6 * T + 8 := by omega
  have e2 : (b + 1) * (8 * T + 10) = (1 + b) * (6 * T + 8) + (1 + b) * (2 * T + 2) := by
    rw [← Nat.mul_add, Nat.add_comm b 1]
    congr 1
    omega
  rw [e1, e2]
  exact Nat.add_le_add_left (Nat.le_mul_of_pos_left _ (by omega)) _

namespace Demo
/-- `p(X) :- p(f(X)), q(X).  p(a).  q(Y).` -/
def progGrow : List Clause :=
  [⟨.fn n!"p" [.var n!"X"], [.fn n!"p" [.fn n!"f" [.var n!"X"]], .fn n!"q" [.var n!"X"]]⟩, ⟨.fn n!"p" [.cons n!"a"], []⟩, ⟨.fn n!"q" [.var n!"Y"], []⟩]

def askGrow : List Node := [.fn n!"p" [.var n!"Z"]]

/-- Executors, cells of all heaps, the largest number of atoms left, the largest size of the environments of an executor, and everything together,
after `n` iterations. -/
def grow (n : Nat) : Option (List Nat) :=
  match (demo progGrow askGrow).iterate 50 n with
  | .ok (o, _) => some [o.execs.length, (o.execs.map (·.hp.own.length)).sum, (o.execs.map (·.codes.length)).foldl max 0, (o.execs.map Exec.envRoom).foldl max 0, o.room]
  | .error _ => none
end Demo

open Demo in
/-- All hypotheses of `C70_text` hold of this program and this query. -/
theorem C70_sample : (∃ o0, Serves o0 id progGrow ∧ HashOrder.OK id ∧ o0.loadQuery id (some askGrow) = (demo progGrow askGrow, .ok)) ∧
    AtMost 2 (inForce progGrow) ∧ (∀ c ∈ inForce progGrow, Node.symbolss (c.head :: c.body) ≤ 12) ∧ Node.symbolss askGrow ≤ 12 :=
  ⟨⟨_, .program (o := Org.init0) (ord := id) (.init Org.init_eq) (Prod.ext rfl (by decide +kernel)), HashOrder.id_ok, Prod.ext rfl (by decide +kernel)⟩,
    EffortExamples.atMost_of (by decide +kernel), by
      have : (inForce progGrow).all fun c => decide (Node.symbolss (c.head :: c.body) ≤ 12) := by decide +kernel
      intro c hc
      exact of_decide_eq_true (List.all_eq_true.1 this c hc), by decide +kernel⟩

open Demo in
/-- The search for this query goes on and on, and what it holds does grow: not only executors, but also the atoms and environments of one executor. -/
theorem C70_grows : grow 0 = some [1, 0, 1, 0, 3] ∧ grow 10 = some [12, 8, 10, 6, 110] ∧ grow 20 = some [22, 14, 15, 14, 208] ∧
    grow 40 = some [42, 28, 30, 26, 410] := by decide +kernel

end PBfs
