import Verif.Proof.Tree2
/-! # The unification tree -/
namespace PBfs
open Org

/-! ## Numbers -/

mutual
theorem UTree.ids_up : ∀ (t : UTree), (t.nodes.map (·.info.id)).Pairwise (· < ·) → ∀ s ∈ t.nodes, ∀ k ∈ s.kids, s.info.id < k.info.id
  | .node i ks, h, s, hs, k, hk => by
    simp only [nodes, List.map_cons, List.pairwise_cons, info_node] at h
    simp only [nodes, List.mem_cons] at hs
    rcases hs with rfl | hs
    · exact h.1 _ (List.mem_map_of_mem (f := fun t : UTree => t.info.id) (mem_nodess.2 ⟨k, hk, k.self_mem⟩))
    · exact UTree.ids_ups ks h.2 s hs k hk
theorem UTree.ids_ups : ∀ (ts : List UTree), ((nodess ts).map (·.info.id)).Pairwise (· < ·) → ∀ s ∈ nodess ts, ∀ k ∈ s.kids, s.info.id < k.info.id
  | [], _, s, hs, _, _ => by simp [nodess] at hs
  | t :: ts, h, s, hs, k, hk => by
    simp only [nodess, List.map_append, List.pairwise_append] at h
    simp only [nodess, List.mem_append] at hs
    rcases hs with hs | hs
    · exact UTree.ids_up t h.1 s hs k hk
    · exact UTree.ids_ups ts h.2.1 s hs k hk
end

/-- **C33.** The nodes of the unification tree have the numbers 0, 1, 2, …, without gaps and without repetition, in
the order in which the tree is read; the number of a node is smaller than those of its children. -/
theorem C33_numbers {o : Org} {fuel t} (h : o.unificationTree fuel = .ok t) :
    t.nodes.map (·.info.id) = List.range t.nodes.length ∧ ∀ s ∈ t.nodes, ∀ k ∈ s.kids, s.info.id < k.info.id := by
  obtain ⟨t0, c, h1, h2, _⟩ := unificationTree_skel h
  obtain ⟨d, rfl, k1⟩ := goalTree_ids _ _ _ _ _ h1
  have e : t.nodes.map (·.info.id) = t0.nodes.map (·.info.id) := by
    have key : ∀ l : List UTree, l.map (·.info.id) = (l.map UTree.skel).map (·.info.id) := by
      intro l
      rw [List.map_map]
      apply List.map_congr_left
      intro u _
      exact u.skel_info.2.1.symm
    rw [key, ← UTree.nodes_skel, h2, UTree.nodes_skel, ← key]
  have hl : t.nodes.length = d := by
    have := congrArg List.length (e.trans k1)
    simpa using this
  have hr : t.nodes.map (·.info.id) = List.range t.nodes.length := by rw [e, k1, hl, List.range_eq_range']
  exact ⟨hr, t.ids_up (by rw [hr]; exact List.pairwise_lt_range)⟩

/-- **C33.** At every moment of every history the unification tree shows the whole search: the root is the executor of
the query; the children of a node are exactly the executors it created, in order; goals and alternatives
take turns, and an alternative has at most one continuation; and every executor there is has exactly one node. -/
theorem C33_every_alternative_once {o : Org} {fuel t} (hr : Reach o) (h : o.unificationTree fuel = .ok t) :
    t.info.exec = 0 ∧ t.info.goal = true ∧
    (∀ s ∈ t.nodes, s.kids.map (·.info.exec) = createdBy o.execs s.info.exec ∧ (∀ k ∈ s.kids, k.info.goal = !s.info.goal) ∧
      (s.info.goal = false → s.kids.length ≤ 1)) ∧
    (t.nodes.map (·.info.exec)).Nodup ∧ ∀ j, (∃ s ∈ t.nodes, s.info.exec = j) ↔ j < o.execs.length := by
  obtain ⟨lab, hk⟩ := hr.kinv
  have inv := hr.finv.rinv.inv
  obtain ⟨h0, h1, h2⟩ := tree_nodes hk inv h
  have hkids : ∀ s ∈ t.nodes, s.kids.map (·.info.exec) = createdBy o.execs s.info.exec := fun s hs => (h2 s hs).kids
  refine ⟨h0, h1, fun s hs => ⟨hkids s hs, (h2 s hs).alt, fun hg => ?_⟩, t.execs_nodup inv.parLt hkids, fun j => ⟨?_, tree_complete hk inv h0 hkids j⟩⟩
  · obtain ⟨e, he⟩ := (h2 s hs).ex
    have hl : s.kids.length = (createdBy o.execs s.info.exec).length := by rw [← hkids s hs, List.length_map]
    by_cases ha : e.state = .archived
    · obtain ⟨k, hk'⟩ := hk.one _ _ he ((h2 s hs).lab.trans hg) ha
      rw [hl, ← hk.kids _ _ he, hk']; simp
    · rw [hl, hk.unarchived inv he ha]; simp
  · rintro ⟨s, hs, rfl⟩
    obtain ⟨e, he⟩ := (h2 s hs).ex
    exact (List.getElem?_eq_some_iff.1 he).1

/-! ## What the alternatives are -/

theorem Serves.turn {o o' : Org} {ord p fuel r} (h : Serves o ord p) (ht : o.turn fuel = .ok (o', r)) : Serves o' ord p := by
  cases hq : o.queue with
  | nil =>
    simp only [Org.turn, hq, pure_ok, Prod.mk.injEq] at ht
    rw [← ht.1]; exact h
  | cons id q =>
    have : ∃ r', o.getAnswer fuel [false] = .ok (o', r') := by
      unfold Org.getAnswer
      rw [hq]
      simp only [ht, ok_bind]
      cases r with
      | «continue» =>
        simp only
        unfold Org.getAnswer
        split <;> exact ⟨_, rfl⟩
      | answer => exact ⟨_, rfl⟩
      | error => exact ⟨_, rfl⟩
    obtain ⟨r', h'⟩ := this
    exact .answer h h'

/-- The executors created for a goal that has been called are one for every clause in force with its name and arity. -/
def Tried (p : List Clause) (l : List Exec) : Prop :=
  ∀ (id : Nat) (e : Exec) (a : CAtom) (g : Node), l[id]? = some e → e.state ≠ .running → e.top = some a → a.goal? = some g →
    (g.fv ∉ [⟨n!"is", 2⟩, ⟨n!"==", 2⟩, ⟨n!"\\==", 2⟩] →
      List.Forall₂ (fun j cl => ∃ e' a', l[j]? = some e' ∧ e'.top = some a' ∧ a'.head? = some cl.head) (createdBy l id)
        ((inForce p).filter (·.head.fv = g.fv))) ∧
    (g.fv ∈ [⟨n!"is", 2⟩, ⟨n!"==", 2⟩, ⟨n!"\\==", 2⟩] → (createdBy l id).length = 1)

/-- What is at the front of an executor stays there, except for bookkeeping at the executor at work. -/
theorem turn_top {o o' : Org} {fuel id q r} (hf : FInv o) (hq : o.queue = id :: q) (ht : o.turn fuel = .ok (o', r)) {e e' : Exec}
    (he : o.execs[id]? = some e) (he' : o'.execs[id]? = some e') : (e'.top = e.top) ∨ (e.top = some deallocAtom ∧ e'.state = .running) := by
  have inv := hf.rinv.inv
  obtain ⟨e2, he2, hrun, _⟩ := inv.qrun id (by simp [hq])
  rw [he] at he2; cases he2
  have hlt : id < o.execs.length := (List.getElem?_eq_some_iff.1 he).1
  cases hc : e.codes with
  | nil => simp [Org.turn, hq, turnOf, Org.exec, he, hc] at ht
  | cons t ts =>
    have key : ∀ {x : Exec}, (o'.execs = o.execs.set id x ∨ ∃ news, o'.execs = o.execs.set id x ++ news) → e' = x := by
      rintro x (hx | ⟨news, hx⟩)
      · rw [hx, List.getElem?_set_self hlt] at he'; cases he'; rfl
      · rw [hx, List.getElem?_append_left (by simpa using hlt), List.getElem?_set_self hlt] at he'; cases he'; rfl
    rcases hf.front hq he hc with ⟨ds, h1, h2, _, _⟩ | hg | ⟨h1, env, es', h2, h3⟩
    · obtain ⟨e1, hr, hst, hx⟩ := turn_proceed inv hq he hc h1 h2 ht
      have hcod : e1.codes = t :: ts := (runData_frame hr).codes.trans hc
      left
      rcases hx with ⟨_, _, rfl⟩ | ⟨_, _, _, _, rfl⟩ | ⟨_, _, _, rfl⟩ | ⟨_, _, _, rfl⟩
      · rw [key (.inl rfl)]; simp [Exec.top, Exec.clear, hcod, hc]
      · rw [key (.inl rfl)]; simp [Exec.top, Exec.clear, hcod, hc]
      · rw [key (.inl rfl)]; simp [Exec.top, Exec.clear, hcod, hc]
      · rw [key (.inr ⟨_, rfl⟩)]; simp [Exec.top, hcod, hc]
    · obtain ⟨ds, h1, h2, _, h3⟩ := hg
      obtain ⟨e1, hr, _, hst, hx⟩ := turn_call inv hq he hc h1 h2 (fun e1 hr => (h3 _ _ _ (e.start t.atom) _ rfl hrun hr).1) ht
      have hcod : e1.codes = t :: ts := (runData_frame hr).codes.trans hc
      left
      rcases hx with ⟨_, rfl⟩ | ⟨rules, hrl, rfl⟩
      · rw [key (.inl rfl)]; simp [Exec.top, Exec.clear, Exec.setFailed, hcod, hc]
      · rw [key (.inr ⟨_, rfl⟩)]; simp [Exec.top, Exec.clear, hcod, hc]
    · obtain ⟨env', es2, k1, _, _, rfl⟩ := turn_dealloc inv hq he hc (by rw [h1]; rfl) ht
      right
      rw [key (.inl rfl)]
      simp [Exec.top, hc, h1, Exec.start, hrun]

theorem createdBy_turn {o o' : Org} {fuel id q r} (inv : o.Inv) (hq : o.queue = id :: q) (ht : o.turn fuel = .ok (o', r)) :
    (∀ j, j ≠ id → j < o.execs.length → createdBy o'.execs j = createdBy o.execs j) ∧
    ∀ (j : Nat) (e : Exec), o.execs.length ≤ j → o'.execs[j]? = some e → e.state = .running := by
  have none : ∀ {l : List Exec} {e' : Exec} (j : Nat) (e : Exec), l.length ≤ j → (l.set id e')[j]? = some e → e.state = .running := by
    intro l e' j e hj hx
    rw [List.getElem?_eq_none (by simpa using hj)] at hx
    cases hx
  cases turn_desc inv hq ht with
  | died he hp => exact ⟨fun j _ _ => createdBy_set he hp j, none⟩
  | error he hp => exact ⟨fun j _ _ => createdBy_set he hp j, none⟩
  | success he hp => exact ⟨fun j _ _ => createdBy_set he hp j, none⟩
  | requeue he hp => exact ⟨fun j _ _ => createdBy_set he hp j, none⟩
  | spawn he hp hs hk hn =>
    refine ⟨fun j hj _ => ?_, fun j e hj hx => ?_⟩
    · simp only
      rw [createdBy_append (fun n hm => (hn n hm).1), createdBy_set he hp, if_neg hj, List.append_nil]
    · simp only at hx
      rw [List.getElem?_append_right (by simpa using hj)] at hx
      exact (hn _ (List.mem_of_getElem? hx)).2.1

theorem Forall₂.mono_mem {R S : α → β → Prop} {as : List α} {bs : List β} (h : List.Forall₂ R as bs)
    (hm : ∀ a b, R a b → S a b) : List.Forall₂ S as bs := by
  induction h with
  | nil => exact .nil
  | cons h _ ih => exact .cons (hm _ _ h) ih

theorem Tried.turn {o o' : Org} {ord p fuel r} (h : Tried p o.execs) (hs : Serves o ord p) (ht : o.turn fuel = .ok (o', r)) : Tried p o'.execs := by
  cases hq : o.queue with
  | nil =>
    simp only [Org.turn, hq, pure_ok, Prod.mk.injEq] at ht
    rw [← ht.1]; exact h
  | cons id q =>
    have hf := hs.reach.finv
    have inv := hf.rinv.inv
    obtain ⟨e, he, hrun, _⟩ := inv.qrun id (by simp [hq])
    have hlt : id < o.execs.length := (List.getElem?_eq_some_iff.1 he).1
    have fr := turn_frame inv hq ht
    obtain ⟨hcb, hnew⟩ := createdBy_turn inv hq ht
    obtain ⟨e', he', _⟩ := fr.par id e he
    -- heads stay
    have keep : ∀ (j : Nat) (cl : Clause), (∃ x a, o.execs[j]? = some x ∧ x.top = some a ∧ a.head? = some cl.head) →
        ∃ x a, o'.execs[j]? = some x ∧ x.top = some a ∧ a.head? = some cl.head := by
      rintro j cl ⟨x, a, h1, h2, h3⟩
      by_cases hj : j = id
      · subst hj
        rw [he] at h1; cases h1
        rcases turn_top hf hq ht he he' with h4 | ⟨h4, _⟩
        · exact ⟨e', a, he', h4.trans h2, h3⟩
        · rw [h4] at h2; cases h2
          rw [dealloc_kind.2] at h3; cases h3
      · exact ⟨x, a, by rw [fr.same j hj (List.getElem?_eq_some_iff.1 h1).1]; exact h1, h2, h3⟩
    intro j x a g hx hst htop hg
    by_cases hj : j = id
    · subst hj
      rw [he'] at hx; cases hx
      rcases turn_top hf hq ht he he' with h4 | ⟨_, h4⟩
      · cases hc : e.codes with
        | nil => rw [h4, Exec.top, hc] at htop; cases htop
        | cons t ts =>
          have hta : t.atom = a := by rw [h4, Exec.top, hc] at htop; simpa using htop
          subst hta
          obtain ⟨_, e2, news, k1, k2, k3', k4, k5, k6⟩ := C23_one_alternative_per_clause hs hq he hc hg ht
          have hp2 : e2.parent = e.parent := by
            obtain ⟨y, y1, y2⟩ := fr.par j e he
            rw [k1, List.getElem?_append_left (by simpa using hlt), List.getElem?_set_self hlt] at y1
            cases y1; exact y2
          have hpn : ∀ n ∈ news, n.parent = some j := by
            intro n hn
            obtain ⟨i, hi⟩ := List.mem_iff_getElem?.1 hn
            refine fr.new (o.execs.length + i) n (by omega) ?_
            rw [k1, List.getElem?_append_right (by simp)]
            simpa using hi
          have hcbj : createdBy o'.execs j = List.range' o.execs.length news.length := by
            rw [k1, createdBy_append hpn, createdBy_set he hp2, if_pos rfl, List.length_set]
            have : createdBy o.execs j = [] := by
              rw [List.eq_nil_iff_forall_not_mem]
              intro k hk
              obtain ⟨y, y1, y2⟩ := mem_createdBy.1 hk
              exact inv.no_child (by simp [hq]) y1 y2
            rw [this, List.nil_append]
          rw [hcbj]
          refine ⟨fun hb => ?_, fun hb => by rw [List.length_range', k4 hb]⟩
          have hnews : ∀ i n, news[i]? = some n → o'.execs[o.execs.length + i]? = some n := by
            intro i n hi
            rw [k1, List.getElem?_append_right (by simp)]
            simpa using hi
          have k3 := k3' hb
          generalize o.execs.length = m at hnews ⊢
          clear k1 k2 k3' k4 k5 k6 hpn hcbj
          generalize (inForce p).filter (·.head.fv = g.fv) = cls at k3 ⊢
          induction k3 generalizing m with
          | nil => exact .nil
          | @cons n cl news cls k _ ih =>
            refine .cons ?_ (ih (m + 1) fun i n hi => ?_)
            · obtain ⟨_, _, t', cs, c1, c2, _⟩ := k
              exact ⟨n, t'.atom, hnews 0 n rfl, by simp [Exec.top, c1], c2⟩
            · have := hnews (i + 1) n hi
              rwa [show m + 1 + i = m + (i + 1) by omega]
      · exact absurd h4 hst
    · rcases Nat.lt_or_ge j o.execs.length with hl | hl
      · rw [fr.same j hj hl] at hx
        obtain ⟨a1, a2⟩ := h j x a g hx hst htop hg
        rw [hcb j hj hl]
        exact ⟨fun hb => Forall₂.mono_mem (a1 hb) keep, a2⟩
      · exact absurd (hnew j x hl hx) hst

theorem loaded_execs {o0 o : Org} {ord q} (h : o0.loadQuery ord (some q) = (o, .ok)) : ∃ r, o.execs = [initExec r] := by
  unfold Org.loadQuery at h
  simp only at h
  split at h
  · rename_i e st _
    simp only [Prod.mk.injEq] at h
    cases e <;> simp [Load.ofErr] at h
  · simp only [Prod.mk.injEq] at h
    rw [← h.1]; exact ⟨_, rfl⟩

/-- **C33.** In the tree shown while a query is worked on, a goal that has been called has one child for every clause
in force with its name and arity, in the order of the text (and exactly one child if the predicate is implemented in
C++): the alternatives tried are all there, nothing else is.  A goal that has not been called yet has no children. -/
theorem C33_one_child_per_clause {o0 o o' : Org} {ord ord' p q fuel fuel' hist t} (h0 : Serves o0 ord p)
    (hl : o0.loadQuery ord' (some q) = (o, .ok)) (hr : Runs fuel o hist o') (ht : o'.unificationTree fuel' = .ok t)
    {s : UTree} (hs : s ∈ t.nodes) (hg : s.info.goal = true) :
    ∃ e, o'.execs[s.info.exec]? = some e ∧ (e.state = .running → s.kids = []) ∧ (e.state ≠ .running → ∃ a g, e.top = some a ∧ a.goal? = some g ∧
      (g.fv ∉ [⟨n!"is", 2⟩, ⟨n!"==", 2⟩, ⟨n!"\\==", 2⟩] →
        List.Forall₂ (fun k cl => ∃ e' a', o'.execs[k.info.exec]? = some e' ∧ e'.top = some a' ∧ a'.head? = some cl.head) s.kids
          ((inForce p).filter (·.head.fv = g.fv))) ∧
      (g.fv ∈ [⟨n!"is", 2⟩, ⟨n!"==", 2⟩, ⟨n!"\\==", 2⟩] → s.kids.length = 1)) := by
  have hs1 : Serves o ord p := by have := Serves.query (ord' := ord') (parsed := some q) h0; rwa [hl] at this
  have hs2 : Serves o' ord p ∧ Tried p o'.execs := by
    clear ht
    induction hr with
    | nil =>
      refine ⟨hs1, ?_⟩
      obtain ⟨r, hx⟩ := loaded_execs hl
      intro id e a g he hst
      rw [hx] at he
      cases id with
      | zero => simp at he; subst he; exact absurd rfl hst
      | succ id => simp at he
    | snoc _ _ htn ih =>
      exact ⟨ih.1.turn htn, ih.2.turn ih.1 htn⟩
  obtain ⟨hs', htr⟩ := hs2
  obtain ⟨lab, hk⟩ := hs'.reach.kinv
  have inv := hs'.reach.finv.rinv.inv
  obtain ⟨_, _, h2⟩ := tree_nodes hk inv ht
  have hn := h2 s hs
  obtain ⟨e, he⟩ := hn.ex
  have hlen : s.kids.length = (createdBy o'.execs s.info.exec).length := by rw [← hn.kids, List.length_map]
  refine ⟨e, he, fun hrun => ?_, fun hst => ?_⟩
  · have := hk.unarchived inv he (by simp [hrun])
    rw [this] at hlen
    exact List.length_eq_zero_iff.1 hlen
  · obtain ⟨_, a, g, k1, k2⟩ := hk.called _ _ he (hn.lab.trans hg) hst
    obtain ⟨k3, k4⟩ := htr _ e a g he hst k1 k2
    refine ⟨a, g, k1, k2, fun hb => ?_, fun hb => hlen.trans (k4 hb)⟩
    have k3 := k3 hb
    rw [← hn.kids] at k3
    generalize (inForce p).filter (·.head.fv = g.fv) = cls at k3 ⊢
    generalize s.kids = ks at k3 ⊢
    clear hlen k4
    induction ks generalizing cls with
    | nil => cases k3; exact .nil
    | cons k ks ih =>
      rw [List.map_cons] at k3
      cases k3 with
      | cons h1 h2 => exact .cons h1 (ih _ h2)

/-! ## Answers -/

/-- What an executor that has finished reports does not depend on work elsewhere. -/
theorem answer_isolated {o o' : Org} {fuel id} (hpl : ParLt o.execs) (hnc : ∀ (j : Nat) (e : Exec), o.execs[j]? = some e → e.parent ≠ some id)
    (hs : ∀ (j : Nat), j ≠ id → j < o.execs.length → o'.execs[j]? = o.execs[j]?) (hg : o'.gen = o.gen) (hst : o'.st = o.st) {k : Nat}
    (hk : k ≠ id) (hlt : k < o.execs.length) : o'.answer fuel k = o.answer fuel k := by
  have hsub : ∀ n p, p ≠ id → p < o.execs.length → o'.collectSubs n p = o.collectSubs n p := by
    intro n
    induction n with
    | zero => intros; rfl
    | succ n ih =>
      intro p hp hpl'
      rw [Org.collectSubs, Org.collectSubs]
      simp only [Org.exec]
      rw [hs p hp hpl']
      cases he : o.execs[p]? with
      | none => rfl
      | some e =>
        simp only [orFault_some, ok_bind]
        split
        · rename_i t _
          have hc : o'.code t = o.code t := by simp [Org.code, Org.stale, hg]
          rw [hc]
          cases o.code t with
          | error => rfl
          | ok a =>
            simp only [ok_bind]
            congr 1
            funext subs
            cases hq : e.parent with
            | none => rfl
            | some q =>
              simp only
              have l1 := hpl _ _ _ he hq
              rw [hs q (fun h => hnc _ _ he (h ▸ hq)) (by omega)]
              cases hf : o.execs[q]? with
              | none => rfl
              | some f =>
                simp only [orFault_some, ok_bind]
                cases hr : f.parent with
                | none => rfl
                | some r =>
                  simp only
                  have l2 := hpl _ _ _ hf hr
                  rw [ih r (fun h => hnc _ _ hf (h ▸ hr)) (by omega)]
        · rfl
  unfold Org.answer
  simp only [Org.exec]
  rw [hs k hk hlt]
  cases he : o.execs[k]? with
  | none => rfl
  | some e =>
    simp only [orFault_some, ok_bind]
    cases hp : e.parent with
    | none => rfl
    | some p =>
      simp only
      have hne : p ≠ id := fun h => hnc _ _ he (h ▸ hp)
      have l1 := hpl _ _ _ he hp
      rw [hsub _ _ hne (by omega), hst]
      have : preOf o'.execs e = preOf o.execs e := by
        unfold preOf
        rw [hp]
        funext a
        exact heapAtF_isolated hpl hnc hs _ _ _ hne (by omega)
      rw [this]

theorem getElem?_set_append {l news : List α} {x : α} {id : Nat} (h : id < l.length) : (l.set id x ++ news)[id]? = some x := by
  rw [List.getElem?_append_left (by simpa using h), List.getElem?_set_self h]

/-- The answers reported are those of the executors that succeeded. -/
structure AInv (fuel : Nat) (o : Org) (hist : List (Nat × Org.Turn)) : Prop where
  told : ∀ (k : Nat) bs, (k, Org.Turn.answer bs) ∈ hist → ∃ e, o.execs[k]? = some e ∧ e.state = .success ∧ o.answer fuel k = .ok bs
  all : ∀ (k : Nat) (e : Exec), o.execs[k]? = some e → e.state = .success → ∃ bs, (k, Org.Turn.answer bs) ∈ hist

theorem AInv.turn {fuel} {o o' : Org} {hist id q r} (h : AInv fuel o hist) (hf : FInv o) (hq : o.queue = id :: q) (ht : o.turn fuel = .ok (o', r)) :
    AInv fuel o' (hist ++ [(id, r)]) := by
  have inv := hf.rinv.inv
  obtain ⟨e, he, hrun, _⟩ := inv.qrun id (by simp [hq])
  have hlt : id < o.execs.length := (List.getElem?_eq_some_iff.1 he).1
  have fr := turn_frame inv hq ht
  obtain ⟨_, hnew⟩ := createdBy_turn inv hq ht
  obtain ⟨_, _, hst, hg, _⟩ := turn_builtins inv ht
  have iso : ∀ k, k ≠ id → k < o.execs.length → o'.answer fuel k = o.answer fuel k := fun k h1 h2 =>
    answer_isolated inv.parLt (fun j e h => inv.no_child (by simp [hq]) h) fr.same hg hst h1 h2
  -- what the executor at work reports
  have own : ∃ e', o'.execs[id]? = some e' ∧ ((∃ bs, r = .answer bs ∧ e'.state = .success ∧ o'.answer fuel id = .ok bs) ∨
      (e'.state ≠ .success ∧ ∀ bs, r ≠ .answer bs)) := by
    cases hc : e.codes with
    | nil => simp [Org.turn, hq, turnOf, Org.exec, he, hc] at ht
    | cons t ts =>
      rcases hf.front hq he hc with ⟨ds, h1, h2, _, _⟩ | hg | ⟨h1, env, es', h2, h3⟩
      · obtain ⟨e1, hr, _, hx⟩ := turn_proceed inv hq he hc h1 h2 ht
        rcases hx with ⟨k1, rfl, rfl⟩ | ⟨_, k1, _, rfl, rfl⟩ | ⟨_, _, ⟨bs, rfl, k2⟩, rfl⟩ | ⟨_, _, rfl, rfl⟩
        · exact ⟨_, List.getElem?_set_self hlt, .inr ⟨by simp [Exec.clear, k1], by simp⟩⟩
        · exact ⟨_, List.getElem?_set_self hlt, .inr ⟨by simp [Exec.clear, k1], by simp⟩⟩
        · exact ⟨_, List.getElem?_set_self hlt, .inl ⟨bs, rfl, rfl, k2⟩⟩
        · exact ⟨_, getElem?_set_append hlt, .inr ⟨by simp, by simp⟩⟩
      · obtain ⟨ds, h1, h2, _, h3⟩ := hg
        obtain ⟨e1, hr, rfl, _, hx⟩ := turn_call inv hq he hc h1 h2 (fun e1 hr => (h3 _ _ _ (e.start t.atom) _ rfl hrun hr).1) ht
        rcases hx with ⟨_, rfl⟩ | ⟨rules, hrl, rfl⟩
        · exact ⟨_, List.getElem?_set_self hlt, .inr ⟨by simp [Exec.clear, Exec.setFailed], by simp⟩⟩
        · exact ⟨_, getElem?_set_append hlt, .inr ⟨by simp, by simp⟩⟩
      · obtain ⟨env', es2, k1, rfl, _, rfl⟩ := turn_dealloc inv hq he hc (by rw [h1]; rfl) ht
        exact ⟨_, List.getElem?_set_self hlt, .inr ⟨by simp [Exec.start, hrun], by simp⟩⟩
  obtain ⟨e', he', hown⟩ := own
  refine ⟨fun k bs hm => ?_, fun k x hx hs => ?_⟩
  · simp only [List.mem_append, List.mem_singleton, Prod.mk.injEq] at hm
    rcases hm with hm | ⟨rfl, hr⟩
    · obtain ⟨x, h1, h2, h3⟩ := h.told k bs hm
      have hne : k ≠ id := by rintro rfl; rw [he] at h1; cases h1; rw [hrun] at h2; cases h2
      have hl : k < o.execs.length := (List.getElem?_eq_some_iff.1 h1).1
      exact ⟨x, by rw [fr.same k hne hl]; exact h1, h2, by rw [iso k hne hl]; exact h3⟩
    · rcases hown with ⟨bs', h1, h2, h3⟩ | ⟨_, h2⟩
      · rw [h1] at hr; cases hr
        exact ⟨e', he', h2, h3⟩
      · exact absurd hr.symm (h2 bs)
  · by_cases hne : k = id
    · subst hne
      rw [he'] at hx; cases hx
      rcases hown with ⟨bs', h1, h2, h3⟩ | ⟨h2, _⟩
      · exact ⟨bs', by simp [h1]⟩
      · exact absurd hs h2
    · rcases Nat.lt_or_ge k o.execs.length with hl | hl
      · rw [fr.same k hne hl] at hx
        obtain ⟨bs, hb⟩ := h.all k x hx hs
        exact ⟨bs, by simp [hb]⟩
      · rw [hnew k x hl hx] at hs; cases hs

/-- **C33.** The final bindings in the tree are exactly the answers that have been reported: those at the node of an
alternative are the answer reported when it succeeded, and every answer reported is there. -/
theorem C33_answers_shown {o0 o o' : Org} {ord q fuel hist t} (h0 : Reach o0) (hl : o0.loadQuery ord (some q) = (o, .ok))
    (hr : Runs fuel o hist o') (ht : o'.unificationTree fuel = .ok t) (k : Nat) (bs : List Binding) :
    (∃ s ∈ t.nodes, s.info.exec = k ∧ s.info.final = some bs) ↔ (k, .answer bs) ∈ hist := by
  have h1 : Reach o := by have := Reach.query ord (some q) h0; rwa [hl] at this
  have hinv : FInv o' ∧ (∃ lab, KInv o' lab) ∧ AInv fuel o' hist := by
    clear ht
    induction hr with
    | nil =>
      refine ⟨h1.finv, h1.kinv, by simp, ?_⟩
      obtain ⟨r, hx⟩ := loaded_execs hl
      intro k e he hst
      rw [hx] at he
      cases k with
      | zero => simp at he; subst he; cases hst
      | succ id => simp at he
    | snoc _ hq htn ih =>
      obtain ⟨i1, ⟨lab, i2⟩, i3⟩ := ih
      exact ⟨i1.turn htn, i2.turn i1 htn, i3.turn i1 hq htn⟩
  obtain ⟨hf, ⟨lab, hk⟩, ha⟩ := hinv
  have inv := hf.rinv.inv
  obtain ⟨t0, t1, h2⟩ := tree_nodes hk inv ht
  constructor
  · rintro ⟨s, hs, rfl, hfin⟩
    have hn := h2 s hs
    obtain ⟨e, he⟩ := hn.ex
    have := hn.final e he
    rw [hfin] at this
    split at this
    · rename_i hc
      obtain ⟨bs1, hb1⟩ := ha.all _ e he hc.2
      obtain ⟨_, _, _, hb2⟩ := ha.told _ _ hb1
      rw [hb2] at this
      simp only [Except.toOption, Option.some.injEq] at this
      rw [this]; exact hb1
    · cases this
  · intro hm
    obtain ⟨e, he, hst, hb⟩ := ha.told k bs hm
    obtain ⟨s, hs, rfl⟩ := tree_complete hk inv t0 (fun s hs => (h2 s hs).kids) k (List.getElem?_eq_some_iff.1 he).1
    refine ⟨s, hs, rfl, ?_⟩
    have hn := h2 s hs
    rw [hn.final e he]
    have hgf : s.info.goal = false := by
      cases hg : s.info.goal with
      | false => rfl
      | true =>
        exact absurd hst (hk.called _ e he (hn.lab.trans hg) (by simp [hst])).1
    rw [if_pos ⟨hgf, hst⟩, hb]; rfl

/-! ## Examples -/

/-- Number, executor, goal or alternative, text, final bindings of a node. -/
structure TreeRow where
  id : Nat
  exec : Nat
  goal : Bool
  title : Name
  final : Option (List Binding)
  deriving DecidableEq

/-- The nodes of the tree after `n` iterations. -/
def treeOf (fuel n : Nat) (o : Org) : Option (List TreeRow) :=
  match o.iterate fuel n with
  | .ok r => match r.1.unificationTree fuel with
    | .ok t => some (t.nodes.map fun s => ⟨s.info.id, s.info.exec, s.info.goal, s.info.title, s.info.final⟩)
    | .error _ => none
  | .error _ => none

/-- The tree for `r(X)` with `p(a). p(b). r(X) :- p(X), q(X). q(b).`: both alternatives for `p(X)` are shown, one
of them fails at `q(a)`, the other one leads to the answer.  Executors are numbered in the order of their creation, nodes
by where they are in the tree. -/
example : treeOf 20 20 (demo Demo.prog [.fn n!"r" [.var n!"X"]]) = some
    [⟨0, 0, true, n!"r(X)", none⟩, ⟨1, 1, false, [], none⟩, ⟨2, 2, true, n!"p(X)", none⟩,
     ⟨3, 3, false, [], none⟩, ⟨4, 5, true, n!"q(a)", none⟩, ⟨5, 7, false, [], none⟩,
     ⟨6, 4, false, [], none⟩, ⟨7, 6, true, n!"q(b)", none⟩, ⟨8, 8, false, [], some [⟨n!"X", n!"b"⟩]⟩] := by decide +kernel

/-- The tree can be asked for in the middle of the search. -/
example : treeOf 20 3 (demo Demo.prog [.fn n!"r" [.var n!"X"]]) = some
    [⟨0, 0, true, n!"r(X)", none⟩, ⟨1, 1, false, [], none⟩, ⟨2, 2, true, n!"p(X)", none⟩, ⟨3, 3, false, [], none⟩, ⟨4, 4, false, [], none⟩] := by
  decide +kernel

/-- After another program has been loaded, the tree of the previous search cannot be asked for: executors still point to
the code of the old program, which does not exist any more. -/
theorem C33_tree_after_load_dangles :
    ∃ o, Reach o ∧ o.unificationTree 20 = .error .dangling := by
  have h : ∃ r, (demo Demo.prog [.fn n!"r" [.var n!"X"]]).getAnswer 20 (List.replicate 20 false) = .ok r ∧
      (r.1.loadProgram id (some [])).1.unificationTree 20 = .error .dangling := by
    have : (match (demo Demo.prog [.fn n!"r" [.var n!"X"]]).getAnswer 20 (List.replicate 20 false) with
      | .ok r => (match (r.1.loadProgram id (some [])).1.unificationTree 20 with | .error f => f == .dangling | _ => false)
      | _ => false) = true := by decide +kernel
    split at this
    · rename_i r hr
      refine ⟨r, hr, ?_⟩
      split at this
      · rename_i f hf; rw [hf]; rw [beq_iff_eq.1 this]
      · cases this
    · cases this
  obtain ⟨r, h1, h2⟩ := h
  exact ⟨_, .program _ _ (.answer (o' := r.1) (r := r.2) (demo_reach _ _) h1), h2⟩

/-- Nor can it be asked for after the memory has been exhausted: the executor of the query stays, but the atoms of the query it
points to are gone. -/
theorem C33_tree_after_memory_dangles :
    ∃ o, Reach o ∧ o.clearMemory.unificationTree 20 = .error .dangling := by
  have h : ∃ r, (demo Demo.prog [.fn n!"r" [.var n!"X"]]).getAnswer 20 (List.replicate 20 false) = .ok r ∧
      r.1.clearMemory.unificationTree 20 = .error .dangling := by
    have : (match (demo Demo.prog [.fn n!"r" [.var n!"X"]]).getAnswer 20 (List.replicate 20 false) with
      | .ok r => (match r.1.clearMemory.unificationTree 20 with | .error f => f == .dangling | _ => false)
      | _ => false) = true := by decide +kernel
    split at this
    · rename_i r hr
      refine ⟨r, hr, ?_⟩
      split at this
      · rename_i f hf; rw [hf]; rw [beq_iff_eq.1 this]
      · cases this
    · cases this
  obtain ⟨r, h1, h2⟩ := h
  exact ⟨_, .answer (o' := r.1) (r := r.2) (demo_reach _ _) h1, h2⟩

end PBfs
