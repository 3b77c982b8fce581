import Verif.Proof.Search
/-! # Order, isolation, and the effect of changing a finished executor -/
namespace PBfs

/-- Executors that exist keep their parents, and stay the same unless it is their turn. -/
structure Frame (o o' : Org) (id : Nat) : Prop where
  len : o.execs.length ≤ o'.execs.length
  par : ∀ (j : Nat) (e : Exec), o.execs[j]? = some e → ∃ e', o'.execs[j]? = some e' ∧ e'.parent = e.parent
  same : ∀ (j : Nat), j ≠ id → j < o.execs.length → o'.execs[j]? = o.execs[j]?
  new : ∀ (j : Nat) (e : Exec), o.execs.length ≤ j → o'.execs[j]? = some e → e.parent = some id

theorem set_frame {l : List Exec} {id : Nat} {e e' : Exec} (he : l[id]? = some e) (hp : e'.parent = e.parent) :
    (∀ (j : Nat) (x : Exec), l[j]? = some x → ∃ x', (l.set id e')[j]? = some x' ∧ x'.parent = x.parent) ∧
    (∀ (j : Nat), j ≠ id → j < l.length → (l.set id e')[j]? = l[j]?) := by
  have hlt := (List.getElem?_eq_some_iff.1 he).1
  constructor
  · intro j x hx
    by_cases hj : id = j
    · subst hj
      rw [he] at hx; cases hx
      exact ⟨e', List.getElem?_set_self hlt, hp⟩
    · exact ⟨x, by rw [List.getElem?_set_ne hj]; exact hx, rfl⟩
  · intro j hj _
    exact List.getElem?_set_ne (Ne.symm hj)

namespace Org

theorem turn_frame {o o' : Org} {fuel id q t} (inv : Inv o) (hq : o.queue = id :: q)
    (h : o.turn fuel = .ok (o', t)) : Frame o o' id := by
  have nonew : ∀ {e' : Exec} (j : Nat) (e : Exec), o.execs.length ≤ j →
      (o.execs.set id e')[j]? = some e → e.parent = some id := by
    intro e' j e hj hx
    rw [List.getElem?_eq_none (by simpa using hj)] at hx
    cases hx
  cases turn_desc inv hq h with
  | died he hp => exact ⟨by simp, (set_frame he hp).1, (set_frame he hp).2, nonew⟩
  | error he hp => exact ⟨by simp, (set_frame he hp).1, (set_frame he hp).2, nonew⟩
  | success he hp => exact ⟨by simp, (set_frame he hp).1, (set_frame he hp).2, nonew⟩
  | requeue he hp => exact ⟨by simp, (set_frame he hp).1, (set_frame he hp).2, nonew⟩
  | @spawn e e' news k he hp hs hk hn =>
    refine ⟨by simp, ?_, ?_, ?_⟩
    · intro j x hx
      obtain ⟨x', h1, h2⟩ := (set_frame he hp).1 j x hx
      exact ⟨x', by rw [List.getElem?_append_left (List.getElem?_eq_some_iff.1 h1).1]; exact h1, h2⟩
    · intro j hj hlt
      rw [List.getElem?_append_left (by simpa using hlt)]
      exact (set_frame he hp).2 j hj hlt
    · intro j x hj hx
      rw [List.getElem?_append_right (by simpa using hj)] at hx
      exact (hn x (List.mem_of_getElem? hx)).1

/-- What a turn does to the queue. -/
theorem turn_queue {o o' : Org} {fuel id q t} (inv : Inv o) (hq : o.queue = id :: q)
    (h : o.turn fuel = .ok (o', t)) :
    (o'.queue = q ++ [id] ∧ o'.execs.length = o.execs.length) ∨
    o'.queue = q ++ List.range' o.execs.length (o'.execs.length - o.execs.length) := by
  cases turn_desc inv hq h with
  | died he hp => right; simp
  | error he hp => right; simp
  | success he hp => right; simp
  | requeue he hp => left; simp
  | spawn he hp hs hk hn => right; simp

end Org

/-! ## What other executors see -/

theorem heapAtF_isolated {l l' : List Exec} {id : Nat} (hpl : ParLt l)
    (hnc : ∀ (j : Nat) (e : Exec), l[j]? = some e → e.parent ≠ some id)
    (hs : ∀ (j : Nat), j ≠ id → j < l.length → l'[j]? = l[j]?) :
    ∀ (n j a : Nat), j ≠ id → j < l.length → heapAtF l' n j a = heapAtF l n j a := by
  intro n
  induction n with
  | zero => intros; rfl
  | succ n ih =>
    intro j a hj hlt
    rw [heapAtF, heapAtF, hs j hj hlt]
    cases he : l[j]? with
    | none => rfl
    | some e =>
      simp only []
      cases hpar : e.parent with
      | none => rfl
      | some p =>
        have hplt := hpl _ _ _ he hpar
        have hne : p ≠ id := by rintro rfl; exact hnc _ _ he hpar
        have : heapAtF l' n p = heapAtF l n p := by
          funext b; exact ih p b hne (by omega)
        simp [this]

/-- The depth bound of `heapAtF` is irrelevant. -/
theorem heapAtF_fuel {l : List Exec} (hpl : ParLt l) : ∀ (n m j a : Nat), j < n → j < m →
    heapAtF l n j a = heapAtF l m j a := by
  intro n
  induction n with
  | zero => intro m j a h; omega
  | succ n ih =>
    intro m j a hn hm
    cases m with
    | zero => omega
    | succ m =>
      rw [heapAtF, heapAtF]
      cases he : l[j]? with
      | none => rfl
      | some e =>
        simp only []
        cases hpar : e.parent with
        | none => rfl
        | some p =>
          have hplt := hpl _ _ _ he hpar
          have : heapAtF l n p = heapAtF l m p := by
            funext b; exact ih m p b (by omega) (by omega)
          simp [this]

/-! ## Branches -/

theorem branch_congr {l l' : List Exec} (hpl : ParLt l)
    (hp : ∀ (j : Nat) (e : Exec), l[j]? = some e → ∃ e', l'[j]? = some e' ∧ e'.parent = e.parent) :
    ∀ (n j : Nat), j < l.length → branch l' n j = branch l n j := by
  intro n
  induction n with
  | zero => intros; rfl
  | succ n ih =>
    intro j hj
    rw [branch, branch]
    obtain ⟨e, he⟩ : ∃ e, l[j]? = some e := ⟨_, List.getElem?_eq_getElem hj⟩
    obtain ⟨e', he', hpar⟩ := hp j e he
    rw [he, he']
    simp only [hpar]
    cases h : e.parent with
    | none => rfl
    | some p =>
      have := hpl _ _ _ he h
      simp only [ih p (by omega)]

theorem branch_fuel {l : List Exec} (hpl : ParLt l) : ∀ (n m j : Nat), j < n → j < m →
    branch l n j = branch l m j := by
  intro n
  induction n with
  | zero => intro m j h; omega
  | succ n ih =>
    intro m j hn hm
    cases m with
    | zero => omega
    | succ m =>
      rw [branch, branch]
      cases he : l[j]? with
      | none => rfl
      | some e =>
        simp only []
        cases hpar : e.parent with
        | none => rfl
        | some p =>
          have := hpl _ _ _ he hpar
          simp only [ih m p (by omega) (by omega)]

/-- An executor that nobody has as a parent is on no other branch. -/
theorem not_mem_branch {l : List Exec} {id : Nat} 
    (hnc : ∀ (j : Nat) (e : Exec), l[j]? = some e → e.parent ≠ some id) :
    ∀ (n j : Nat), j ≠ id → id ∉ branch l n j := by
  intro n
  induction n with
  | zero => intro j _; simp [branch]
  | succ n ih =>
    intro j hj
    rw [branch]
    cases he : l[j]? with
    | none => simp
    | some e =>
      simp only []
      cases hpar : e.parent with
      | none => simpa using Ne.symm hj
      | some p =>
        have hne : p ≠ id := by rintro rfl; exact hnc _ _ he hpar
        simp only [List.mem_cons, not_or]
        exact ⟨Ne.symm hj, ih p hne⟩

theorem mem_branch_le {l : List Exec} (hpl : ParLt l) : ∀ (n j k : Nat), k ∈ branch l n j → k ≤ j := by
  intro n
  induction n with
  | zero => intro j k h; simp [branch] at h
  | succ n ih =>
    intro j k h
    rw [branch] at h
    cases he : l[j]? with
    | none => simp [he] at h
    | some e =>
      simp only [he] at h
      cases hpar : e.parent with
      | none => simp [hpar] at h; omega
      | some p =>
        have := hpl _ _ _ he hpar
        simp only [hpar, List.mem_cons] at h
        rcases h with rfl | h
        · omega
        · have := ih p k h; omega

theorem self_mem_branch {l : List Exec} {n j : Nat} (hj : j < l.length) : j ∈ branch l (n + 1) j := by
  rw [branch, List.getElem?_eq_getElem hj]
  simp only []
  split <;> simp

/-! ## The breadth-first invariant -/

theorem workOn_snoc {l : List Exec} {hist : List (Nat × Org.Turn)} {id t j} :
    workOn l (hist ++ [(id, t)]) j = workOn l hist j + if id ∈ branch l (j + 1) j then 1 else 0 := by
  unfold workOn
  rw [List.filter_append, List.length_append]
  by_cases h : id ∈ branch l (j + 1) j
  · simp [h]
  · simp [h]

/-- The works of the turns of a history, each counted just after the turn. -/
def turnWorks (l : List Exec) (hist : List (Nat × Org.Turn)) (k : Nat) : Nat :=
  workOn l (hist.take (k + 1)) ((hist.map (·.1)).getD k 0)

structure Bfs (o : Org) (hist : List (Nat × Org.Turn)) : Prop where
  ids : ∀ h ∈ hist, h.1 < o.execs.length
  sorted : o.queue.Pairwise fun a b => workOn o.execs hist a ≤ workOn o.execs hist b
  close : ∀ a ∈ o.queue, ∀ b ∈ o.queue, workOn o.execs hist b ≤ workOn o.execs hist a + 1
  past : ∀ k < hist.length, ∀ b ∈ o.queue, turnWorks o.execs hist k ≤ workOn o.execs hist b + 1
  mono : ∀ i j, i < j → j < hist.length → turnWorks o.execs hist i ≤ turnWorks o.execs hist j

theorem workOn_congr {l l' : List Exec} (hpl : ParLt l)
    (hp : ∀ (j : Nat) (e : Exec), l[j]? = some e → ∃ e', l'[j]? = some e' ∧ e'.parent = e.parent)
    {hist j} (hj : j < l.length) : workOn l' hist j = workOn l hist j := by
  unfold workOn
  rw [branch_congr hpl hp _ _ hj]

theorem Bfs.turn {o o' : Org} {hist fuel id q t} (inv : o.Inv) (b : Bfs o hist) (hq : o.queue = id :: q)
    (h : o.turn fuel = .ok (o', t)) : Bfs o' (hist ++ [(id, t)]) := by
  have fr := Org.turn_frame inv hq h
  have inv' := inv.turn h
  have hid : id ∈ o.queue := by simp [hq]
  obtain ⟨eid, heid, _⟩ := inv.qrun id hid
  have hidlt : id < o.execs.length := (List.getElem?_eq_some_iff.1 heid).1
  have hnd := inv.qnd
  rw [hq, List.nodup_cons] at hnd
  have hpl := inv.parLt
  have hpl' := inv'.parLt
  -- works of existing executors
  have wold : ∀ j, j < o.execs.length → j ≠ id →
      workOn o'.execs (hist ++ [(id, t)]) j = workOn o.execs hist j := by
    intro j hj hne
    rw [workOn_congr hpl fr.par hj, workOn_snoc,
      if_neg (not_mem_branch (fun j e he => inv.no_child hid he) _ _ hne), Nat.add_zero]
  have wid : workOn o'.execs (hist ++ [(id, t)]) id = workOn o.execs hist id + 1 := by
    rw [workOn_congr hpl fr.par hidlt, workOn_snoc, if_pos (self_mem_branch hidlt)]
  have wnew : ∀ j, o.execs.length ≤ j → j < o'.execs.length →
      workOn o'.execs (hist ++ [(id, t)]) j = workOn o.execs hist id + 1 := by
    intro j hj hj'
    obtain ⟨e, he⟩ : ∃ e, o'.execs[j]? = some e := ⟨_, List.getElem?_eq_getElem hj'⟩
    have hpar := fr.new j e hj he
    rw [← wid]
    unfold workOn
    have hb : branch o'.execs (j + 1) j = j :: branch o'.execs (id + 1) id := by
      rw [branch, he]
      simp only [hpar]
      rw [branch_fuel hpl' j (id + 1) id (by omega) (by omega)]
    rw [hb]
    congr 1
    apply List.filter_congr
    intro h hh
    have : h.1 ≠ j := by
      simp only [List.mem_append, List.mem_singleton] at hh
      rcases hh with hh | rfl
      · have := b.ids h hh; omega
      · simp only; omega
    simp [this]
  -- bounds for the new queue
  have hq' : ∀ x ∈ o'.queue, (x ∈ q ∧ workOn o'.execs (hist ++ [(id, t)]) x = workOn o.execs hist x) ∨
      workOn o'.execs (hist ++ [(id, t)]) x = workOn o.execs hist id + 1 := by
    intro x hx
    have inq : x ∈ q → (x ∈ q ∧ workOn o'.execs (hist ++ [(id, t)]) x = workOn o.execs hist x) := by
      intro hxq
      obtain ⟨ex, hex, _⟩ := inv.qrun x (by simp [hq, hxq])
      exact ⟨hxq, wold x (List.getElem?_eq_some_iff.1 hex).1 (by rintro rfl; exact hnd.1 hxq)⟩
    rcases Org.turn_queue inv hq h with ⟨h1, _⟩ | h1
    · rw [h1] at hx
      simp only [List.mem_append, List.mem_singleton] at hx
      rcases hx with hx | rfl
      · exact .inl (inq hx)
      · exact .inr wid
    · rw [h1] at hx
      simp only [List.mem_append, List.mem_range'_1] at hx
      rcases hx with hx | hx
      · exact .inl (inq hx)
      · exact .inr (wnew x hx.1 (by omega))
  have hsorted : q.Pairwise fun a b => workOn o.execs hist a ≤ workOn o.execs hist b := by
    have := b.sorted; rw [hq] at this; exact (List.pairwise_cons.1 this).2
  have hfirst : ∀ x ∈ q, workOn o.execs hist id ≤ workOn o.execs hist x := by
    have := b.sorted; rw [hq] at this; exact (List.pairwise_cons.1 this).1
  have hclose : ∀ x ∈ q, workOn o.execs hist x ≤ workOn o.execs hist id + 1 :=
    fun x hx => b.close id hid x (by simp [hq, hx])
  have wq : ∀ x ∈ o'.queue, workOn o.execs hist id ≤ workOn o'.execs (hist ++ [(id, t)]) x ∧
      workOn o'.execs (hist ++ [(id, t)]) x ≤ workOn o.execs hist id + 1 := by
    intro x hx
    rcases hq' x hx with ⟨h1, h2⟩ | h2
    · rw [h2]; exact ⟨hfirst x h1, hclose x h1⟩
    · rw [h2]; omega
  have told : ∀ k < hist.length, turnWorks o'.execs (hist ++ [(id, t)]) k = turnWorks o.execs hist k := by
    intro k hk
    unfold turnWorks
    rw [List.take_append_of_le_length (by omega)]
    have hg : ((hist ++ [(id, t)]).map (·.1)).getD k 0 = (hist.map (·.1)).getD k 0 := by
      rw [List.map_append, List.getD_eq_getElem?_getD, List.getD_eq_getElem?_getD,
        List.getElem?_append_left (by simpa using hk)]
    rw [hg]
    apply workOn_congr hpl fr.par
    have : ((hist.map (·.1)).getD k 0) = hist[k].1 := by
      rw [List.getD_eq_getElem?_getD, List.getElem?_map, List.getElem?_eq_getElem hk]; rfl
    rw [this]
    exact b.ids _ (List.getElem_mem hk)
  have tnew : turnWorks o'.execs (hist ++ [(id, t)]) hist.length = workOn o.execs hist id + 1 := by
    unfold turnWorks
    have h1 : (hist ++ [(id, t)]).take (hist.length + 1) = hist ++ [(id, t)] := by
      apply List.take_of_length_le; simp
    have h2 : ((hist ++ [(id, t)]).map (·.1)).getD hist.length 0 = id := by
      simp [List.getD_eq_getElem?_getD]
    rw [h1, h2, wid]
  refine ⟨?_, ?_, ?_, ?_, ?_⟩
  · intro x hx
    have := fr.len
    simp only [List.mem_append, List.mem_singleton] at hx
    rcases hx with hx | rfl
    · have := b.ids x hx; omega
    · simp only; omega
  · -- sorted
    have hold : q.Pairwise fun a b =>
        workOn o'.execs (hist ++ [(id, t)]) a ≤ workOn o'.execs (hist ++ [(id, t)]) b := by
      refine List.Pairwise.imp_of_mem ?_ hsorted
      intro a c ha hc hac
      have inq : ∀ x ∈ q, workOn o'.execs (hist ++ [(id, t)]) x = workOn o.execs hist x := by
        intro x hxq
        obtain ⟨ex, hex, _⟩ := inv.qrun x (by simp [hq, hxq])
        exact wold x (List.getElem?_eq_some_iff.1 hex).1 (by rintro rfl; exact hnd.1 hxq)
      rw [inq a ha, inq c hc]; exact hac
    have hmax : ∀ (news : List Nat), o'.queue = q ++ news →
        (∀ x ∈ news, workOn o'.execs (hist ++ [(id, t)]) x = workOn o.execs hist id + 1) →
        o'.queue.Pairwise fun a b =>
          workOn o'.execs (hist ++ [(id, t)]) a ≤ workOn o'.execs (hist ++ [(id, t)]) b := by
      intro news hnews hw
      have hqq := wq
      rw [hnews] at hqq ⊢
      rw [List.pairwise_append]
      refine ⟨hold, ?_, ?_⟩
      · exact List.Pairwise.imp_of_mem (R := fun _ _ => True)
          (fun ha hc _ => by rw [hw _ ha, hw _ hc]; exact Nat.le_refl _) (List.pairwise_of_forall (fun _ _ => trivial))
      · intro a ha c hc
        rw [hw c hc]
        exact (hqq a (by simp [ha])).2
    rcases Org.turn_queue inv hq h with ⟨h1, _⟩ | h1
    · exact hmax _ h1 (by simp [wid])
    · refine hmax _ h1 ?_
      intro x hx
      simp only [List.mem_range'_1] at hx
      exact wnew x hx.1 (by omega)
  · intro a ha c hc
    have := (wq a ha).1; have := (wq c hc).2; omega
  · intro k hk c hc
    have h2 := (wq c hc).1
    simp only [List.length_append, List.length_singleton] at hk
    rcases Nat.lt_or_ge k hist.length with hk' | hk'
    · rw [told k hk']
      have := b.past k hk' id hid
      omega
    · have : k = hist.length := by omega
      subst this
      rw [tnew]; omega
  · intro i j hij hj
    simp only [List.length_append, List.length_singleton] at hj
    rw [told i (by omega)]
    rcases Nat.lt_or_ge j hist.length with hj' | hj'
    · rw [told j hj']; exact b.mono i j hij hj'
    · have : j = hist.length := by omega
      subst this
      rw [tnew]
      exact b.past i hij id hid

end PBfs
