import Verif.Proof.Draw2
import Verif.Props.Tree
/-! # The drawing of the unification tree -/
namespace PBfs
open Org

theorem UTree.num_info (t : UTree) : t.num = (t.info.id : Int) := by cases t; rfl

theorem TOK.of {o : Org} {fuel t} (hr : Reach o) (h : o.unificationTree fuel = .ok t) : t.info.goal = true ∧ ∃ lab, TOK fuel o lab t := by
  obtain ⟨lab, hk⟩ := hr.kinv
  have inv := hr.finv.rinv.inv
  obtain ⟨_, h1, h2⟩ := tree_nodes hk inv h
  exact ⟨h1, lab, h2, hk, inv⟩

/-- What the loop leaves behind. -/
theorem draw_inv {o : Org} {fuel : Nat} {lab t n d} (hg : t.info.goal = true) (hk : TOK fuel o lab t) (hd : o.draw n t = .ok d) :
    ∃ P s, s.drawing = d ∧ s.queue = [] ∧ DInv o t P s ∧ P.Perm t.goals := by
  simp only [draw, bind_ok, pure_ok] at hd
  obtain ⟨s, hs, rfl⟩ := hd
  obtain ⟨P, h1, h2, h3⟩ := drawLoop_goals hk (DInv.start o t) (DGoals.start hg) hs
  exact ⟨P, s, rfl, h2, h1, h3⟩

/-- **C48.** The drawing exists, and it is a tree whose root is the node with the number 0: no number is used for two
nodes, edges join nodes, every node but the root has exactly one edge that leads to it, and every node is connected with the root.

The number given to `draw` bounds the iterations of the loop; there are at most as many as there are nodes. -/
theorem C48_drawing_is_tree {o : Org} {fuel t} (hr : Reach o) (h : o.unificationTree fuel = .ok t) :
    (∃ d, o.draw t.nodes.length t = .ok d) ∧ ∀ n d, o.draw n t = .ok d → d.IsTree 0 := by
  obtain ⟨hg, lab, hk⟩ := TOK.of hr h
  refine ⟨?_, fun n d hd => ?_⟩
  · obtain ⟨s, hs⟩ := drawLoop_total hk (n := t.nodes.length) (DGoals.start hg) (by
      have : t.goals.length ≤ t.nodes.length := List.length_filter_le _ _
      simpa using this)
    exact ⟨s.drawing, by simp only [draw, hs, ok_bind]; rfl⟩
  · obtain ⟨P, s, rfl, hq, D, hP⟩ := draw_inv hg hk hd
    obtain ⟨hid, _⟩ := C33_numbers h
    have h0 : t.num = 0 := by
      rw [t.nodes_eq, List.map_cons, List.length_cons, List.range_succ_eq_map] at hid
      rw [t.num_info, (List.cons.inj hid).1]; rfl
    have hb := D.bfs
    rw [hq, List.append_nil] at hb
    have hnd : (t.nodes.map (·.info.id)).Nodup := by rw [hid]; exact List.nodup_range
    have hPn : (P.map UTree.num).Nodup := by
      have e : UTree.num = fun u => ((UTree.info u).id : Int) := by funext u; exact u.num_info
      rw [(hP.map _).nodup_iff, e]
      have h1 : (t.goals.map (fun u => u.info.id)).Nodup := hnd.sublist (List.Sublist.map _ List.filter_sublist)
      have := List.Nodup.map (f := fun n : Nat => (n : Int)) (fun a b h => Int.ofNat.inj h) h1
      rwa [List.map_map] at this
    have hids : (s.drawing.nodes.map (·.id)).Perm
        (P.map UTree.num ++ (numbered (-1) (P.flatMap fun u => boxes (outs o u))).map (·.id)) := by
      have := D.nodes.map (·.id)
      rwa [List.map_append, List.map_map] at this
    have htP : t ∈ P := by rw [hb]; simp
    refine ⟨?_, ?_, ?_, ?_, ?_⟩
    · rw [hids.mem_iff, ← h0]
      exact List.mem_append_left _ (List.mem_map_of_mem htP)
    · rw [hids.nodup_iff, List.nodup_append]
      refine ⟨hPn, numbered_nodup _ _, ?_⟩
      rintro a ha b hb rfl
      obtain ⟨u, _, rfl⟩ := List.mem_map.1 ha
      obtain ⟨v, hv, h2⟩ := List.mem_map.1 hb
      have := numbered_le v hv
      rw [u.num_info] at h2
      omega
    · intro e he
      obtain ⟨u, hu, h2⟩ := D.src e he
      rw [hids.mem_iff, h2]
      exact List.mem_append_left _ (List.mem_map_of_mem hu)
    · refine D.edges.trans (List.Perm.trans ?_ (hids.erase 0).symm)
      have : P.map UTree.num = 0 :: (P.flatMap fun u => nexts (outs o u)).map UTree.num := by
        rw [← h0, ← List.map_cons, ← hb]
      rw [this, List.cons_append, List.erase_cons_head]
      exact List.perm_append_comm
    · rw [← h0]; exact D.below.1

theorem flatMap_congr_mem {α β} {l : List α} {f g : α → List β} (h : ∀ x ∈ l, f x = g x) : l.flatMap f = l.flatMap g := by
  rw [List.flatMap_def, List.flatMap_def, List.map_congr_left h]

theorem numbered_filterMap {β} (f : Box → Option β) (c : Int) (l : List Box) : (numbered c l).filterMap (fun v => f v.box) = l.filterMap f := by
  conv => rhs; rw [← numbered_box c l, List.filterMap_map]
  rfl

theorem boxes_no_goal {o : Org} {u : UTree} : ∀ b ∈ boxes (outs o u), b.title? = none := by
  have alt : ∀ k, ∀ b, (outAlt o k).getRight? = some b → b.title? = none := by
    intro k b hb
    cases k with
    | node i ks =>
      cases ks with
      | cons g ks => cases hb
      | nil =>
        simp only [outAlt] at hb
        repeat' split at hb
        all_goals cases hb
        all_goals rfl
  intro b hb
  cases u with
  | node i ks =>
    simp only [outs] at hb
    repeat' split at hb
    · simp [boxes] at hb
    · simp only [boxes, List.filterMap_cons, Sum.getRight?, List.filterMap_nil, List.mem_singleton] at hb; subst hb; rfl
    · simp only [boxes, List.filterMap_cons, Sum.getRight?, List.filterMap_nil, List.mem_singleton] at hb; subst hb; rfl
    · simp only [boxes, List.mem_filterMap, List.mem_map] at hb
      obtain ⟨_, ⟨k, _, rfl⟩, hb⟩ := hb
      exact alt k b hb

/-- **C49.** The boxes with goals are the goals of the tree, with their numbers and texts. -/
theorem C49_goals_drawn {o : Org} {fuel t n d} (hr : Reach o) (h : o.unificationTree fuel = .ok t) (hd : o.draw n t = .ok d) :
    (d.nodes.filterMap fun v => v.box.title?.map fun title => (v.id, title)).Perm
      ((t.nodes.filter (·.info.goal)).map fun s => ((s.info.id : Int), s.info.title)) := by
  obtain ⟨hg, lab, hk⟩ := TOK.of hr h
  obtain ⟨P, s, rfl, hq, D, hP⟩ := draw_inv hg hk hd
  refine (D.nodes.filterMap _).trans ?_
  rw [List.filterMap_append, List.filterMap_map]
  have h1 : (numbered (-1) (P.flatMap fun u => boxes (outs o u))).filterMap (fun v => v.box.title?.map fun title => (v.id, title)) = [] := by
    rw [List.filterMap_eq_nil_iff]
    intro v hv
    have : v.box ∈ P.flatMap fun u => boxes (outs o u) := by
      rw [← numbered_box (-1) (P.flatMap _)]; exact List.mem_map_of_mem hv
    obtain ⟨u, _, hb⟩ := List.mem_flatMap.1 this
    rw [boxes_no_goal _ hb]; rfl
  rw [h1, List.append_nil]
  have h2 : P.filterMap ((fun v : VisNode => v.box.title?.map fun title => (v.id, title)) ∘ fun u => ⟨u.num, .goal u.info.title⟩) =
      P.map fun s => ((s.info.id : Int), s.info.title) := by
    rw [← List.filterMap_eq_map]
    congr 1
    funext u
    simp [Box.title?, u.num_info]
  rw [h2]
  exact hP.map _

/-- **C49.** A goal is joined to the goals that its alternatives lead to, and to the answers of its alternatives. -/
theorem C49_joined {o : Org} {fuel t n d} (hr : Reach o) (h : o.unificationTree fuel = .ok t) (hd : o.draw n t = .ok d)
    {s k : UTree} (hs : s ∈ t.nodes) (hg : s.info.goal = true) (hk : k ∈ s.kids) :
    (∀ g ∈ k.kids, ⟨s.info.id, g.info.id⟩ ∈ d.edges) ∧
    ∀ bs, k.info.final = some bs → ∃ v ∈ d.nodes, v.box.answer? = some (finalStr bs) ∧ ⟨s.info.id, v.id⟩ ∈ d.edges := by
  obtain ⟨hg0, lab, hT⟩ := TOK.of hr h
  obtain ⟨P, st, rfl, hq, D, hP⟩ := draw_inv hg0 hT hd
  have hsP : s ∈ P := hP.mem_iff.2 (List.mem_filter.2 ⟨hs, hg⟩)
  obtain ⟨j1, j2⟩ := D.joined s hsP
  obtain ⟨g1, g2, _⟩ := hT.goal hs hg
  refine ⟨fun g hg' => ?_, fun bs hb => ?_⟩
  · have := j1 g (by rw [g1]; exact List.mem_flatMap.2 ⟨k, hk, hg'⟩)
    rwa [s.num_info, g.num_info] at this
  · have : finalStr bs ∈ (boxes (outs o s)).filterMap Box.answer? := by
      rw [g2, List.mem_filterMap]
      exact ⟨k, by simp [hk], by rw [hb]; rfl⟩
    obtain ⟨b, hb1, hb2⟩ := List.mem_filterMap.1 this
    obtain ⟨v, hv, rfl, he⟩ := j2 b hb1
    rw [s.num_info] at he
    exact ⟨v, hv, hb2, he⟩

/-- The state of the search for the next two theorems. -/
structure SInv (fuel : Nat) (o : Org) (hist : List (Nat × Turn)) : Prop where
  f : FInv o
  k : ∃ lab, KInv o lab
  a : AInv fuel o hist
  waits : ∀ (id : Nat) (e : Exec), o.execs[id]? = some e → e.state = .running → id ∈ o.queue
  once : ((hist.filterMap fun h => match h.2 with | .answer bs => some (h.1, bs) | _ => none).map (·.1)).Nodup

theorem loaded_queue {o0 o : Org} {ord q} (h : o0.loadQuery ord (some q) = (o, .ok)) : o.queue = [0] := by
  unfold Org.loadQuery at h
  simp only at h
  split at h
  · rename_i e st _
    simp only [Prod.mk.injEq] at h
    cases e <;> simp [Load.ofErr] at h
  · simp only [Prod.mk.injEq] at h
    rw [← h.1]

theorem waits_turn {fuel} {o o' : Org} {id q r} (inv : o.Inv) (hq : o.queue = id :: q) (ht : o.turn fuel = .ok (o', r))
    (hw : ∀ (k : Nat) (e : Exec), o.execs[k]? = some e → e.state = .running → k ∈ o.queue) :
    ∀ (k : Nat) (e : Exec), o'.execs[k]? = some e → e.state = .running → k ∈ o'.queue := by
  have old : ∀ {k e'} {x : Exec}, (o.execs.set id e')[k]? = some x → x.state = .running → (k ∈ q) ∨ (k = id ∧ x = e') := by
    intro k e' x hx hs
    by_cases hk : k = id
    · subst hk
      rw [List.getElem?_set] at hx
      simp only [if_true] at hx
      split at hx
      · cases hx; exact .inr ⟨rfl, rfl⟩
      · cases hx
    · rw [List.getElem?_set_ne (Ne.symm hk)] at hx
      have := hw k x hx hs
      rw [hq] at this
      simp only [List.mem_cons, hk, false_or] at this
      exact .inl this
  cases turn_desc inv hq ht with
  | died h1 h2 h3 h4 =>
    intro k e he hs
    rcases old he hs with h | ⟨_, rfl⟩
    · exact h
    · rw [h3] at hs; cases hs
  | error h1 h2 h3 h4 =>
    intro k e he hs
    rcases old he hs with h | ⟨_, rfl⟩
    · exact h
    · rw [h3] at hs; cases hs
  | success h1 h2 h3 =>
    intro k e he hs
    rcases old he hs with h | ⟨_, rfl⟩
    · exact h
    · rw [h3] at hs; cases hs
  | @spawn e e' news n h1 h2 h3 h4 h5 =>
    intro k x he hs
    simp only at he ⊢
    rcases Nat.lt_or_ge k o.execs.length with hl | hl
    · rw [List.getElem?_append_left (by simpa using hl)] at he
      rcases old he hs with h | ⟨_, rfl⟩
      · exact List.mem_append_left _ h
      · rw [h3] at hs; cases hs
    · have := (List.getElem?_eq_some_iff.1 he).1
      simp only [List.length_append, List.length_set] at this
      exact List.mem_append_right _ (List.mem_range'_1.2 ⟨hl, this⟩)
  | requeue h1 h2 h3 h4 =>
    intro k e he hs
    simp only at he ⊢
    rcases old he hs with h | ⟨rfl, rfl⟩
    · exact List.mem_append_left _ h
    · simp

theorem SInv.of {o0 o o' : Org} {ord q fuel hist} (h0 : Reach o0) (hl : o0.loadQuery ord (some q) = (o, .ok))
    (hr : Runs fuel o hist o') : SInv fuel o' hist := by
  have h1 : Reach o := by have := Reach.query ord (some q) h0; rwa [hl] at this
  have : FInv o' ∧ (∃ lab, KInv o' lab) ∧ AInv fuel o' hist ∧
      (∀ (id : Nat) (e : Exec), o'.execs[id]? = some e → e.state = .running → id ∈ o'.queue) ∧
      ((hist.filterMap fun h => match h.2 with | .answer bs => some (h.1, bs) | _ => none).map (·.1)).Nodup := by
    induction hr with
    | nil =>
      obtain ⟨r, hx⟩ := loaded_execs hl
      refine ⟨h1.finv, h1.kinv, ⟨by simp, ?_⟩, ?_, by simp⟩
      · intro k e he hst
        rw [hx] at he
        cases k with
        | zero => simp at he; subst he; cases hst
        | succ id => simp at he
      · intro k e he hst
        rw [hx] at he
        rw [loaded_queue hl]
        cases k with
        | zero => simp
        | succ id => simp at he
    | @snoc hist o1 o2 id q' t _ hq htn ih =>
      obtain ⟨i1, ⟨lab, i2⟩, i3, i4, i5⟩ := ih
      refine ⟨i1.turn htn, i2.turn i1 htn, i3.turn i1 hq htn, waits_turn i1.rinv.inv hq htn i4, ?_⟩
      rw [List.filterMap_append, List.map_append, List.nodup_append]
      refine ⟨i5, ?_, ?_⟩
      · simp only [List.filterMap_cons, List.filterMap_nil]
        split <;> simp
      · intro a ha b hb hab
        subst hab
        obtain ⟨⟨k, bs⟩, hm, rfl⟩ := List.mem_map.1 ha
        obtain ⟨⟨k', bs'⟩, hm', hk'⟩ := List.mem_map.1 hb
        simp only at hk'; subst hk'
        obtain ⟨⟨j, t'⟩, hj, hj'⟩ := List.mem_filterMap.1 hm
        obtain ⟨⟨j2, t2⟩, hj2, hj2'⟩ := List.mem_filterMap.1 hm'
        simp only [List.mem_singleton, Prod.mk.injEq] at hj2
        obtain ⟨rfl, rfl⟩ := hj2
        have e1 : j2 = k' := by
          cases t2 <;> simp at hj2'
          exact hj2'.1
        have e2 : (j, t') = (k', .answer bs) := by
          cases t' <;> simp at hj'
          simp [hj']
        rw [e2] at hj
        obtain ⟨e, he, hst, _⟩ := i3.told _ _ hj
        obtain ⟨e', he', hrun, _⟩ := i1.rinv.inv.qrun j2 (by simp [hq])
        rw [e1, he] at he'; cases he'
        rw [hst] at hrun; cases hrun
  exact ⟨this.1, this.2.1, this.2.2.1, this.2.2.2.1, this.2.2.2.2⟩

/-- What is known about the tree during a search. -/
theorem SInv.tok {o : Org} {fuel : Nat} {hist t} (s : SInv fuel o hist) (h : o.unificationTree fuel = .ok t) :
    t.info.exec = 0 ∧ t.info.goal = true ∧ ∃ lab, TOK fuel o lab t := by
  obtain ⟨lab, hk⟩ := s.k
  obtain ⟨h0, h1, h2⟩ := tree_nodes hk s.f.rinv.inv h
  exact ⟨h0, h1, lab, h2, hk, s.f.rinv.inv⟩

theorem nodup_filterMap_fst {α β} [DecidableEq α] {l : List γ} (f : γ → α) (g : γ → Option β) (h : (l.map f).Nodup) :
    (l.filterMap fun s => (g s).map fun b => (f s, b)).Nodup := by
  induction l with
  | nil => simp
  | cons x l ih =>
    simp only [List.map_cons, List.nodup_cons] at h
    rw [List.filterMap_cons]
    cases hx : g x with
    | none => simpa using ih h.2
    | some b =>
      simp only [Option.map_some, List.nodup_cons]
      refine ⟨fun hm => h.1 ?_, ih h.2⟩
      obtain ⟨y, hy, h2⟩ := List.mem_filterMap.1 hm
      cases hg : g y with
      | none => rw [hg] at h2; cases h2
      | some c =>
        rw [hg] at h2
        simp only [Option.map_some, Option.some.injEq, Prod.mk.injEq] at h2
        rw [← h2.1]; exact List.mem_map_of_mem hy

theorem finalStr_eq (bs : List Binding) : finalStr bs =
    match bs with
    | [] => n!"true"
    | bs => bs.flatMap fun b => n!"[" ++ b.name ++ n!" / " ++ b.value ++ n!"] " := by
  cases bs with
  | nil => rfl
  | cons b bs =>
    simp only [finalStr]
    congr 1
    funext b
    simp [Binding.str]

/-- **C49.** The boxes with final bindings are exactly the answers that have been reported, each one once. -/
theorem C49_answers_drawn {o0 o o' : Org} {ord q fuel hist t n d} (h0 : Reach o0) (hl : o0.loadQuery ord (some q) = (o, .ok))
    (hr : Runs fuel o hist o') (ht : o'.unificationTree fuel = .ok t) (hd : o'.draw n t = .ok d) :
    (d.nodes.filterMap (·.box.answer?)).Perm (answerTexts hist) := by
  have S := SInv.of h0 hl hr
  obtain ⟨e0, hg, lab, hT⟩ := S.tok ht
  obtain ⟨P, s, rfl, hq, D, hP⟩ := draw_inv hg hT hd
  -- the boxes are the final bindings in the tree
  have h1 : (s.drawing.nodes.filterMap (·.box.answer?)).Perm (t.nodes.filterMap fun s => s.info.final.map finalStr) := by
    refine (D.nodes.filterMap _).trans ?_
    rw [List.filterMap_append, numbered_filterMap, List.filterMap_map]
    have hnil : P.filterMap ((fun v : VisNode => v.box.answer?) ∘ fun u => ⟨u.num, .goal u.info.title⟩) = [] := by
      rw [List.filterMap_eq_nil_iff]; intro u _; rfl
    rw [hnil, List.nil_append, List.filterMap_flatMap]
    have hgs : ∀ u ∈ P, u ∈ t.nodes ∧ u.info.goal = true := fun u hu => List.mem_filter.1 (hP.mem_iff.1 hu)
    have e1 : (P.flatMap fun u => (boxes (outs o' u)).filterMap Box.answer?) =
        (P.flatMap fun u => u :: u.kids).filterMap fun s => s.info.final.map finalStr := by
      rw [List.filterMap_flatMap]
      exact flatMap_congr_mem fun u hu => (hT.goal (hgs u hu).1 (hgs u hu).2).2.1
    rw [e1]
    exact ((hP.flatMap_right _).filterMap _).trans ((hT.split _ t (Nat.le_refl _) t.self_mem hg).symm.filterMap _)
  refine h1.trans ?_
  -- and those are the answers
  have hkids : ∀ s ∈ t.nodes, s.kids.map (·.info.exec) = createdBy o'.execs s.info.exec := fun s hs => (hT.ok s hs).kids
  have hnd := t.execs_nodup S.f.rinv.inv.parLt hkids
  have hp : (t.nodes.filterMap fun s => s.info.final.map fun b => (s.info.exec, b)).Perm
      (hist.filterMap fun h => match h.2 with | .answer bs => some (h.1, bs) | _ => none) := by
    rw [List.perm_ext_iff_of_nodup (nodup_filterMap_fst _ _ hnd) (List.Nodup.of_map _ S.once)]
    rintro ⟨k, bs⟩
    refine Iff.trans ?_ ((C33_answers_shown h0 hl hr ht k bs).trans ?_)
    · rw [List.mem_filterMap]
      constructor
      · rintro ⟨x, hx, h⟩
        cases hf : x.info.final with
        | none => rw [hf] at h; cases h
        | some b =>
          rw [hf] at h
          simp only [Option.map_some, Option.some.injEq, Prod.mk.injEq] at h
          exact ⟨x, hx, h.1, by rw [hf, h.2]⟩
      · rintro ⟨x, hx, rfl, h⟩
        exact ⟨x, hx, by rw [h]; rfl⟩
    · rw [List.mem_filterMap]
      constructor
      · intro hm; exact ⟨_, hm, rfl⟩
      · rintro ⟨⟨j, r⟩, hm, h⟩
        cases r <;> simp at h
        obtain ⟨rfl, rfl⟩ := h
        exact hm
  have := hp.map fun x => finalStr x.2
  rw [List.map_filterMap, List.map_filterMap] at this
  have e1 : (t.nodes.filterMap fun s => s.info.final.map finalStr) =
      t.nodes.filterMap fun s => (s.info.final.map fun b => (s.info.exec, b)).map fun x => finalStr x.2 := by
    congr 1; funext s; cases s.info.final <;> rfl
  rw [e1]
  refine this.trans (List.Perm.of_eq ?_)
  unfold answerTexts
  congr 1
  funext h
  obtain ⟨j, r⟩ := h
  cases r with
  | answer bs =>
    simp only [Option.map_some, finalStr_eq]
    cases bs <;> rfl
  | _ => rfl

/-- **C49.** There is a box with `*continue search*` for every alternative that waits for its turn, and a click on these boxes (and no
others) asks for the next answer. -/
theorem C49_waiting_drawn {o0 o o' : Org} {ord q fuel hist t n d} (h0 : Reach o0) (hl : o0.loadQuery ord (some q) = (o, .ok))
    (hr : Runs fuel o hist o') (ht : o'.unificationTree fuel = .ok t) (hd : o'.draw n t = .ok d) :
    d.buttons = (d.nodes.filter (·.box = .more)).map (·.id) ∧ d.buttons.length = o'.queue.length := by
  have S := SInv.of h0 hl hr
  obtain ⟨e0, hg, lab, hT⟩ := S.tok ht
  obtain ⟨P, s, rfl, hq, D, hP⟩ := draw_inv hg hT hd
  refine ⟨D.buttons, ?_⟩
  have hgs : ∀ u ∈ P, u ∈ t.nodes ∧ u.info.goal = true := fun u hu => List.mem_filter.1 (hP.mem_iff.1 hu)
  have h1 : s.drawing.buttons.length = t.nodes.countP (isRunning o') := by
    rw [D.buttons, List.length_map, ← List.countP_eq_length_filter, D.nodes.countP_eq, List.countP_append]
    have e1 : (P.map fun u => (⟨u.num, .goal u.info.title⟩ : VisNode)).countP (fun v => decide (v.box = .more)) = 0 := by
      rw [List.countP_eq_zero]; simp
    have e2 : (numbered (-1) (P.flatMap fun u => boxes (outs o' u))).countP (fun v => decide (v.box = .more)) =
        (P.flatMap fun u => boxes (outs o' u)).countP (fun b => decide (b = .more)) := by
      conv => rhs; rw [← numbered_box (-1) (P.flatMap _), List.countP_map]
      rfl
    rw [e1, e2, Nat.zero_add]
    rw [((hT.split _ t (Nat.le_refl _) t.self_mem hg).trans (hP.symm.flatMap_right _)).countP_eq, List.countP_flatMap, List.countP_flatMap]
    congr 1
    refine List.map_congr_left fun u hu => ?_
    exact (hT.goal (hgs u hu).1 (hgs u hu).2).2.2
  rw [h1]
  have hkids : ∀ s ∈ t.nodes, s.kids.map (·.info.exec) = createdBy o'.execs s.info.exec := fun s hs => (hT.ok s hs).kids
  have hnd := t.execs_nodup S.f.rinv.inv.parLt hkids
  have inv := S.f.rinv.inv
  have hp : ((t.nodes.filter (isRunning o')).map (·.info.exec)).Perm o'.queue := by
    rw [List.perm_ext_iff_of_nodup (hnd.sublist (List.filter_sublist.map _)) inv.qnd]
    intro k
    simp only [List.mem_map, List.mem_filter]
    constructor
    · rintro ⟨x, ⟨hx, hrun⟩, rfl⟩
      obtain ⟨e, he⟩ := (hT.ok x hx).ex
      refine S.waits _ e he ?_
      simpa [isRunning, he] using hrun
    · intro hk
      obtain ⟨e, he, hrun, _⟩ := inv.qrun k hk
      obtain ⟨x, hx, rfl⟩ := tree_complete hT.k inv e0 hkids k (List.getElem?_eq_some_iff.1 he).1
      exact ⟨x, ⟨hx, by simp [isRunning, he, hrun]⟩, rfl⟩
  rw [← hp.length_eq, List.length_map, ← List.countP_eq_length_filter]

/-! ## Examples -/

/-- The drawing after `n` iterations. -/
def drawOf (fuel n : Nat) (o : Org) : Option Drawing :=
  match o.iterate fuel n with
  | .ok r => match r.1.unificationTree fuel with
    | .ok t => (r.1.draw t.nodes.length t).toOption
    | .error _ => none
  | .error _ => none

/-- The finished search for `r(X)` with `p(a). p(b). r(X) :- p(X), q(X). q(b).` -/
example : drawOf 20 20 (demo Demo.prog [.fn n!"r" [.var n!"X"]]) = some
    { nodes := [⟨0, .goal n!"r(X)"⟩, ⟨2, .goal n!"p(X)"⟩, ⟨4, .goal n!"q(a)"⟩, ⟨-1, .clash⟩, ⟨7, .goal n!"q(b)"⟩, ⟨-2, .answer n!"[X / b] "⟩]
      edges := [⟨0, 2⟩, ⟨2, 4⟩, ⟨2, 7⟩, ⟨4, -1⟩, ⟨7, -2⟩]
      buttons := [] } := by decide +kernel

/-- The same search while it goes on: two alternatives wait for their turn. -/
example : drawOf 20 3 (demo Demo.prog [.fn n!"r" [.var n!"X"]]) = some
    { nodes := [⟨0, .goal n!"r(X)"⟩, ⟨2, .goal n!"p(X)"⟩, ⟨-1, .more⟩, ⟨-2, .more⟩]
      edges := [⟨0, 2⟩, ⟨2, -1⟩, ⟨2, -2⟩]
      buttons := [-1, -2] } := by decide +kernel

/-- A goal for which there is no clause. -/
example : drawOf 20 20 (demo Demo.prog [.fn n!"s" [.var n!"X"]]) = some
    { nodes := [⟨0, .goal n!"s(X)"⟩, ⟨-1, .noRule⟩], edges := [⟨0, -1⟩], buttons := [] } := by decide +kernel

/-- The hypotheses of `C49_answers_drawn` and `C49_waiting_drawn` are met by a search with an answer. -/
example : ∃ hist o' t d, Runs 20 (demo Demo.prog [.fn n!"r" [.var n!"X"]]) hist o' ∧ o'.unificationTree 20 = .ok t ∧
    o'.draw t.nodes.length t = .ok d ∧ answerTexts hist = [n!"[X / b] "] ∧ d.nodes.filterMap (·.box.answer?) = [n!"[X / b] "] := by
  cases h : Org.history 20 30 (demo Demo.prog [.fn n!"r" [.var n!"X"]]) [] with
  | error =>
    have : (Org.history 20 30 (demo Demo.prog [.fn n!"r" [.var n!"X"]]) []).isOk = true := by decide +kernel
    rw [h] at this; cases this
  | ok r =>
    have : (match Org.history 20 30 (demo Demo.prog [.fn n!"r" [.var n!"X"]]) [] with
      | .ok r => (match r.1.unificationTree 20 with
        | .ok t => (match r.1.draw t.nodes.length t with
          | .ok d => decide (answerTexts r.2 = [n!"[X / b] "] ∧ d.nodes.filterMap (·.box.answer?) = [n!"[X / b] "])
          | .error _ => false)
        | .error _ => false)
      | .error _ => false) = true := by decide +kernel
    rw [h] at this
    simp only at this
    split at this
    · rename_i t ht
      split at this
      · rename_i d hd
        exact ⟨r.2, r.1, t, d, Org.history_runs .nil h, ht, hd, of_decide_eq_true this⟩
      · cases this
    · cases this

end PBfs
