import Verif.Proof.Table
/-! # What loading adds to the tables of names: atoms -/
namespace PBfs

theorem Node.mem_symss {x : FV} : ∀ {cs : List Node}, x ∈ Node.symss cs ↔ ∃ c ∈ cs, x ∈ c.syms
  | [] => by simp [Node.symss]
  | c :: cs => by simp [Node.symss, Node.mem_symss (cs := cs)]

theorem Node.syms_child {n c : Node} {x : FV} (hc : c ∈ n.children) (h : x ∈ c.syms) : x ∈ n.syms := by
  cases n with
  | fn f cs => exact .tail _ (Node.mem_symss.2 ⟨c, hc, h⟩)
  | efn f cs => exact Node.mem_symss.2 ⟨c, hc, h⟩
  | _ => simp [Node.children] at hc

theorem Node.own_syms {n : Node} {x : FV} (h : x ∈ n.own) : x ∈ n.syms := by
  cases n with
  | cons c => exact h
  | fn f cs => exact List.mem_singleton.1 h ▸ .head _
  | _ => simp [Node.own] at h

theorem Node.kidOwn_syms {n : Node} {x : FV} (h : x ∈ n.kidOwn) : x ∈ n.syms := by
  cases n with
  | cons c => exact h
  | _ => simp [Node.kidOwn] at h

/-- The entries of an atom: as in `Nodes`, and every symbol is one of the atom. -/
structure Entries (atom : Node) (as : List AItem) : Prop where
  nodes : Nodes atom as
  all : as.map (·.node) = (items atom).map (·.node)

theorem annotate_entries (atom : Node) (xs) : Entries atom (annotate (items atom) xs) :=
  ⟨annotate_nodes atom xs, by simp [annotate]⟩

theorem assignAtom_entries (varX atom) : Entries atom (assignAtom varX atom).1 := by
  simp only [assignAtom]; exact annotate_entries ..

theorem assignSingle_entries (atom) : Entries atom (assignSingle atom).1 := assignAtom_entries ..

theorem assignPair_entries (head body) : Entries head (assignPair head body).1.1 ∧ Entries body (assignPair head body).2.1.1 := by
  unfold assignPair
  split
  · exact ⟨assignSingle_entries _, assignSingle_entries _⟩
  · split
    · exact ⟨assignSingle_entries _, assignSingle_entries _⟩
    · exact ⟨assignAtom_entries .., assignAtom_entries ..⟩

variable {atom : Node} {as : List AItem}

theorem Entries.below (h : Entries atom as) {a : AItem} (ha : a ∈ as) {x : FV} (hx : x ∈ a.node.syms) : x ∈ Node.symss (atomArgs atom) := by
  have : a.node ∈ (items atom).map (·.node) := h.all ▸ List.mem_map.2 ⟨a, ha, rfl⟩
  obtain ⟨it, hit, he⟩ := List.mem_map.1 this
  exact bfs_all (P := fun n => ∀ x, x ∈ n.syms → x ∈ Node.symss (atomArgs atom)) (fun n c hn hc x hx => hn x (Node.syms_child hc hx)) (Node.sizes (atomArgs atom))
    (atomArgs atom) 0 (atomArgs atom).length (fun nd hnd x hx => Node.mem_symss.2 ⟨nd, hnd, hx⟩) (by simp) it hit x (by rw [he]; exact hx)

theorem Entries.kid (h : Entries atom as) {a : AItem} (ha : a ∈ as) {k : Node × Nat} (hk : k ∈ a.kids) : k.1 ∈ a.node.children := by
  rw [← h.nodes.kids a ha]; exact List.mem_map.2 ⟨k, hk, rfl⟩

theorem Entries.syms_sub (h : Entries atom as) {a : AItem} (ha : a ∈ as) {x : FV} (hx : x ∈ a.syms) : x ∈ Node.symss (atomArgs atom) := by
  unfold AItem.syms at hx
  split at hx
  · cases hx
  · rcases List.mem_append.1 hx with hx | hx
    · exact h.below ha (Node.own_syms hx)
    · obtain ⟨k, hk, hx⟩ := List.mem_flatMap.1 hx
      exact h.below ha (Node.syms_child (h.kid ha hk) (Node.kidOwn_syms hx))

/-- Every symbol of an entry that is kept or not a constant is that of an entry that is kept. -/
theorem Entries.covered (h : Entries atom as) {x : FV} : ∀ (s : Nat) {n : Node}, n.size ≤ s → ∀ {a : AItem}, a ∈ as → a.node = n → a.kept (atomArgs atom).length = true ∨ n.isCons = false →
    x ∈ n.syms → ∃ b ∈ as, b.kept (atomArgs atom).length = true ∧ x ∈ b.syms := by
  intro s
  induction s with
  | zero => intro n hs; have := size_children n; omega
  | succ s ih =>
    intro n hs a ha e hk hx
    have step : a.kept (atomArgs atom).length = true → n.isVar = false → x ∈ Node.symss n.children → ∃ b ∈ as, b.kept (atomArgs atom).length = true ∧ x ∈ b.syms := by
      intro hk hv hx
      obtain ⟨c, hc, hx⟩ := Node.mem_symss.1 hx
      have : c ∈ a.kids.map (·.1) := by rw [h.nodes.kids a ha, e]; exact hc
      obtain ⟨⟨c', r⟩, hkid, he⟩ := List.mem_map.1 this
      obtain rfl : c' = c := he
      by_cases hcc : c'.isCons = true
      · refine ⟨a, ha, hk, ?_⟩
        have hv' : a.node.isVar = false := by rw [e]; exact hv
        simp only [AItem.syms, hv', Bool.false_eq_true, if_false]
        refine List.mem_append_right _ (List.mem_flatMap.2 ⟨_, hkid, ?_⟩)
        cases c' with
        | cons v => exact hx
        | _ => simp [Node.isCons] at hcc
      · obtain ⟨b, hb, h1, _⟩ := h.nodes.kidItem a ha c' r hkid
        have hsz : c'.size ≤ s := by
          have := size_children n
          have := sizes_mem hc
          omega
        exact ih hsz hb h1 (.inr (by simpa using hcc)) hx
    have keep : (n.isFn || n.isEfn) = true → a.kept (atomArgs atom).length = true := by
      intro hf
      simp only [AItem.kept, e, Bool.or_eq_true] at hf ⊢
      rcases hf with hf | hf
      · exact .inl (.inr hf)
      · exact .inr hf
    cases n with
    | cons v =>
      refine ⟨a, ha, hk.resolve_right (by simp [Node.isCons]), ?_⟩
      simp only [AItem.syms, e, Node.isVar, Bool.false_eq_true, if_false]
      exact List.mem_append_left _ hx
    | fn f cs =>
      rcases List.mem_cons.1 hx with rfl | hx
      · refine ⟨a, ha, keep rfl, ?_⟩
        simp only [AItem.syms, e, Node.isVar, Bool.false_eq_true, if_false]
        exact List.mem_append_left _ (.head _)
      · exact step (keep rfl) rfl hx
    | efn f cs => exact step (keep rfl) rfl hx
    | var v => cases hx
    | int v => cases hx

theorem Entries.syms (h : Entries atom as) (x : FV) : (∃ a ∈ as, a.kept (atomArgs atom).length = true ∧ x ∈ a.syms) ↔ x ∈ Node.symss (atomArgs atom) := by
  constructor
  · rintro ⟨a, ha, _, hx⟩
    exact h.syms_sub ha hx
  · intro hx
    obtain ⟨c, hc, hx⟩ := Node.mem_symss.1 hx
    obtain ⟨i, hi⟩ := List.getElem?_of_mem hc
    obtain ⟨a, ha, e⟩ := h.nodes.args i c hi
    refine h.covered c.size (Nat.le_refl _) (List.mem_of_getElem? ha) e (.inl ?_) hx
    have := h.nodes.id i a ha
    have := (List.getElem?_eq_some_iff.1 hi).1
    simp only [AItem.kept, Bool.or_eq_true, decide_eq_true_eq]
    exact .inl (.inl (by omega))

theorem atomArgs_syms (atom : Node) : Node.symss (atomArgs atom) = atom.atomSyms := by
  cases atom <;> simp [atomArgs, Node.atomSyms, Node.symss, Node.syms, Node.children]

/-! ## The number of variables -/

theorem sum_perm {l l' : List Nat} (h : l.Perm l') : l.sum = l'.sum := by
  induction h with
  | nil => rfl
  | cons x _ ih => simp only [List.sum_cons, ih]
  | swap => simp only [List.sum_cons]; omega
  | trans _ _ h1 h2 => exact h1.trans h2

/-- The number of variables among nodes. -/
def nodesVar (ns : List Node) : Nat := (ns.map Node.kidVar).sum

theorem bfsLoop_vars : ∀ (n : Nat) (q : List (Nat × Node)) (next : Nat),
    ((bfsLoop n q next).map fun it => nodesVar it.node.children).sum + nodesVar (q.map (·.2)) ≤ (Node.varss (q.map (·.2))).length
  | 0, q, next => by
    have : ∀ ns : List Node, nodesVar ns ≤ (Node.varss ns).length := by
      intro ns
      induction ns with
      | nil => exact Nat.le_refl _
      | cons x q ih =>
        simp only [nodesVar, List.map_cons, List.sum_cons, Node.varss, List.length_append] at ih ⊢
        have : x.kidVar ≤ x.vars.length := by cases x <;> simp [Node.kidVar, Node.vars]
        omega
    simpa [bfsLoop] using this _
  | n + 1, [], next => by simp [bfsLoop, nodesVar]
  | n + 1, (i, nd) :: q, next => by
    have ih := bfsLoop_vars n (q ++ number next nd.children) (next + nd.children.length)
    have hn : ∀ (cs : List Node) k, (number k cs).map (·.2) = cs := by
      intro cs
      induction cs with
      | nil => intro k; rfl
      | cons c cs ih => intro k; simp [number, ih]
    have hv : ∀ a b : List Node, (Node.varss (a ++ b)).length = (Node.varss a).length + (Node.varss b).length := by
      intro a b
      induction a with
      | nil => simp [Node.varss]
      | cons c a ih => simp only [List.cons_append, Node.varss, List.length_append, ih]; omega
    have hk : nd.kidVar + (Node.varss nd.children).length = nd.vars.length := by
      cases nd <;> simp [Node.kidVar, Node.children, Node.vars, Node.varss]
    simp only [bfsLoop, List.map_cons, List.sum_cons, List.map_append, hn, hv, nodesVar, List.sum_append, Node.varss, List.length_append] at ih ⊢
    omega

theorem Entries.vars (h : Entries atom as) : ((flattenQuery (atomArgs atom).length as).map AItem.vars).sum ≤ (Node.varss (atomArgs atom)).length := by
  obtain ⟨s1, s2⟩ := flattenProgram_split h.nodes.id h.nodes.enough
  have hkids : ∀ a ∈ as, kidsVar a.kids = nodesVar a.node.children := by
    intro a ha
    rw [← h.nodes.kids a ha, nodesVar, kidsVar, List.map_map]; rfl
  have hall : (as.map fun a => nodesVar a.node.children).sum = ((items atom).map fun it => nodesVar it.node.children).sum := by
    have := congrArg (List.map fun n : Node => nodesVar n.children) h.all
    simp only [List.map_map, Function.comp_def] at this
    rw [this]
  have hb := bfsLoop_vars (Node.sizes (atomArgs atom)) (number 0 (atomArgs atom)) (atomArgs atom).length
  have hn : ∀ (cs : List Node) k, (number k cs).map (·.2) = cs := by
    intro cs
    induction cs with
    | nil => intro k; rfl
    | cons c cs ih => intro k; simp [number, ih]
  rw [hn] at hb
  have hfirst : ∀ l : List AItem, (∀ a ∈ l, a ∈ as) → (l.map AItem.vars).sum ≤ (l.map fun a => nodesVar a.node.children).sum + nodesVar (l.map (·.node)) := by
    intro l
    induction l with
    | nil => intro _; simp
    | cons a l ih =>
      intro hl
      have := ih fun b hb => hl b (.tail _ hb)
      have hk := hkids a (hl a (.head _))
      simp only [List.map_cons, List.sum_cons, nodesVar] at this ⊢
      have : a.vars ≤ nodesVar a.node.children + a.node.kidVar := by
        unfold AItem.vars
        cases hn : a.node <;> simp [Node.isVar, Node.kidVar, hn] at hk ⊢ <;> omega
      simp only [nodesVar] at this
      omega
  have hrest : ∀ l : List AItem, (∀ a ∈ l, a ∈ as) → ((l.filter fun a => a.node.isFn || a.node.isEfn).map AItem.vars).sum ≤ (l.map fun a => nodesVar a.node.children).sum := by
    intro l
    induction l with
    | nil => intro _; simp
    | cons a l ih =>
      intro hl
      have := ih fun b hb => hl b (.tail _ hb)
      have hk := hkids a (hl a (.head _))
      rw [List.filter_cons]
      split
      · rename_i hf
        have : a.vars = kidsVar a.kids := by
          unfold AItem.vars
          cases hn : a.node <;> simp [Node.isVar, hn, Node.isFn, Node.isEfn] at hf ⊢
        simp only [List.map_cons, List.sum_cons]; omega
      · simp only [List.map_cons, List.sum_cons]; omega
  have hnodes : (as.take (atomArgs atom).length).map (·.node) = atomArgs atom := by
    rw [List.map_take, h.all, items_nodes, List.take_append_of_le_length (Nat.le_refl _), List.take_length]
  have h1 := hfirst (as.take (atomArgs atom).length) fun a ha => List.mem_of_mem_take ha
  have h2 := hrest (as.drop (atomArgs atom).length) fun a ha => List.mem_of_mem_drop ha
  have h3 : (as.map fun a => nodesVar a.node.children).sum =
      ((as.take (atomArgs atom).length).map fun a => nodesVar a.node.children).sum + ((as.drop (atomArgs atom).length).map fun a => nodesVar a.node.children).sum := by
    rw [← List.sum_append, ← List.map_append, List.take_append_drop]
  rw [hnodes] at h1
  rw [flattenQuery, s1, s2, List.map_append, List.sum_append, List.map_reverse, List.sum_reverse]
  have hb' : ((items atom).map fun it => nodesVar it.node.children).sum + nodesVar (atomArgs atom) ≤ (Node.varss (atomArgs atom)).length := hb
  omega

end PBfs
