import Verif.Proof.Load
import Verif.Spec.Registers
/-! # Untangled clauses keep their registers -/
namespace PBfs

/-! ## The nodes of an atom, level by level -/

theorem Node.sizes_kids (ns : List Node) : Node.sizes (ns.flatMap Node.children) + ns.length = Node.sizes ns := by
  induction ns with
  | nil => rfl
  | cons n ns ih =>
    simp only [List.flatMap_cons, Node.sizes_append, List.length_cons, Node.sizes, Node.size_eq n]
    omega

theorem Node.beneath_nil (k : Nat) : Node.beneath k [] = [] := by
  induction k with
  | zero => rfl
  | succ k ih => simp [Node.beneath, ih]

theorem Node.beneath_stable (k : Nat) : ∀ ns : List Node, Node.sizes ns ≤ k → Node.beneath (k + 1) ns = Node.beneath k ns := by
  induction k with
  | zero =>
    intro ns h
    cases ns with
    | nil => rfl
    | cons n ns => simp [Node.sizes, Node.size_eq] at h
  | succ k ih =>
    intro ns h
    cases ns with
    | nil => rw [Node.beneath_nil, Node.beneath_nil]
    | cons n ns =>
      have := Node.sizes_kids (n :: ns)
      simp only [List.length_cons] at this
      rw [Node.beneath, ih _ (by omega)]
      rfl

theorem bfs_nodes (n : Nat) : ∀ (a b : List Node) (base : Nat), Node.sizes (a ++ b) ≤ n →
    (bfsLoop n (number base (a ++ b)) (base + (a ++ b).length)).map (·.node) =
      a ++ (b ++ a.flatMap Node.children) ++ Node.beneath n (b ++ a.flatMap Node.children) := by
  induction n with
  | zero =>
    intro a b base h
    have : a ++ b = [] := by
      cases hab : a ++ b with
      | nil => rfl
      | cons x y => rw [hab] at h; simp [Node.sizes, Node.size_eq] at h
    obtain ⟨rfl, rfl⟩ := List.append_eq_nil_iff.1 this
    rfl
  | succ n ih =>
    have step : ∀ (x : Node) (xs : List Node) (base : Nat),
        bfsLoop (n + 1) (number base (x :: xs)) (base + (x :: xs).length) =
          ⟨base, x, base + (x :: xs).length⟩ ::
            bfsLoop n (number (base + 1) (xs ++ x.children)) (base + 1 + (xs ++ x.children).length) := by
      intro x xs base
      simp only [number, bfsLoop, List.cons.injEq, true_and]
      rw [number_append]
      congr 1
      · simp only [List.length_cons]
        rw [show base + 1 + xs.length = base + (xs.length + 1) by omega]
      · simp; omega
    intro a b base h
    cases a with
    | cons x a =>
      rw [List.cons_append, step, List.map_cons]
      simp only [List.cons_append, Node.sizes, Node.size_eq x] at h
      have hs : Node.sizes (a ++ (b ++ x.children)) ≤ n := by
        rw [← List.append_assoc, Node.sizes_append]; omega
      rw [List.append_assoc, ih a (b ++ x.children) (base + 1) hs]
      have hs' : Node.sizes (b ++ x.children ++ a.flatMap Node.children) ≤ n := by
        have := Node.sizes_kids a
        simp only [Node.sizes_append] at hs ⊢
        omega
      simp only [List.flatMap_cons, ← List.append_assoc, List.cons_append]
      rw [Node.beneath_stable n _ hs']
    | nil =>
      cases b with
      | nil => simp [number, bfsLoop, Node.beneath_nil]
      | cons x b =>
        rw [List.nil_append, step, List.map_cons]
        simp only [List.nil_append, Node.sizes, Node.size_eq x] at h
        rw [ih b x.children (base + 1) (by rw [Node.sizes_append]; omega)]
        simp [Node.beneath]

theorem items_nodes (atom : Node) : (items atom).map (·.node) =
    atomArgs atom ++ Node.beneath (Node.sizes (atomArgs atom) + 1) (atomArgs atom) := by
  have := bfs_nodes (Node.sizes (atomArgs atom)) (atomArgs atom) [] 0 (by simp)
  simp only [List.append_nil, Nat.zero_add, List.nil_append] at this
  unfold items
  rw [this]
  simp [Node.beneath]

/-- The nodes that get new registers. -/
def wants (nargs : Nat) (it : Item) : Bool := it.node.isVar || decide (nargs ≤ it.id)

theorem items_claimants {atom : Node} (h : atom.isCons = false) :
    ((items atom).filter (wants (atomArgs atom).length)).map (·.node) = atom.claimants := by
  have ha : atomArgs atom = atom.children := by cases atom <;> first | rfl | simp [Node.isCons] at h
  have hid := (items_spec atom).2
  have hn := items_nodes atom
  rw [ha] at hid hn ⊢
  have h1 : ((items atom).take atom.children.length).map (·.node) = atom.children := by
    rw [List.map_take, hn, List.take_append_of_le_length (Nat.le_refl _), List.take_length]
  have h2 : ((items atom).drop atom.children.length).map (·.node) = Node.beneath atom.size atom.children := by
    rw [List.map_drop, hn, List.drop_append_of_le_length (Nat.le_refl _), List.drop_length, List.nil_append,
      Node.size_eq atom, Nat.add_comm]
  rw [← List.take_append_drop atom.children.length (items atom), List.filter_append, List.map_append]
  unfold Node.claimants
  congr 1
  · have : ∀ l : List Item, (∀ it ∈ l, it.id < atom.children.length) →
        (l.filter (wants atom.children.length)).map (·.node) = (l.map (·.node)).filter Node.isVar := by
      intro l
      induction l with
      | nil => intro _; rfl
      | cons it l ih =>
        intro hl
        have hlt := hl it (by simp)
        have he : wants atom.children.length it = it.node.isVar := by
          simp only [wants]
          have : decide (atom.children.length ≤ it.id) = false := by simp; omega
          rw [this, Bool.or_false]
        simp only [List.filter_cons, he, List.map_cons]
        split
        · rw [List.map_cons, ih fun i hi => hl i (by simp [hi])]
        · exact ih fun i hi => hl i (by simp [hi])
    rw [this, h1]
    intro it hit
    obtain ⟨k, hk⟩ := List.getElem?_of_mem hit
    rw [List.getElem?_take] at hk
    split at hk
    · have := (hid k it hk).1; omega
    · cases hk
  · rw [← h2, List.filter_eq_self.2]
    intro it hit
    obtain ⟨k, hk⟩ := List.getElem?_of_mem hit
    rw [List.getElem?_drop] at hk
    have := (hid _ it hk).1
    simp only [wants, Bool.or_eq_true, decide_eq_true_eq]
    right; omega

/-! ## Which registers are given out -/

structure Given (known : List Name) (nargs : Nat) (its : List Item) (st : RegSt) (xs : List Nat) (st' : RegSt) : Prop where
  var : ∀ v r, st'.varX.lookup v = some r → st.varX.lookup v = some r ∨
    ∃ j : Nat, (Node.fresh known ((its.filter (wants nargs)).map (·.node)))[j]? = some (.var v) ∧ r = st.ctr + j
  struct : ∀ (i : Nat) (it : Item) (x : Nat), its[i]? = some it → xs[i]? = some x → it.node.isVar = false → nargs ≤ it.id →
    ∃ j : Nat, (Node.fresh known ((its.filter (wants nargs)).map (·.node)))[j]? = some it.node ∧ x = st.ctr + j

theorem fresh_cons_other {known n ns} (h : n.isVar = false) : Node.fresh known (n :: ns) = n :: Node.fresh known ns := by
  cases n <;> first | rfl | simp [Node.isVar] at h

theorem assignItems_given {nargs} : ∀ {its : List Item} {known : List Name} {st : RegSt} {xs st'},
    assignItems nargs its st = (xs, st') → (∀ v, v ∈ known ↔ (st.varX.lookup v).isSome) →
    Given known nargs its st xs st' := by
  intro its
  induction its with
  | nil =>
    intro known st xs st' h hk
    simp only [assignItems, Prod.mk.injEq] at h
    obtain ⟨rfl, rfl⟩ := h
    exact ⟨fun _ _ h => .inl h, by simp⟩
  | cons it its ih =>
    intro known st xs st' h hk
    simp only [assignItems] at h
    cases hn : it.node with
    | var v =>
      have hw : wants nargs it = true := by simp [wants, hn, Node.isVar]
      simp only [hn] at h
      cases hl : st.varX.lookup v with
      | some r =>
        simp only [hl, Prod.mk.injEq] at h
        obtain ⟨rfl, rfl⟩ := h
        have g := ih (Prod.eta _).symm hk
        have hf : Node.fresh known (((it :: its).filter (wants nargs)).map (·.node)) =
            Node.fresh known ((its.filter (wants nargs)).map (·.node)) := by
          rw [List.filter_cons_of_pos hw, List.map_cons, hn, Node.fresh, if_pos ((hk v).2 (by rw [hl]; rfl))]
        refine ⟨by rw [hf]; exact g.var, ?_⟩
        rw [hf]
        intro i it' x hi hx hv hid
        cases i with
        | zero => simp at hi; subst hi; simp [hn, Node.isVar] at hv
        | succ i => exact g.struct i it' x (by simpa using hi) (by simpa using hx) hv hid
      | none =>
        simp only [hl, Prod.mk.injEq] at h
        obtain ⟨rfl, rfl⟩ := h
        have hlk : ∀ w, List.lookup w ((v, st.ctr) :: st.varX) = if w = v then some st.ctr else st.varX.lookup w := by
          intro w
          by_cases hw : w = v
          · subst hw; simp
          · have : (w == v) = false := by simpa using hw
            simp [List.lookup_cons, this, hw]
        have g := ih (st := ⟨(v, st.ctr) :: st.varX, st.ctr + 1⟩) (known := v :: known) (Prod.eta _).symm (by
          intro w
          simp only [List.mem_cons, hlk, hk w]
          by_cases hw : w = v <;> simp [hw])
        have hf : Node.fresh known (((it :: its).filter (wants nargs)).map (·.node)) =
            .var v :: Node.fresh (v :: known) ((its.filter (wants nargs)).map (·.node)) := by
          rw [List.filter_cons_of_pos hw, List.map_cons, hn, Node.fresh, if_neg]
          intro hm
          have := (hk v).1 hm
          rw [hl] at this; cases this
        generalize (assignItems nargs its ⟨(v, st.ctr) :: st.varX, st.ctr + 1⟩).2 = st2 at *
        generalize (assignItems nargs its ⟨(v, st.ctr) :: st.varX, st.ctr + 1⟩).1 = xs2 at *
        constructor
        · intro w r hwr
          rw [hf]
          rcases g.var w r hwr with h1 | ⟨j, h1, h2⟩
          · simp only [hlk] at h1
            split at h1
            · subst_vars; cases h1
              exact .inr ⟨0, rfl, rfl⟩
            · exact .inl h1
          · exact .inr ⟨j + 1, by simpa using h1, by simp only [] at h2; omega⟩
        · intro i it' x hi hx hv hid
          rw [hf]
          cases i with
          | zero => simp at hi; subst hi; simp [hn, Node.isVar] at hv
          | succ i =>
            obtain ⟨j, h1, h2⟩ := g.struct i it' x (by simpa using hi) (by simpa using hx) hv hid
            exact ⟨j + 1, by simpa using h1, by simp only [] at h2; omega⟩
    | _ =>
      have hnv : it.node.isVar = false := by rw [hn]; rfl
      simp only [hn] at h
      split at h
      · rename_i hid
        simp only [Prod.mk.injEq] at h
        obtain ⟨rfl, rfl⟩ := h
        have hw : wants nargs it = false := by
          simp only [wants, hnv, Bool.false_or, decide_eq_false_iff_not]; omega
        have g := ih (Prod.eta _).symm hk
        have hf : (it :: its).filter (wants nargs) = its.filter (wants nargs) := by
          rw [List.filter_cons_of_neg (by simp [hw])]
        refine ⟨by rw [hf]; exact g.var, ?_⟩
        rw [hf]
        intro i it' x hi hx hv hid'
        cases i with
        | zero => simp at hi; subst hi; omega
        | succ i => exact g.struct i it' x (by simpa using hi) (by simpa using hx) hv hid'
      · rename_i hid
        simp only [Prod.mk.injEq] at h
        obtain ⟨rfl, rfl⟩ := h
        have hw : wants nargs it = true := by
          simp only [wants, hnv, Bool.false_or, decide_eq_true_eq]; omega
        have g := ih (st := { st with ctr := st.ctr + 1 }) (Prod.eta _).symm hk
        have hf : Node.fresh known (((it :: its).filter (wants nargs)).map (·.node)) =
            it.node :: Node.fresh known ((its.filter (wants nargs)).map (·.node)) := by
          rw [List.filter_cons_of_pos hw, List.map_cons, fresh_cons_other hnv]
        generalize (assignItems nargs its { st with ctr := st.ctr + 1 }).2 = st2 at *
        generalize (assignItems nargs its { st with ctr := st.ctr + 1 }).1 = xs2 at *
        constructor
        · intro w r hwr
          rw [hf]
          rcases g.var w r hwr with h1 | ⟨j, h1, h2⟩
          · exact .inl h1
          · exact .inr ⟨j + 1, by simpa using h1, by simp only [] at h2; omega⟩
        · intro i it' x hi hx hv hid'
          rw [hf]
          cases i with
          | zero => simp at hi hx; subst hi; subst hx; exact ⟨0, rfl, rfl⟩
          | succ i =>
            obtain ⟨j, h1, h2⟩ := g.struct i it' x (by simpa using hi) (by simpa using hx) hv hid'
            exact ⟨j + 1, by simpa using h1, by simp only [] at h2; omega⟩

/-! ## The registers marked by a head -/

theorem markKid_mem {yOf c x seen r} (h : SReg.x r ∈ markKid yOf c x seen) :
    SReg.x r ∈ seen ∨ (r = x ∧ (c.isVar = true ∨ c.isFn = true ∨ c.isEfn = true)) := by
  unfold markKid at h
  split at h
  · exact .inl h
  · exact .inl h
  · split at h
    · exact .inl h
    · split at h
      · simp at h
        rcases h with h | h
        · exact .inr ⟨h, by simp [Node.isVar]⟩
        · exact .inl h
      · simp at h
        rcases h with h | h
        · exact .inr ⟨h, by simp [Node.isVar]⟩
        · exact .inl h
  · rename_i h1 h2 h3
    split at h
    · exact .inl h
    · simp only [List.mem_cons, SReg.x.injEq] at h
      rcases h with h | h
      · refine .inr ⟨h, ?_⟩
        cases c with
        | int v => exact absurd rfl (h1 v)
        | cons v => exact absurd rfl (h2 v)
        | var v => exact absurd rfl (h3 v)
        | fn f cs => simp [Node.isFn]
        | efn f cs => simp [Node.isEfn]
      · exact .inl h

theorem markKids_mem {yOf ks seen r} (h : SReg.x r ∈ markKids yOf ks seen) :
    SReg.x r ∈ seen ∨ ∃ c, (c, r) ∈ ks ∧ (c.isVar = true ∨ c.isFn = true ∨ c.isEfn = true) := by
  induction ks generalizing seen with
  | nil => exact .inl h
  | cons k ks ih =>
    obtain ⟨c, x⟩ := k
    rcases ih h with h | ⟨c', h1, h2⟩
    · rcases markKid_mem h with h | ⟨rfl, h'⟩
      · exact .inl h
      · exact .inr ⟨c, by simp, h'⟩
    · exact .inr ⟨c', by simp [h1], h2⟩

theorem markItems_mem {yOf as seen r} (h : SReg.x r ∈ markItems yOf as seen) :
    SReg.x r ∈ seen ∨ ∃ a ∈ as, (a.node.isVar = true ∧ a.x = r) ∨
      ∃ c, (c, r) ∈ a.kids ∧ (c.isVar = true ∨ c.isFn = true ∨ c.isEfn = true) := by
  induction as generalizing seen with
  | nil => exact .inl h
  | cons a as ih =>
    rcases ih h with h | ⟨b, h1, h2⟩
    · have hk : SReg.x r ∈ markKids yOf a.kids seen → SReg.x r ∈ seen ∨ ∃ b ∈ a :: as, (b.node.isVar = true ∧ b.x = r) ∨
          ∃ c, (c, r) ∈ b.kids ∧ (c.isVar = true ∨ c.isFn = true ∨ c.isEfn = true) := by
        intro h
        rcases markKids_mem h with h | h
        · exact .inl h
        · exact .inr ⟨a, by simp, .inr h⟩
      unfold markItem at h
      split at h
      · rename_i n hn
        rcases markKid_mem h with h | ⟨h, _⟩
        · exact .inl h
        · exact .inr ⟨a, by simp, .inl ⟨by rw [hn]; rfl, h.symm⟩⟩
      · exact hk h
    · exact .inr ⟨b, by simp [h1], h2⟩

/-- After the head, marked registers belong to variables or arithmetic expressions of the head. -/
theorem headSym_has {yOf head nr hs xOf r} (R : Regs head nr hs xOf) (hc : head.isCons = false)
    (h : (headSym yOf head hs).has (.x r) = true) :
    ∃ a ∈ hs, a.x = r ∧ (a.node.isVar = true ∨ (a.node.isEfn = true ∧ (atomArgs head).length ≤ a.id)) := by
  simp only [Sym.has, List.contains_iff_mem, headSym, eraseStructRegs, hc, Bool.false_eq_true, if_false, List.mem_filter,
    Bool.not_eq_true', List.any_eq_false] at h
  obtain ⟨h1, h2⟩ := h
  rcases markItems_mem h1 with h1 | ⟨a, ha, h3⟩
  · simp at h1
  · have ha := (List.mem_filter.1 ha).1
    rcases h3 with ⟨h3, h4⟩ | ⟨c, h3, h4⟩
    · exact ⟨a, ha, h4, .inl h3⟩
    · obtain ⟨b, hb, rfl, rfl, _, hid⟩ := R.kidItem a ha c r h3
      refine ⟨b, hb, rfl, ?_⟩
      rcases h4 with h4 | h4 | h4
      · exact .inl h4
      · have := h2 b hb
        simp [h4] at this
      · exact .inr ⟨h4, hid⟩

/-! ## Untangled clauses -/

theorem assignPair_eq {head b : Node} (hh : head.isCons = false) (hb : b.isCons = false) :
    assignPair head b = (((assignAtom [] head).1, (assignAtom [] head).2.varX),
      ((assignAtom (assignAtom [] head).2.varX b).1, (assignAtom (assignAtom [] head).2.varX b).2.varX),
      max (assignAtom [] head).2.ctr (assignAtom (assignAtom [] head).2.varX b).2.ctr) := by
  cases head <;> cases b <;> first | rfl | simp [Node.isCons] at hh hb

theorem mem_zipIdx_of {l : List Node} {k j : Nat} {n : Node} (h : l[j]? = some n) : (n, k + j) ∈ l.zipIdx k := by
  rw [List.mk_mem_zipIdx_iff_le_and_getElem?_sub]
  exact ⟨by omega, by rw [Nat.add_sub_cancel_left]; exact h⟩

theorem atomArgs_children {a : Node} (h : a.isCons = false) : atomArgs a = a.children := by
  cases a <;> first | rfl | simp [Node.isCons] at h

theorem untangled_main {ord : HashOrder} (ho : ord.OK) {head b : Node} {bs : List Node} (hh : head.isCons = false)
    (hb : b.isCons = false) (h : Node.untangled head b (bs.flatMap fun a => Node.varss a.children) = true) :
    safeClause ord head (b :: bs) = true := by
  simp only [safeClause]
  obtain ⟨R, _⟩ := assignPair_head head b
  obtain ⟨Nh, Nb⟩ := assignPair_nodes head b
  rw [assignPair_eq hh hb] at R Nh Nb ⊢
  simp only [] at R Nh Nb ⊢
  generalize hys : permVars ord true (head :: b :: bs) = ys
  -- permanent variables
  have hperm : ∀ v, indexOf? v ys = none → v ∈ Node.varss head.children ∨ v ∈ Node.varss b.children →
      v ∉ bs.flatMap fun a => Node.varss a.children := by
    intro v hy hv hbs
    obtain ⟨a, ha, hva⟩ := List.mem_flatMap.1 hbs
    rw [← hys] at hy
    exact yOf_none ho hy (permVarsRaw_clause_first hv ha hva)
  have hyinj : ∀ n m y, indexOf? n ys = some y → indexOf? m ys = some y → n = m := by
    subst hys; exact yOf_inj
  generalize hyOf : (indexOf? · ys) = yOf
  replace hperm : ∀ v, yOf v = none → v ∈ Node.varss head.children ∨ v ∈ Node.varss b.children →
      v ∉ bs.flatMap fun a => Node.varss a.children := by subst hyOf; exact hperm
  replace hyinj : ∀ n m y, yOf n = some y → yOf m = some y → n = m := by subst hyOf; exact hyinj
  generalize hlater : (bs.flatMap fun a => Node.varss a.children) = later at *
  clear hyOf hys
  -- the condition
  simp only [Node.untangled, hh, hb, Bool.false_or, List.all_eq_true, Bool.and_eq_true, Bool.or_eq_true, decide_eq_true_eq] at h
  have hargsH := atomArgs_children hh
  have hargsB := atomArgs_children hb
  -- registers of the head
  simp only [assignAtom] at R Nh Nb ⊢
  have sh := assignItems_spec (nargs := (atomArgs head).length) (its := items head) (st := ⟨[], (atomArgs head).length⟩) (Prod.eta _).symm
  have gh := assignItems_given (nargs := (atomArgs head).length) (its := items head) (known := []) (st := ⟨[], (atomArgs head).length⟩)
    (Prod.eta _).symm (by simp)
  generalize (assignItems (atomArgs head).length (items head) ⟨[], (atomArgs head).length⟩).2 = hst at *
  generalize (assignItems (atomArgs head).length (items head) ⟨[], (atomArgs head).length⟩).1 = hxs at *
  have hknown : ∀ v, v ∈ Node.varss head.children ↔ (hst.varX.lookup v).isSome := by
    intro v
    rw [← hargsH, ← Nh.itemVar]
    constructor
    · rintro ⟨a, ha, hn⟩
      rw [R.var a ha v hn]; rfl
    · intro hs
      obtain ⟨r, hr⟩ := Option.isSome_iff_exists.1 hs
      exact R.varMem v r hr
  have sb := assignItems_spec (nargs := (atomArgs b).length) (its := items b) (st := ⟨hst.varX, (atomArgs b).length⟩) (Prod.eta _).symm
  have gb := assignItems_given (nargs := (atomArgs b).length) (its := items b) (known := Node.varss head.children)
    (st := ⟨hst.varX, (atomArgs b).length⟩) (Prod.eta _).symm hknown
  generalize (assignItems (atomArgs b).length (items b) ⟨hst.varX, (atomArgs b).length⟩).2 = bst at *
  generalize (assignItems (atomArgs b).length (items b) ⟨hst.varX, (atomArgs b).length⟩).1 = bxs at *
  obtain ⟨a1, a2, a3, a4⟩ := annotate_spec b bxs
  obtain ⟨c1, c2, c3, c4⟩ := annotate_spec head hxs
  have hx : ∀ {k : Nat} {a : AItem}, (annotate (items b) bxs)[k]? = some a → bxs[k]? = some a.x := by
    intro k a ha
    obtain ⟨_, h2, it, h3, _⟩ := a1 k a ha
    have hlt : k < bxs.length := by rw [sb.len]; exact (List.getElem?_eq_some_iff.1 h3).1
    rw [h2, List.getD_eq_getElem?_getD, List.getElem?_eq_getElem hlt]; rfl
  have hxh : ∀ {k : Nat} {a : AItem}, (annotate (items head) hxs)[k]? = some a → hxs[k]? = some a.x := by
    intro k a ha
    obtain ⟨_, h2, it, h3, _⟩ := c1 k a ha
    have hlt : k < hxs.length := by rw [sh.len]; exact (List.getElem?_eq_some_iff.1 h3).1
    rw [h2, List.getD_eq_getElem?_getD, List.getElem?_eq_getElem hlt]; rfl
  -- what the specification calls `headRegs` and `bodyRegs`
  have hvarH : ∀ v r, hst.varX.lookup v = some r → (Node.var v, r) ∈ head.headRegs := by
    intro v r hr
    rcases gh.var v r hr with h1 | ⟨j, h1, h2⟩
    · simp at h1
    · rw [items_claimants hh] at h1
      have := mem_zipIdx_of (k := head.children.length) h1
      rw [hargsH] at h2
      rw [h2]; exact this
  have hstrH : ∀ a ∈ annotate (items head) hxs, a.node.isVar = false → (atomArgs head).length ≤ a.id → (a.node, a.x) ∈ head.headRegs := by
    intro a ha hv hid
    obtain ⟨k, hk⟩ := List.getElem?_of_mem ha
    obtain ⟨h1, _, it, h3, h4, h5⟩ := c1 k a hk
    obtain ⟨j, g1, g2⟩ := gh.struct k it a.x h3 (hxh hk) (by rw [h4]; exact hv) (by omega)
    rw [items_claimants hh] at g1
    have := mem_zipIdx_of (k := head.children.length) g1
    rw [hargsH] at g2
    rw [g2, ← h4]; exact this
  have hvarB : ∀ v r, bst.varX.lookup v = some r → hst.varX.lookup v = none → (Node.var v, r) ∈ Node.bodyRegs head b := by
    intro v r hr hn
    rcases gb.var v r hr with h1 | ⟨j, h1, h2⟩
    · simp only [] at h1; rw [hn] at h1; cases h1
    · rw [items_claimants hb] at h1
      have := mem_zipIdx_of (k := b.children.length) h1
      rw [hargsB] at h2
      rw [h2]; exact this
  have hstrB : ∀ a ∈ annotate (items b) bxs, a.node.isVar = false → (atomArgs b).length ≤ a.id → (a.node, a.x) ∈ Node.bodyRegs head b := by
    intro a ha hv hid
    obtain ⟨k, hk⟩ := List.getElem?_of_mem ha
    obtain ⟨h1, _, it, h3, h4, h5⟩ := a1 k a hk
    obtain ⟨j, g1, g2⟩ := gb.struct k it a.x h3 (hx hk) (by rw [h4]; exact hv) (by omega)
    rw [items_claimants hb] at g1
    have := mem_zipIdx_of (k := b.children.length) g1
    rw [hargsB] at g2
    rw [g2, ← h4]; exact this
  -- a new temporary variable of the body shares with no variable or arithmetic expression of the head
  have hnew : ∀ w r, yOf w = none → w ∈ Node.varss b.children → bst.varX.lookup w = some r → hst.varX.lookup w = none →
      ∀ n, (n, r) ∈ head.headRegs → n.isVar = false ∧ n.isEfn = false := by
    intro w r hy hw hr hn n hm
    rcases (h _ hm).1 _ (hvarB w r hr hn) with h1 | h1
    · exact absurd rfl h1
    · simp only [Node.mayShare, Bool.or_eq_true, decide_eq_true_eq, Bool.not_eq_true', Bool.or_eq_false_iff] at h1
      exact h1.resolve_left (hperm w hy (.inr hw))
  have hold : ∀ v r, bst.varX.lookup v = some r → hst.varX.lookup v = some r ∨ (hst.varX.lookup v = none ∧ (atomArgs b).length ≤ r ∧ r < bst.ctr) :=
    sb.new
  have hxOf : ∀ {v r}, (if yOf v = none ∧ v ∈ Node.varss b.children then bst.varX.lookup v else none) = some r →
      yOf v = none ∧ v ∈ Node.varss b.children ∧ bst.varX.lookup v = some r := by
    intro v r h
    split at h
    · rename_i h'; exact ⟨h'.1, h'.2, h⟩
    · cases h
  have hib : ∀ a ∈ annotate (items b) bxs, ∀ v, a.node = .var v → v ∈ Node.varss b.children := by
    intro a ha v hv
    rw [← hargsB, ← Nb.itemVar]
    exact ⟨a, ha, hv⟩
  have Q : QRegs yOf b (max hst.ctr bst.ctr) (annotate (items b) bxs)
      (fun v => if yOf v = none ∧ v ∈ Node.varss b.children then bst.varX.lookup v else none) :=
    { id := fun k a h => (a1 k a h).1
      kidItem := a3
      var := fun a ha v hv hy => by
        rw [if_pos ⟨hy, hib a ha v hv⟩]
        obtain ⟨k, hk⟩ := List.getElem?_of_mem ha
        obtain ⟨_, _, it, h3, h4, _⟩ := a1 k a hk
        exact sb.var k it a.x v h3 (hx hk) (h4.trans hv)
      varR := fun v r hr => by
        obtain ⟨_, _, hr⟩ := hxOf hr
        rcases hold v r hr with h1 | ⟨_, _, h1⟩
        · exact (R.varR v r h1).2
        · exact Nat.lt_of_lt_of_le h1 (Nat.le_max_right ..)
      varInj := fun v w r hv hw => by
        obtain ⟨v1, v2, v3⟩ := hxOf hv
        obtain ⟨w1, w2, w3⟩ := hxOf hw
        rcases hold v r v3 with h1 | ⟨h1, _, _⟩
        · rcases hold w r w3 with h2 | ⟨h2, _, _⟩
          · exact R.varInj v w r h1 h2
          · have := (hnew w r w1 w2 w3 h2 _ (hvarH v r h1)).1
            simp [Node.isVar] at this
        · rcases hold w r w3 with h2 | ⟨h2, _, _⟩
          · have := (hnew v r v1 v2 v3 h1 _ (hvarH w r h2)).1
            simp [Node.isVar] at this
          · exact sb.newInj v w r v3 w3 h1 h2
      low := fun v r hv hlt a ha hid => by
        obtain ⟨v1, v2, v3⟩ := hxOf hv
        rcases hold v r v3 with h1 | ⟨_, h1, _⟩
        · have hm := (h _ (hvarH v r h1)).2
          simp only [Bool.or_eq_true, decide_eq_true_eq, List.all_eq_true] at hm
          have hm := hm.resolve_left (hperm v v1 (.inr v2))
          obtain ⟨k, hk⟩ := List.getElem?_of_mem ha
          have hka := (a1 k a hk).1
          rw [hka, hargsB] at hid
          have hlk : (atomArgs b)[k]? = some b.children[k] := by rw [hargsB, List.getElem?_eq_getElem hid]
          obtain ⟨a', ha', hn'⟩ := a4 k _ hlk
          rw [hk] at ha'; cases ha'
          have := hm (a.node, k) (by
            have := mem_zipIdx_of (k := 0) (List.getElem?_eq_getElem hid)
            rw [hn']; simpa using this)
          simp only [Node.mayStore, Bool.or_eq_true, decide_eq_true_eq, Bool.and_eq_true, Bool.not_eq_true', decide_eq_false_iff_not] at this
          rw [hka]
          refine ⟨fun hav => ?_, fun x hx' => ?_⟩
          · rcases this with (this | this) | this
            · omega
            · rw [hav] at this; simp [Node.vars] at this
            · omega
          · have hc : Node.var v ∈ a.node.children := by
              rw [← a2 a ha]; exact List.mem_map.2 ⟨_, hx', rfl⟩
            rcases this with (this | this) | this
            · exact this
            · exact absurd (Node.mem_vars_child hc (by simp [Node.vars])) this
            · cases hn : a.node <;> rw [hn] at hc this <;> simp [Node.isVar, Node.children] at hc this
        · omega
      sReg := fun a ha hv hid => by
        obtain ⟨k, hk⟩ := List.getElem?_of_mem ha
        obtain ⟨h1, _, it, h3, h4, h5⟩ := a1 k a hk
        obtain ⟨b1, b2, b3⟩ := sb.struct k it a.x h3 (hx hk) (by rw [h4]; exact hv) (by omega)
        refine ⟨b1, Nat.lt_of_lt_of_le b2 (Nat.le_max_right ..), fun v hv' => ?_⟩
        obtain ⟨v1, v2, v3⟩ := hxOf hv'
        have hvH := hvarH v _ (b3 v v3)
        rcases (h _ hvH).1 _ (hstrB a ha hv hid) with h1 | h1
        · exact absurd rfl h1
        · have : decide (v ∈ later) || !decide (v ∈ Node.varss b.children) := by
            cases hn : a.node <;> rw [hn] at h1 hv <;> first | exact h1 | simp [Node.isVar] at hv
          simp only [Bool.or_eq_true, decide_eq_true_eq, Bool.not_eq_true', decide_eq_false_iff_not] at this
          rcases this with this | this
          · exact hperm v v1 (.inr v2) this
          · exact this v2
      sInj := fun a ha c hc hva hvb hia hib hab => by
        obtain ⟨k, hk⟩ := List.getElem?_of_mem ha
        obtain ⟨j, hj⟩ := List.getElem?_of_mem hc
        obtain ⟨h1, _, it, h3, h4, h5⟩ := a1 k a hk
        obtain ⟨g1, _, jt, g3, g4, g5⟩ := a1 j c hj
        have := sb.structInj k it j jt a.x h3 (hx hk) (by rw [h4]; exact hva) (by omega) g3
          (by rw [hab]; exact hx hj) (by rw [g4]; exact hvb) (by omega)
        subst this
        rw [hk] at hj; cases hj; rfl
      arg := fun a ha hv hid => by
        obtain ⟨k, hk⟩ := List.getElem?_of_mem ha
        obtain ⟨h1, _, it, h3, h4, h5⟩ := a1 k a hk
        have := sb.arg k it a.x h3 (hx hk) (by rw [h4]; exact hv) (by omega)
        omega
      nr := Nat.le_trans sb.ctr (Nat.le_max_right ..)
      args := a4 }
  have sane := headSym_sane hyinj R Nh
  obtain ⟨m1, m2⟩ := headMarks_spec hyinj R.varInj R Nh
  obtain ⟨S', h1, _⟩ := symAtom_gen Q hyinj (S := headSym yOf head (annotate (items head) hxs))
    { st := fun _ _ _ _ h => h.elim
      vr := fun v r hy hr => by
        obtain ⟨v1, v2, v3⟩ := hxOf hr
        rcases hold v r v3 with g1 | ⟨g1, g2, g3⟩
        · -- a variable of the head
          obtain ⟨a, ha, hn⟩ := R.varMem v r g1
          have hax : a.x = r := by
            have := R.var a ha v hn
            rw [g1] at this; cases this; rfl
          have hin : (headSym yOf head (annotate (items head) hxs)).x r = some (.var v) := by
            simp only [headSym]
            cases hf : (annotate (items head) hxs).find? fun a => a.node.isVar && (yOf a.node.name).isNone && a.x == r with
            | none =>
              have := List.find?_eq_none.1 hf a ha
              simp [hn, Node.isVar, Node.name, v1, hax] at this
            | some c =>
              have hc1 := List.mem_of_find?_eq_some hf
              have hc2 := List.find?_some hf
              simp only [Bool.and_eq_true, beq_iff_eq] at hc2
              cases hcn : c.node with
              | var w =>
                have := R.var c hc1 w hcn
                rw [hc2.2] at this
                rw [R.varInj v w r g1 this, Option.map_some, hcn]
              | _ => rw [hcn] at hc2; exact absurd hc2.1.1 (by simp [Node.isVar])
          refine ⟨fun _ => hin, fun hf => ?_⟩
          exfalso
          have hm := m1 v r g1
          have : (headSym yOf head (annotate (items head) hxs)).has (.x r) = true := by
            simp only [Sym.has, List.contains_iff_mem, headSym, eraseStructRegs, hh, Bool.false_eq_true, if_false, List.mem_filter]
            refine ⟨hm, ?_⟩
            simp only [Bool.not_eq_true', List.any_eq_false]
            intro c hc hcc
            simp only [Bool.and_eq_true, Bool.or_eq_true, beq_iff_eq, SReg.x.injEq] at hcc
            have hcv : c.node.isVar = false := by
              cases hcn : c.node <;> rw [hcn] at hcc <;> first | rfl | simp [Node.isFn, Node.isCons] at hcc
            by_cases hid : c.id < (atomArgs head).length
            · have e1 := R.arg c hc hcv hid
              have e2 := (R.varR v r g1).1
              omega
            · exact (R.sReg c hc hcv (by omega)).2.2 v (by rw [← hcc.2]; exact g1)
          rw [hf] at this; cases this
        · -- a new variable
          have hnm : (headSym yOf head (annotate (items head) hxs)).has (.x r) = false := by
            cases hf : (headSym yOf head (annotate (items head) hxs)).has (.x r) with
            | false => rfl
            | true =>
              obtain ⟨a, ha, hax, hk⟩ := headSym_has R hh hf
              have hcl := hnew v r v1 v2 v3 g1
              rcases hk with hk | ⟨hk, hid⟩
              · cases hn : a.node <;> rw [hn] at hk <;> simp [Node.isVar] at hk
                have := R.var a ha _ hn
                rw [hax] at this
                have := (hcl _ (hvarH _ r this)).1
                simp [Node.isVar] at this
              · have hnv : a.node.isVar = false := by
                  cases hn : a.node <;> rw [hn] at hk <;> first | rfl | simp [Node.isEfn] at hk
                have := (hcl a.node (by rw [← hax]; exact hstrH a ha hnv hid)).2
                rw [hk] at this; cases this
          refine ⟨fun hf => (by rw [hnm] at hf; cases hf), fun _ => ?_⟩
          show v ∉ Node.varss (atomArgs head)
          rw [hargsH, hknown, g1]
          simp
      vy := sane.y
      arg := fun _ _ _ h => h.elim
      live := fun _ _ _ h => h.elim }
  rw [Option.isSome_iff_exists]
  exact ⟨S', h1⟩

theorem untangled_clause {ord : HashOrder} (ho : ord.OK) {cl : Clause} (h : cl.untangled = true) :
    safeClause ord cl.head cl.body = true := by
  obtain ⟨head, body⟩ := cl
  cases body with
  | nil => rfl
  | cons b bs =>
    cases hb : b.isCons with
    | true =>
      cases b <;> simp [Node.isCons] at hb
      rename_i c
      simp only [safeClause]
      obtain ⟨R, _⟩ := assignPair_head head (.cons c)
      obtain ⟨Nh, Nb⟩ := assignPair_nodes head (.cons c)
      have sane := headSym_sane (yOf := (indexOf? · (permVars ord true (head :: .cons c :: bs)))) yOf_inj R Nh
      have Rb : Regs (.cons c) (assignPair head (.cons c)).2.2 (assignPair head (.cons c)).2.1.1 ((assignSingle (.cons c)).2.1.lookup ·) :=
        Regs.mono (nr := (assignSingle (.cons c)).2.2) (assignSingle_regs rfl) (by
          have : (assignSingle (.cons c)).2.2 = 1 := rfl
          rw [this]; simp [assignPair])
      obtain ⟨S', h1, _⟩ := symAtom_gen (Rb.q (indexOf? · (permVars ord true (head :: .cons c :: bs)))) yOf_inj
        (S := headSym (indexOf? · (permVars ord true (head :: .cons c :: bs))) head (assignPair head (.cons c)).1.1)
        { st := fun _ _ _ _ h => h.elim
          vr := fun v r hy hr => by
            rw [if_pos hy] at hr
            have := Nb.itemVar.1 (Rb.varMem v r hr)
            simp [atomArgs, Node.varss, Node.vars] at this
          vy := sane.y
          arg := fun _ _ _ h => h.elim
          live := fun _ _ _ h => h.elim }
      rw [Option.isSome_iff_exists]
      exact ⟨S', h1⟩
    | false =>
      cases hh : head.isCons with
      | true =>
        cases head <;> simp [Node.isCons] at hh
        rename_i c
        have he : assignPair (.cons c) b = (((assignSingle (.cons c)).1, (assignSingle (.cons c)).2.1),
            ((assignSingle b).1, (assignSingle b).2.1), 1 + (assignSingle b).2.2) := by
          cases b <;> first | rfl | simp [Node.isCons] at hb
        simp only [safeClause, he]
        obtain ⟨S', h1, _⟩ := symAtom_ok (yOf := (indexOf? · (permVars ord true (.cons c :: b :: bs))))
          (Regs.mono (atom := b) (assignSingle_regs rfl) (Nat.le_add_left _ 1)) yOf_inj
          (S := headSym (indexOf? · (permVars ord true (.cons c :: b :: bs))) (.cons c) (assignSingle (.cons c)).1)
          (fun r => rfl) (fun v y _ => by
            constructor
            · intro h; cases h
            · intro h; simp [headSym, atomArgs, Node.varss, Node.vars] at h)
          (fun v _ _ h => by simp [headSym, atomArgs, Node.varss, Node.vars] at h)
        rw [Option.isSome_iff_exists]
        exact ⟨S', h1⟩
      | false => exact untangled_main ho hh hb h

/-- Programs without register clashes are compiled correctly. -/
theorem untangled_safe {ord : HashOrder} (ho : ord.OK) {p : List Clause} (h : Untangled p) : SafeProg ord p :=
  fun cl hcl => ⟨(h cl hcl).1, untangled_clause ho (h cl hcl).2⟩

end PBfs
