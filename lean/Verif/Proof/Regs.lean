import Verif.Spec.Pick
import Verif.Proof.Den
/-! # Breadth-first numbering and register assignment -/
namespace PBfs

theorem number_append (k : Nat) (a b : List Node) :
    number k (a ++ b) = number k a ++ number (k + a.length) b := by
  induction a generalizing k with
  | nil => simp [number]
  | cons c cs ih =>
    simp only [List.cons_append, number, ih, List.length_cons]
    rw [show k + 1 + cs.length = k + (cs.length + 1) by omega]

theorem Node.size_eq (n : Node) : n.size = 1 + Node.sizes n.children := by
  cases n <;> simp [Node.size, Node.children, Node.sizes]

theorem Node.sizes_append (a b : List Node) : Node.sizes (a ++ b) = Node.sizes a + Node.sizes b := by
  induction a with
  | nil => simp [Node.sizes]
  | cons c cs ih => simp [Node.sizes, ih]; omega

/-- The queue loop lists all nodes; children are found where the numbers say. -/
theorem bfs_spec : ∀ (n : Nat) (nds : List Node) (base : Nat), Node.sizes nds ≤ n →
    (bfsLoop n (number base nds) (base + nds.length)).length = Node.sizes nds ∧
    (∀ (j : Nat) (nd : Node), nds[j]? = some nd →
      ∃ it : Item, (bfsLoop n (number base nds) (base + nds.length))[j]? = some it ∧ it.node = nd) ∧
    (∀ (j : Nat) (it : Item), (bfsLoop n (number base nds) (base + nds.length))[j]? = some it →
      it.id = base + j ∧ it.id < it.cstart ∧ base + nds.length ≤ it.cstart ∧
      ∀ (m : Nat) (c : Node), it.node.children[m]? = some c →
        ∃ it' : Item, (bfsLoop n (number base nds) (base + nds.length))[it.cstart - base + m]? = some it' ∧
          it'.node = c) := by
  intro n
  induction n with
  | zero =>
    intro nds base h
    match nds with
    | [] => simp [bfsLoop, Node.sizes]
    | nd :: nds => simp [Node.sizes, Node.size_eq] at h
  | succ n ih =>
    intro nds base h
    match nds with
    | [] => simp [bfsLoop, number, Node.sizes]
    | nd :: nds =>
      simp only [Node.sizes, Node.size_eq] at h
      have hq : bfsLoop (n + 1) (number base (nd :: nds)) (base + (nd :: nds).length) =
          ⟨base, nd, base + (nd :: nds).length⟩ ::
            bfsLoop n (number (base + 1) (nds ++ nd.children)) (base + 1 + (nds ++ nd.children).length) := by
        simp only [number, bfsLoop, List.cons.injEq, true_and]
        rw [number_append]
        congr 1
        · simp only [List.length_cons]
          rw [show base + 1 + nds.length = base + (nds.length + 1) by omega]
        · simp; omega
      obtain ⟨i0, i1, i2⟩ := ih (nds ++ nd.children) (base + 1) (by rw [Node.sizes_append]; omega)
      rw [hq]
      refine ⟨?_, ?_, ?_⟩
      · simp only [List.length_cons, i0, Node.sizes, Node.sizes_append, Node.size_eq nd]; omega
      · intro j nd' hj
        cases j with
        | zero =>
          simp only [List.getElem?_cons_zero, Option.some.injEq] at hj
          exact ⟨_, rfl, hj⟩
        | succ j =>
          simp only [List.getElem?_cons_succ] at hj ⊢
          exact i1 j nd' (by rw [List.getElem?_append_left (List.getElem?_eq_some_iff.1 hj).1]; exact hj)
      · intro j it hj
        cases j with
        | zero =>
          simp only [List.getElem?_cons_zero, Option.some.injEq] at hj
          subst hj
          refine ⟨rfl, by simp, Nat.le_refl _, ?_⟩
          intro m c hc
          obtain ⟨it', h1, h2⟩ := i1 (nds.length + m) c (by
            rw [List.getElem?_append_right (by omega), Nat.add_sub_cancel_left]; exact hc)
          refine ⟨it', ?_, h2⟩
          simp only [List.length_cons]
          rw [show base + (nds.length + 1) - base + m = (nds.length + m) + 1 by omega,
            List.getElem?_cons_succ]
          exact h1
        | succ j =>
          simp only [List.getElem?_cons_succ] at hj
          obtain ⟨a1, a2, a3, a4⟩ := i2 j it hj
          refine ⟨by omega, a2, ?_, ?_⟩
          · simp only [List.length_append] at a3
            simp only [List.length_cons]; omega
          · intro m c hc
            obtain ⟨it', h1, h2⟩ := a4 m c hc
            refine ⟨it', ?_, h2⟩
            simp only [List.length_append] at a3
            rw [show it.cstart - base + m = (it.cstart - (base + 1) + m) + 1 by omega,
              List.getElem?_cons_succ]
            exact h1

theorem bfs_all {P : Node → Prop} (hc : ∀ n c, P n → c ∈ n.children → P c) : ∀ (n : Nat) (nds : List Node) (base next : Nat),
    (∀ nd ∈ nds, P nd) → next = base + nds.length → ∀ it ∈ bfsLoop n (number base nds) next, P it.node := by
  intro n
  induction n with
  | zero => intro nds base next h _ it hit; simp [bfsLoop] at hit
  | succ n ih =>
    intro nds base next h hn it hit
    match nds with
    | [] => simp [bfsLoop, number] at hit
    | nd :: nds =>
      simp only [number, bfsLoop, List.mem_cons] at hit
      rcases hit with rfl | hit
      · exact h nd (by simp)
      · have heq : number (base + 1) nds ++ number next nd.children = number (base + 1) (nds ++ nd.children) := by
          rw [number_append, hn]
          congr 2
          simp; omega
        rw [heq] at hit
        refine ih (nds ++ nd.children) (base + 1) _ ?_ (by simp at hn ⊢; omega) it hit
        intro x hx
        rcases List.mem_append.1 hx with hx | hx
        · exact h x (by simp [hx])
        · exact hc nd x (h nd (by simp)) hx

theorem items_spec (atom : Node) :
    (∀ (j : Nat) (nd : Node), (atomArgs atom)[j]? = some nd → ∃ it : Item, (items atom)[j]? = some it ∧ it.node = nd) ∧
    (∀ (j : Nat) (it : Item), (items atom)[j]? = some it → it.id = j ∧ it.id < it.cstart ∧ (atomArgs atom).length ≤ it.cstart ∧
      ∀ (m : Nat) (c : Node), it.node.children[m]? = some c →
        ∃ it' : Item, (items atom)[it.cstart + m]? = some it' ∧ it'.node = c) := by
  have h := bfs_spec _ (atomArgs atom) 0 (Nat.le_refl _)
  simp only [Nat.zero_add, Nat.sub_zero] at h
  exact ⟨h.2.1, h.2.2⟩

theorem items_wf {atom : Node} (h : atom.wf = true) : ∀ it ∈ items atom, it.node.wf = true := by
  refine bfs_all (P := fun n => n.wf = true) (fun n c hn hc => Node.wf_child hn hc) _ _ _ _ ?_ (by simp)
  intro nd hnd
  unfold atomArgs at hnd
  split at hnd
  · simp only [List.mem_singleton] at hnd; subst hnd; rfl
  · exact Node.wf_child h hnd

/-- What `assignItems` does. -/
structure AssignSpec (nargs : Nat) (its : List Item) (st : RegSt) (xs : List Nat) (st' : RegSt) : Prop where
  len : xs.length = its.length
  ctr : st.ctr ≤ st'.ctr
  keep : ∀ v r, st.varX.lookup v = some r → st'.varX.lookup v = some r
  new : ∀ v r, st'.varX.lookup v = some r →
    st.varX.lookup v = some r ∨ (st.varX.lookup v = none ∧ st.ctr ≤ r ∧ r < st'.ctr)
  newInj : ∀ v w r, st'.varX.lookup v = some r → st'.varX.lookup w = some r → st.varX.lookup v = none →
    st.varX.lookup w = none → v = w
  var : ∀ (i : Nat) (it : Item) (x : Nat) (v : Name), its[i]? = some it → xs[i]? = some x → it.node = .var v → st'.varX.lookup v = some x
  arg : ∀ (i : Nat) (it : Item) (x : Nat), its[i]? = some it → xs[i]? = some x → it.node.isVar = false → it.id < nargs → x = it.id
  struct : ∀ (i : Nat) (it : Item) (x : Nat), its[i]? = some it → xs[i]? = some x → it.node.isVar = false → nargs ≤ it.id →
    st.ctr ≤ x ∧ x < st'.ctr ∧ ∀ v, st'.varX.lookup v = some x → st.varX.lookup v = some x
  structInj : ∀ (i : Nat) (it : Item) (j : Nat) (jt : Item) (x : Nat), its[i]? = some it → xs[i]? = some x → it.node.isVar = false → nargs ≤ it.id →
    its[j]? = some jt → xs[j]? = some x → jt.node.isVar = false → nargs ≤ jt.id → i = j
  mem : ∀ v r, st'.varX.lookup v = some r → st.varX.lookup v = some r ∨ ∃ it : Item, it ∈ its ∧ it.node = .var v

/-- An item that takes no new register. -/
theorem AssignSpec.skip {nargs : Nat} {it : Item} {its : List Item} {st : RegSt} {r : Nat} {xs : List Nat}
    {st' : RegSt} (h : AssignSpec nargs its st xs st')
    (hvar : ∀ v, it.node = .var v → st.varX.lookup v = some r)
    (harg : it.node.isVar = false → it.id < nargs ∧ r = it.id) :
    AssignSpec nargs (it :: its) st (r :: xs) st' where
  len := by simp [h.len]
  ctr := h.ctr
  keep := h.keep
  new := h.new
  newInj := h.newInj
  var i it' x v hi hx hv := by
    cases i with
    | zero =>
      simp only [List.getElem?_cons_zero, Option.some.injEq] at hi hx
      subst hi; subst hx
      exact h.keep _ _ (hvar v hv)
    | succ i => exact h.var i it' x v (by simpa using hi) (by simpa using hx) hv
  arg i it' x hi hx hv hid := by
    cases i with
    | zero =>
      simp only [List.getElem?_cons_zero, Option.some.injEq] at hi hx
      subst hi; subst hx
      exact (harg hv).2
    | succ i => exact h.arg i it' x (by simpa using hi) (by simpa using hx) hv hid
  struct i it' x hi hx hv hid := by
    cases i with
    | zero =>
      simp only [List.getElem?_cons_zero, Option.some.injEq] at hi hx
      subst hi; subst hx
      have := (harg hv).1; omega
    | succ i => exact h.struct i it' x (by simpa using hi) (by simpa using hx) hv hid
  structInj i it' j jt x hi hx hv hid hj hx' hv' hid' := by
    cases i with
    | zero =>
      simp only [List.getElem?_cons_zero, Option.some.injEq] at hi
      subst hi
      have := (harg hv).1; omega
    | succ i =>
      cases j with
      | zero =>
        simp only [List.getElem?_cons_zero, Option.some.injEq] at hj
        subst hj
        have := (harg hv').1; omega
      | succ j =>
        rw [h.structInj i it' j jt x (by simpa using hi) (by simpa using hx) hv hid (by simpa using hj)
          (by simpa using hx') hv' hid']
  mem v r hv := by
    rcases h.mem v r hv with h1 | ⟨it', h1, h2⟩
    · exact .inl h1
    · exact .inr ⟨it', by simp [h1], h2⟩

theorem assignItems_spec {nargs} : ∀ {its : List Item} {st : RegSt} {xs st'},
    assignItems nargs its st = (xs, st') →
    AssignSpec nargs its st xs st' := by
  intro its
  induction its with
  | nil =>
    intro st xs st' h
    simp only [assignItems, Prod.mk.injEq] at h
    obtain ⟨rfl, rfl⟩ := h
    exact ⟨rfl, Nat.le_refl _, fun _ _ h => h, fun _ _ h => .inl h, by intro v w r h1 _ h2; simp_all,
      by simp, by simp, by simp, by simp, fun _ _ h => .inl h⟩
  | cons it its ih =>
    intro st xs st' h
    simp only [assignItems] at h
    cases hn : it.node with
    | var v =>
      simp only [hn] at h
      cases hl : st.varX.lookup v with
      | some r =>
        simp only [hl, Prod.mk.injEq] at h
        obtain ⟨rfl, rfl⟩ := h
        refine (ih (Prod.eta _).symm).skip ?_ ?_
        · intro v' hv'; rw [hn] at hv'; cases hv'; exact hl
        · intro hv; simp [hn, Node.isVar] at hv
      | none =>
        simp only [hl, Prod.mk.injEq] at h
        obtain ⟨rfl, rfl⟩ := h
        have hlk : ∀ w, List.lookup w ((v, st.ctr) :: st.varX) = if w = v then some st.ctr else st.varX.lookup w := by
          intro w
          by_cases hw : w = v
          · subst hw; simp
          · have : (w == v) = false := by simpa using hw
            simp [List.lookup_cons, this, hw]
        have s := ih (st := ⟨(v, st.ctr) :: st.varX, st.ctr + 1⟩) (Prod.eta _).symm
        generalize (assignItems nargs its ⟨(v, st.ctr) :: st.varX, st.ctr + 1⟩).2 = st2 at *
        generalize (assignItems nargs its ⟨(v, st.ctr) :: st.varX, st.ctr + 1⟩).1 = xs2 at *
        have hctr := s.ctr
        simp only [] at hctr
        have hvv : st2.varX.lookup v = some st.ctr := s.keep v _ (by simp [hlk])
        exact
          { len := by simp [s.len]
            ctr := by omega
            keep := fun w r hw => s.keep w r (by
              simp only [hlk]
              split
              · subst_vars; simp_all
              · exact hw)
            new := fun w r hw => by
              have := s.new w r hw
              simp only [hlk] at this
              by_cases hwv : w = v
              · subst hwv
                rw [hvv] at hw; cases hw
                exact .inr ⟨hl, Nat.le_refl _, by omega⟩
              · simp only [hwv, if_false] at this
                rcases this with h1 | ⟨h1, h2, h3⟩
                · exact .inl h1
                · exact .inr ⟨h1, by omega, h3⟩
            newInj := fun w u r hw hu hw0 hu0 => by
              by_cases hwv : w = v
              · by_cases huv : u = v
                · rw [hwv, huv]
                · subst hwv
                  rw [hvv] at hw; cases hw
                  have := s.new u _ hu
                  simp only [hlk, huv, if_false, hu0] at this
                  simp at this; omega
              · by_cases huv : u = v
                · subst huv
                  rw [hvv] at hu; cases hu
                  have := s.new w _ hw
                  simp only [hlk, hwv, if_false, hw0] at this
                  simp at this; omega
                · exact s.newInj w u r hw hu (by simp [hlk, hwv, hw0]) (by simp [hlk, huv, hu0])
            var := fun i it' x w hi hx hv => by
              cases i with
              | zero =>
                simp only [List.getElem?_cons_zero, Option.some.injEq] at hi hx
                subst hi; subst hx
                rw [hn] at hv; cases hv
                exact hvv
              | succ i => exact s.var i it' x w (by simpa using hi) (by simpa using hx) hv
            arg := fun i it' x hi hx hv hid => by
              cases i with
              | zero =>
                simp only [List.getElem?_cons_zero, Option.some.injEq] at hi
                subst hi
                simp [hn, Node.isVar] at hv
              | succ i => exact s.arg i it' x (by simpa using hi) (by simpa using hx) hv hid
            struct := fun i it' x hi hx hv hid => by
              cases i with
              | zero =>
                simp only [List.getElem?_cons_zero, Option.some.injEq] at hi
                subst hi
                simp [hn, Node.isVar] at hv
              | succ i =>
                obtain ⟨a1, a2, a3⟩ := s.struct i it' x (by simpa using hi) (by simpa using hx) hv hid
                simp only [] at a1
                refine ⟨by omega, a2, fun w hw => ?_⟩
                have := a3 w hw
                simp only [hlk] at this
                split at this
                · cases this; omega
                · exact this
            structInj := fun i it' j jt x hi hx hv hid hj hx' hv' hid' => by
              cases i with
              | zero =>
                simp only [List.getElem?_cons_zero, Option.some.injEq] at hi
                subst hi
                simp [hn, Node.isVar] at hv
              | succ i =>
                cases j with
                | zero =>
                  simp only [List.getElem?_cons_zero, Option.some.injEq] at hj
                  subst hj
                  simp [hn, Node.isVar] at hv'
                | succ j =>
                  rw [s.structInj i it' j jt x (by simpa using hi) (by simpa using hx) hv hid
                    (by simpa using hj) (by simpa using hx') hv' hid']
            mem := fun w r hw => by
              rcases s.mem w r hw with h1 | ⟨it', h1, h2⟩
              · simp only [hlk] at h1
                split at h1
                · subst_vars; exact .inr ⟨it, by simp, hn⟩
                · exact .inl h1
              · exact .inr ⟨it', by simp [h1], h2⟩ }
    | _ =>
      have hnv : it.node.isVar = false := by rw [hn]; rfl
      simp only [hn] at h
      split at h
      · rename_i hid
        simp only [Prod.mk.injEq] at h
        obtain ⟨rfl, rfl⟩ := h
        refine (ih (Prod.eta _).symm).skip ?_ fun _ => ⟨hid, rfl⟩
        intro v' hv'; rw [hn] at hv'; cases hv'
      · rename_i hid
        simp only [Prod.mk.injEq] at h
        obtain ⟨rfl, rfl⟩ := h
        have s := ih (st := { st with ctr := st.ctr + 1 }) (Prod.eta _).symm
        generalize (assignItems nargs its { st with ctr := st.ctr + 1 }).2 = st2 at *
        generalize (assignItems nargs its { st with ctr := st.ctr + 1 }).1 = xs2 at *
        have hctr := s.ctr
        simp only [] at hctr
        exact
          { len := by simp [s.len]
            ctr := by omega
            keep := s.keep
            new := fun w r hw => by
              rcases s.new w r hw with h1 | ⟨h1, h2, h3⟩
              · exact .inl h1
              · simp only [] at h2
                exact .inr ⟨h1, by omega, h3⟩
            newInj := s.newInj
            var := fun i it' x w hi hx hv => by
              cases i with
              | zero =>
                simp only [List.getElem?_cons_zero, Option.some.injEq] at hi
                subst hi
                rw [hn] at hv; cases hv
              | succ i => exact s.var i it' x w (by simpa using hi) (by simpa using hx) hv
            arg := fun i it' x hi hx hv hid' => by
              cases i with
              | zero =>
                simp only [List.getElem?_cons_zero, Option.some.injEq] at hi
                subst hi
                exact absurd hid' hid
              | succ i => exact s.arg i it' x (by simpa using hi) (by simpa using hx) hv hid'
            struct := fun i it' x hi hx hv hid' => by
              cases i with
              | zero =>
                simp only [List.getElem?_cons_zero, Option.some.injEq] at hi hx
                subst hi; subst hx
                refine ⟨Nat.le_refl _, by omega, fun w hw => ?_⟩
                rcases s.new w _ hw with h1 | ⟨_, h2, _⟩
                · exact h1
                · simp only [] at h2; omega
              | succ i =>
                obtain ⟨a1, a2, a3⟩ := s.struct i it' x (by simpa using hi) (by simpa using hx) hv hid'
                simp only [] at a1
                exact ⟨by omega, a2, a3⟩
            structInj := fun i it' j jt x hi hx hv hid1 hj hx' hv' hid' => by
              cases i with
              | zero =>
                cases j with
                | zero => rfl
                | succ j =>
                  simp only [List.getElem?_cons_zero, Option.some.injEq] at hi hx
                  subst hx
                  have := s.struct j jt _ (by simpa using hj) (by simpa using hx') hv' hid'
                  simp only [] at this; omega
              | succ i =>
                cases j with
                | zero =>
                  simp only [List.getElem?_cons_zero, Option.some.injEq] at hj hx'
                  subst hx'
                  have := s.struct i it' _ (by simpa using hi) (by simpa using hx) hv hid1
                  simp only [] at this; omega
                | succ j =>
                  rw [s.structInj i it' j jt x (by simpa using hi) (by simpa using hx) hv hid1
                    (by simpa using hj) (by simpa using hx') hv' hid']
            mem := fun w r hw => by
              rcases s.mem w r hw with h1 | ⟨it', h1, h2⟩
              · exact .inl h1
              · exact .inr ⟨it', by simp [h1], h2⟩ }

/-- The nodes of an atom with their registers, when the atom has its registers for itself. -/
structure Regs (atom : Node) (nr : Nat) (ais : List AItem) (xOf : Name → Option Nat) : Prop where
  id : ∀ (k : Nat) (a : AItem), ais[k]? = some a → a.id = k
  kids : ∀ a ∈ ais, a.kids.map (·.1) = a.node.children
  kidItem : ∀ a ∈ ais, ∀ c x, (c, x) ∈ a.kids →
    ∃ b ∈ ais, b.node = c ∧ b.x = x ∧ a.id < b.id ∧ (atomArgs atom).length ≤ b.id
  var : ∀ a ∈ ais, ∀ v, a.node = .var v → xOf v = some a.x
  varR : ∀ v r, xOf v = some r → (atomArgs atom).length ≤ r ∧ r < nr
  varInj : ∀ v w r, xOf v = some r → xOf w = some r → v = w
  varMem : ∀ v r, xOf v = some r → ∃ a ∈ ais, a.node = .var v
  sReg : ∀ a ∈ ais, a.node.isVar = false → (atomArgs atom).length ≤ a.id →
    (atomArgs atom).length ≤ a.x ∧ a.x < nr ∧ ∀ v, xOf v ≠ some a.x
  sInj : ∀ a ∈ ais, ∀ b ∈ ais, a.node.isVar = false → b.node.isVar = false →
    (atomArgs atom).length ≤ a.id → (atomArgs atom).length ≤ b.id → a.x = b.x → a = b
  arg : ∀ a ∈ ais, a.node.isVar = false → a.id < (atomArgs atom).length → a.x = a.id
  nr : (atomArgs atom).length ≤ nr
  args : ∀ (i : Nat) (n : Node), (atomArgs atom)[i]? = some n → ∃ a : AItem, ais[i]? = some a ∧ a.node = n

theorem kidsOf_map (xs : List Nat) (s cs) : (kidsOf xs s cs).map (·.1) = cs := by
  induction cs generalizing s with
  | nil => rfl
  | cons c cs ih => simp [kidsOf, ih]

theorem mem_kidsOf {xs : List Nat} {s cs c x} (h : (c, x) ∈ kidsOf xs s cs) :
    ∃ m, cs[m]? = some c ∧ x = xs.getD (s + m) 0 := by
  induction cs generalizing s with
  | nil => simp [kidsOf] at h
  | cons d cs ih =>
    simp only [kidsOf, List.mem_cons, Prod.mk.injEq] at h
    rcases h with ⟨rfl, rfl⟩ | h
    · exact ⟨0, rfl, rfl⟩
    · obtain ⟨m, h1, h2⟩ := ih h
      exact ⟨m + 1, by simpa using h1, by rw [h2, show s + 1 + m = s + (m + 1) by omega]⟩

/-- Everything about the nodes that does not depend on the register assignment. -/
theorem annotate_spec (atom : Node) (xs : List Nat) :
    (∀ (k : Nat) (a : AItem), (annotate (items atom) xs)[k]? = some a → a.id = k ∧ a.x = xs.getD k 0 ∧
      ∃ it : Item, (items atom)[k]? = some it ∧ it.node = a.node ∧ it.id = k) ∧
    (∀ a ∈ annotate (items atom) xs, a.kids.map (·.1) = a.node.children) ∧
    (∀ a ∈ annotate (items atom) xs, ∀ c x, (c, x) ∈ a.kids →
      ∃ b ∈ annotate (items atom) xs, b.node = c ∧ b.x = x ∧ a.id < b.id ∧ (atomArgs atom).length ≤ b.id) ∧
    (∀ (i : Nat) (n : Node), (atomArgs atom)[i]? = some n → ∃ a : AItem, (annotate (items atom) xs)[i]? = some a ∧ a.node = n) := by
  obtain ⟨h1, h2⟩ := items_spec atom
  refine ⟨?_, ?_, ?_, ?_⟩
  · intro k a ha
    simp only [annotate, List.getElem?_map, Option.map_eq_some_iff] at ha
    obtain ⟨it, hit, rfl⟩ := ha
    have := (h2 k it hit).1
    subst this
    exact ⟨rfl, rfl, it, hit, rfl, rfl⟩
  · intro a ha
    simp only [annotate, List.mem_map] at ha
    obtain ⟨it, hit, rfl⟩ := ha
    exact kidsOf_map ..
  · intro a ha c x hc
    simp only [annotate, List.mem_map] at ha
    obtain ⟨it, hit, rfl⟩ := ha
    obtain ⟨k, hk⟩ := List.getElem?_of_mem hit
    obtain ⟨m, hm, rfl⟩ := mem_kidsOf hc
    obtain ⟨a1, a2, a3, a4⟩ := h2 k it hk
    obtain ⟨it', b1, b2⟩ := a4 m c hm
    obtain ⟨c1, _⟩ := h2 _ it' b1
    refine ⟨⟨it'.id, it'.node, xs.getD it'.id 0, kidsOf xs it'.cstart it'.node.children⟩,
      List.mem_map.2 ⟨it', List.mem_of_getElem? b1, rfl⟩, b2, ?_, ?_, ?_⟩
    · simp only [c1]
    · simp only [c1]; omega
    · simp only [c1]; omega
  · intro i n hn
    obtain ⟨it, a1, a2⟩ := h1 i n hn
    exact ⟨_, by simp only [annotate, List.getElem?_map, a1]; rfl, a2⟩

theorem annotate_wf {atom : Node} (h : atom.wf = true) {xs} : ∀ a ∈ annotate (items atom) xs, a.node.wf = true := by
  intro a ha
  simp only [annotate, List.mem_map] at ha
  obtain ⟨it, hit, rfl⟩ := ha
  exact items_wf h it hit

theorem assignSingle_regs {atom : Node} {ais varX nr} (h : assignSingle atom = (ais, varX, nr)) :
    Regs atom nr ais (varX.lookup ·) := by
  simp only [assignSingle, assignAtom, Prod.mk.injEq] at h
  obtain ⟨rfl, rfl, rfl⟩ := h
  have s := assignItems_spec (nargs := (atomArgs atom).length) (its := items atom)
    (st := ⟨[], (atomArgs atom).length⟩) (Prod.eta _).symm
  generalize (assignItems (atomArgs atom).length (items atom) ⟨[], (atomArgs atom).length⟩).2 = st' at *
  generalize (assignItems (atomArgs atom).length (items atom) ⟨[], (atomArgs atom).length⟩).1 = xs at *
  obtain ⟨a1, a2, a3, a4⟩ := annotate_spec atom xs
  have hx : ∀ {k : Nat} {a : AItem}, (annotate (items atom) xs)[k]? = some a → xs[k]? = some a.x := by
    intro k a ha
    obtain ⟨_, h2, it, h3, _⟩ := a1 k a ha
    have hlt : k < xs.length := by rw [s.len]; exact (List.getElem?_eq_some_iff.1 h3).1
    rw [h2, List.getD_eq_getElem?_getD, List.getElem?_eq_getElem hlt]; rfl
  exact
    { id := fun k a h => (a1 k a h).1
      kids := a2
      kidItem := a3
      var := fun a ha v hv => by
        obtain ⟨k, hk⟩ := List.getElem?_of_mem ha
        obtain ⟨_, _, it, h3, h4, _⟩ := a1 k a hk
        exact s.var k it a.x v h3 (hx hk) (h4.trans hv)
      varR := fun v r hv => by
        rcases s.new v r hv with h | ⟨_, h1, h2⟩
        · simp at h
        · exact ⟨h1, h2⟩
      varInj := fun v w r hv hw => s.newInj v w r hv hw rfl rfl
      varMem := fun v r hv => by
        rcases s.mem v r hv with h | ⟨it, h1, h2⟩
        · simp at h
        · exact ⟨_, List.mem_map.2 ⟨it, h1, rfl⟩, h2⟩
      sReg := fun a ha hv hid => by
        obtain ⟨k, hk⟩ := List.getElem?_of_mem ha
        obtain ⟨h1, _, it, h3, h4, h5⟩ := a1 k a hk
        obtain ⟨b1, b2, b3⟩ := s.struct k it a.x h3 (hx hk) (by rw [h4]; exact hv) (by omega)
        exact ⟨b1, b2, fun v hv' => by have := b3 v hv'; simp at this⟩
      sInj := fun a ha b hb hva hvb hia hib hab => by
        obtain ⟨k, hk⟩ := List.getElem?_of_mem ha
        obtain ⟨j, hj⟩ := List.getElem?_of_mem hb
        obtain ⟨h1, _, it, h3, h4, h5⟩ := a1 k a hk
        obtain ⟨g1, _, jt, g3, g4, g5⟩ := a1 j b hj
        have := s.structInj k it j jt a.x h3 (hx hk) (by rw [h4]; exact hva) (by omega) g3
          (by rw [hab]; exact hx hj) (by rw [g4]; exact hvb) (by omega)
        subst this
        rw [hk] at hj; cases hj; rfl
      arg := fun a ha hv hid => by
        obtain ⟨k, hk⟩ := List.getElem?_of_mem ha
        obtain ⟨h1, _, it, h3, h4, h5⟩ := a1 k a hk
        have := s.arg k it a.x h3 (hx hk) (by rw [h4]; exact hv) (by omega)
        omega
      nr := s.ctr
      args := a4 }

def Item.varOf? (it : Item) : Option Name :=
  match it.node with
  | .var v => some v
  | _ => none

theorem Node.varss_append (a b : List Node) : Node.varss (a ++ b) = Node.varss a ++ Node.varss b := by
  induction a with
  | nil => simp [Node.varss]
  | cons c cs ih => simp [Node.varss, ih]

/-- Children are numbered consecutively, in the order of their parents. -/
theorem bfs_cstart : ∀ (n : Nat) (nds : List Node) (base : Nat) ,
    (∀ it : Item, (bfsLoop n (number base nds) (base + nds.length))[0]? = some it →
      it.cstart = base + nds.length) ∧
    (∀ (j : Nat) (it it' : Item), (bfsLoop n (number base nds) (base + nds.length))[j]? = some it →
      (bfsLoop n (number base nds) (base + nds.length))[j + 1]? = some it' →
      it'.cstart = it.cstart + it.node.children.length) := by
  intro n
  induction n with
  | zero => intro nds base; simp [bfsLoop]
  | succ n ih =>
    intro nds base
    match nds with
    | [] => simp [bfsLoop, number]
    | nd :: nds =>
      have hq : bfsLoop (n + 1) (number base (nd :: nds)) (base + (nd :: nds).length) =
          ⟨base, nd, base + (nd :: nds).length⟩ ::
            bfsLoop n (number (base + 1) (nds ++ nd.children)) (base + 1 + (nds ++ nd.children).length) := by
        simp only [number, bfsLoop, List.cons.injEq, true_and]
        rw [number_append]
        congr 1
        · simp only [List.length_cons]
          rw [show base + 1 + nds.length = base + (nds.length + 1) by omega]
        · simp; omega
      rw [hq]
      obtain ⟨i1, i2⟩ := ih (nds ++ nd.children) (base + 1)
      refine ⟨fun it h => by simp at h; subst h; rfl, fun j it it' h h' => ?_⟩
      cases j with
      | zero =>
        simp only [List.getElem?_cons_zero, Option.some.injEq] at h
        subst h
        rw [List.getElem?_cons_succ] at h'
        rw [i1 it' h']
        simp; omega
      | succ j =>
        rw [List.getElem?_cons_succ] at h h'
        exact i2 j it it' h h'

/-- The numbers of the children of node `k` are `cst k, cst k + 1, …`. -/
structure KidTree (nargs : Nat) (ais : List AItem) (cst : Nat → Nat) : Prop where
  zero : cst 0 = nargs
  succ : ∀ (k : Nat) (a : AItem), ais[k]? = some a → cst (k + 1) = cst k + a.kids.length
  gt : ∀ (k : Nat) (a : AItem), ais[k]? = some a → k < cst k
  kid : ∀ (k : Nat) (a : AItem), ais[k]? = some a → ∀ (m : Nat) (c : Node) (x : Nat), a.kids[m]? = some (c, x) →
    ∃ b : AItem, ais[cst k + m]? = some b ∧ b.node = c ∧ b.x = x

theorem kidsOf_get {xs : List Nat} {s cs} {m : Nat} {c x} (h : (kidsOf xs s cs)[m]? = some (c, x)) :
    cs[m]? = some c ∧ x = xs.getD (s + m) 0 := by
  induction cs generalizing s m with
  | nil => simp [kidsOf] at h
  | cons d cs ih =>
    cases m with
    | zero => simp [kidsOf] at h; obtain ⟨rfl, rfl⟩ := h; simp
    | succ m =>
      simp only [kidsOf, List.getElem?_cons_succ] at h
      obtain ⟨h1, h2⟩ := ih h
      exact ⟨by simpa using h1, by rw [h2, show s + 1 + m = s + (m + 1) by omega]⟩

theorem annotate_tree (atom : Node) (xs : List Nat) :
    ∃ cst, KidTree (atomArgs atom).length (annotate (items atom) xs) cst := by
  obtain ⟨h1, h2⟩ := items_spec atom
  have h3 := bfs_cstart (Node.sizes (atomArgs atom)) (atomArgs atom) 0
  simp only [Nat.zero_add] at h3
  obtain ⟨h3, h4⟩ := h3
  have hi : bfsLoop (Node.sizes (atomArgs atom)) (number 0 (atomArgs atom)) (atomArgs atom).length = items atom := rfl
  rw [hi] at h3 h4
  have hget : ∀ (k : Nat) (a : AItem), (annotate (items atom) xs)[k]? = some a → ∃ it : Item,
      (items atom)[k]? = some it ∧ it.node = a.node ∧ a.kids = kidsOf xs it.cstart it.node.children := by
    intro k a ha
    simp only [annotate, List.getElem?_map, Option.map_eq_some_iff] at ha
    obtain ⟨it, hit, rfl⟩ := ha
    exact ⟨it, hit, rfl, rfl⟩
  let cst : Nat → Nat := fun k => match (items atom)[k]? with
    | some it => it.cstart
    | none => match k with
      | 0 => (atomArgs atom).length
      | k + 1 => match (items atom)[k]? with
        | some it => it.cstart + it.node.children.length
        | none => 0
  have hcst : ∀ {k : Nat} {it : Item}, (items atom)[k]? = some it → cst k = it.cstart := by
    intro k it h
    simp only [cst, h]
  refine ⟨cst, ?_, ?_, ?_, ?_⟩
  · cases h0 : (items atom)[0]? with
    | some it => rw [hcst h0, h3 it h0]
    | none => simp only [cst, h0]
  · intro k a ha
    obtain ⟨it, hit, hn, hk⟩ := hget k a ha
    rw [hcst hit, hk]
    have hl : (kidsOf xs it.cstart it.node.children).length = it.node.children.length := by
      have := congrArg List.length (kidsOf_map xs it.cstart it.node.children)
      simpa using this
    rw [hl]
    cases h0 : (items atom)[k + 1]? with
    | some it' => rw [hcst h0]; exact h4 k it it' hit h0
    | none => simp only [cst, h0, hit]
  · intro k a ha
    obtain ⟨it, hit, hn, hk⟩ := hget k a ha
    rw [hcst hit]
    obtain ⟨e1, e2, _⟩ := h2 k it hit
    omega
  · intro k a ha m c x hm
    obtain ⟨it, hit, hn, hk⟩ := hget k a ha
    rw [hk] at hm
    obtain ⟨g1, g2⟩ := kidsOf_get hm
    obtain ⟨e1, e2, e3, e4⟩ := h2 k it hit
    obtain ⟨it', f1, f2⟩ := e4 m c g1
    rw [hcst hit]
    refine ⟨⟨it'.id, it'.node, xs.getD it'.id 0, kidsOf xs it'.cstart it'.node.children⟩, ?_, f2, ?_⟩
    · simp only [annotate, List.getElem?_map, f1, Option.map_some]
    · rw [g2, (h2 _ it' f1).1]

/-! ## Nodes below some of the arguments -/

/-- The members of a list, those at the positions `J` marked. -/
def flag {α} (J : Nat → Bool) : List α → List (Bool × α)
  | [] => []
  | x :: xs => (J 0, x) :: flag (fun i => J (i + 1)) xs

theorem flag_map {α} (l : List α) : ∀ J, (flag J l).map (·.2) = l := by
  induction l with
  | nil => intro J; rfl
  | cons x xs ih => intro J; simp [flag, ih]

theorem flag_get {α} {l : List α} : ∀ {J} {i : Nat} {x}, l[i]? = some x → (flag J l)[i]? = some (J i, x) := by
  induction l with
  | nil => intro J i x h; simp at h
  | cons y ys ih =>
    intro J i x h
    cases i with
    | zero => simp at h; simp [flag, h]
    | succ i => simp only [List.getElem?_cons_succ] at h; simp only [flag, List.getElem?_cons_succ]; exact ih h

theorem flag_pick {α} (l : List α) : ∀ J, ((flag J l).filter (fun p => !p.1)).map (·.2) = pick (fun i => !J i) l := by
  induction l with
  | nil => intro J; rfl
  | cons x xs ih =>
    intro J
    have := ih fun i => J (i + 1)
    by_cases h : J 0 = true
    · simp [flag, pick, h, this]
    · simp only [Bool.not_eq_true] at h
      simp [flag, pick, h, this]

/-- The marks of the nodes in the order of the queue: those of the children are those of their parents. -/
def flagLoop : Nat → List (Bool × Node) → List Bool
  | 0, _ => []
  | _ + 1, [] => []
  | n + 1, (b, nd) :: q => b :: flagLoop n (q ++ nd.children.map (b, ·))

theorem filter_mark {b : Bool} (cs : List Node) : ((cs.map (b, ·)).filter (fun p => !p.1)).map (·.2) = if b then [] else cs := by
  cases b
  · simp [List.filter_map, Function.comp_def]
  · simp [List.filter_map, Function.comp_def]

theorem flag_spec : ∀ (n : Nat) (q : List (Bool × Node)) (base : Nat), Node.sizes (q.map (·.2)) ≤ n →
    (∀ (j : Nat) p, q[j]? = some p → (flagLoop n q)[j]? = some p.1) ∧
    (∀ (j : Nat) (it : Item), (bfsLoop n (number base (q.map (·.2))) (base + q.length))[j]? = some it →
      ∃ b, (flagLoop n q)[j]? = some b ∧ ∀ m, m < it.node.children.length → (flagLoop n q)[it.cstart - base + m]? = some b) ∧
    (((bfsLoop n (number base (q.map (·.2))) (base + q.length)).zip (flagLoop n q)).filterMap
      (fun p => if p.2 then none else p.1.varOf?)).Perm (Node.varss ((q.filter (fun p => !p.1)).map (·.2))) := by
  intro n
  induction n with
  | zero =>
    intro q base h
    match q with
    | [] => simp [bfsLoop, Node.varss]
    | p :: q => simp [Node.sizes, Node.size_eq] at h
  | succ n ih =>
    intro q base h
    match q with
    | [] => simp [bfsLoop, number, Node.varss]
    | (b, nd) :: q =>
      simp only [List.map_cons, Node.sizes, Node.size_eq] at h
      have hmap : (q ++ nd.children.map (b, ·)).map (·.2) = q.map (·.2) ++ nd.children := by simp
      have hq : bfsLoop (n + 1) (number base (((b, nd) :: q).map (·.2))) (base + ((b, nd) :: q).length) =
          ⟨base, nd, base + (q.length + 1)⟩ ::
            bfsLoop n (number (base + 1) ((q ++ nd.children.map (b, ·)).map (·.2))) (base + 1 + (q ++ nd.children.map (b, ·)).length) := by
        rw [hmap]
        simp only [List.map_cons, number, bfsLoop, List.length_cons, List.cons.injEq, true_and]
        rw [number_append]
        congr 1
        · simp only [List.length_map]
          rw [show base + 1 + q.length = base + (q.length + 1) by omega]
        · simp; omega
      obtain ⟨i1, i2, i3⟩ := ih (q ++ nd.children.map (b, ·)) (base + 1) (by rw [hmap, Node.sizes_append]; omega)
      rw [hq]
      have hcs : ∀ (j : Nat) (it : Item), (bfsLoop n (number (base + 1) ((q ++ nd.children.map (b, ·)).map (·.2))) (base + 1 + (q ++ nd.children.map (b, ·)).length))[j]? = some it →
          base + 1 + (q ++ nd.children.map (b, ·)).length ≤ it.cstart := by
        intro j it hj
        have := bfs_spec n ((q ++ nd.children.map (b, ·)).map (·.2)) (base + 1) (by rw [hmap, Node.sizes_append]; omega)
        rw [List.length_map] at this
        exact (this.2.2 j it hj).2.2.1
      refine ⟨?_, ?_, ?_⟩
      · intro j p hj
        cases j with
        | zero => simp at hj; subst hj; simp [flagLoop]
        | succ j =>
          simp only [List.getElem?_cons_succ] at hj
          simp only [flagLoop, List.getElem?_cons_succ]
          exact i1 j p (by rw [List.getElem?_append_left (List.getElem?_eq_some_iff.1 hj).1]; exact hj)
      · intro j it hj
        cases j with
        | zero =>
          simp only [List.getElem?_cons_zero, Option.some.injEq] at hj
          subst hj
          refine ⟨b, by simp [flagLoop], fun m hm => ?_⟩
          have e : base + (q.length + 1) - base + m = (q.length + m) + 1 := by omega
          simp only [e, flagLoop, List.getElem?_cons_succ]
          have hm' : (q ++ nd.children.map (b, ·))[q.length + m]? = some (b, nd.children[m]'hm) := by
            rw [List.getElem?_append_right (by omega)]
            simp only [Nat.add_sub_cancel_left, List.getElem?_map, List.getElem?_eq_getElem hm, Option.map_some]
          exact i1 _ _ hm'
        | succ j =>
          simp only [List.getElem?_cons_succ] at hj
          obtain ⟨b', h1, h2⟩ := i2 j it hj
          refine ⟨b', by simp only [flagLoop, List.getElem?_cons_succ]; exact h1, fun m hm => ?_⟩
          have := hcs j it hj
          have e : it.cstart - base + m = (it.cstart - (base + 1) + m) + 1 := by omega
          simp only [e, flagLoop, List.getElem?_cons_succ]
          exact h2 m hm
      · have hfm : ((q ++ nd.children.map (b, ·)).filter (fun p => !p.1)).map (·.2) =
            (q.filter (fun p => !p.1)).map (·.2) ++ if b then [] else nd.children := by
          rw [List.filter_append, List.map_append, filter_mark]
        rw [hfm, Node.varss_append] at i3
        simp only [flagLoop, List.zip_cons_cons, List.filterMap_cons]
        cases b with
        | true =>
          simp only [if_true, Node.varss, List.append_nil, List.filter_cons, Bool.not_true, Bool.false_eq_true, if_false] at i3 ⊢
          exact i3
        | false =>
          simp only [Bool.false_eq_true, if_false, List.filter_cons, Bool.not_false, if_true, List.map_cons] at i3 ⊢
          have hv : Node.varss (nd :: (q.filter (fun p => !p.1)).map (·.2)) = nd.vars ++ Node.varss ((q.filter (fun p => !p.1)).map (·.2)) := by simp [Node.varss]
          rw [hv]
          cases nd with
          | var v =>
            simp only [Item.varOf?, Node.vars, Node.children, Node.varss, List.append_nil] at i3 ⊢
            exact i3.cons v
          | fn f cs =>
            simp only [Item.varOf?, Node.vars, Node.children] at i3 ⊢
            exact i3.trans List.perm_append_comm
          | efn f cs =>
            simp only [Item.varOf?, Node.vars, Node.children] at i3 ⊢
            exact i3.trans List.perm_append_comm
          | _ =>
            simp only [Item.varOf?, Node.vars, Node.children, Node.varss, List.append_nil, List.nil_append] at i3 ⊢
            exact i3

/-- Which nodes are below the arguments `J`. -/
structure Colours (args : List Node) (ais : List AItem) (cst : Nat → Nat) (J inp : Nat → Bool) : Prop where
  arg : ∀ i, i < args.length → inp i = J i
  kid : ∀ (k : Nat) (a : AItem), ais[k]? = some a → ∀ m, m < a.kids.length → inp (cst k + m) = inp k
  once : (Node.varss (pick (fun i => !J i) args)).Nodup → ∀ v, ∀ a ∈ ais, ∀ b ∈ ais, a.node = .var v → b.node = .var v →
    inp a.id = false → inp b.id = false → a.id = b.id

theorem annotate_colours (atom : Node) (xs : List Nat) {cst} (T : KidTree (atomArgs atom).length (annotate (items atom) xs) cst)
    (J : Nat → Bool) : ∃ inp, Colours (atomArgs atom) (annotate (items atom) xs) cst J inp := by
  have hs := flag_spec (Node.sizes (atomArgs atom)) (flag J (atomArgs atom)) 0 (by rw [flag_map])
  have hl : (flag J (atomArgs atom)).length = (atomArgs atom).length := by
    have := congrArg List.length (flag_map (atomArgs atom) J)
    simpa using this
  simp only [flag_map, Nat.zero_add, hl, Nat.sub_zero, flag_pick] at hs
  have hi : bfsLoop (Node.sizes (atomArgs atom)) (number 0 (atomArgs atom)) (atomArgs atom).length = items atom := rfl
  rw [hi] at hs
  obtain ⟨s1, s2, s3⟩ := hs
  generalize flagLoop (Node.sizes (atomArgs atom)) (flag J (atomArgs atom)) = fl at s1 s2 s3
  have h3 := bfs_cstart (Node.sizes (atomArgs atom)) (atomArgs atom) 0
  simp only [Nat.zero_add, hi] at h3
  obtain ⟨c1, c2⟩ := h3
  have hcst : ∀ (k : Nat) (it : Item), (items atom)[k]? = some it → cst k = it.cstart := by
    intro k
    induction k with
    | zero => intro it h; rw [T.zero, c1 it h]
    | succ k ih =>
      intro it h
      have hlt : k < (items atom).length := by have := (List.getElem?_eq_some_iff.1 h).1; omega
      have hk := List.getElem?_eq_getElem hlt
      rw [c2 k _ it hk h, ← ih _ hk]
      have ha : (annotate (items atom) xs)[k]? = some ⟨((items atom)[k]).id, ((items atom)[k]).node, xs.getD ((items atom)[k]).id 0,
          kidsOf xs ((items atom)[k]).cstart ((items atom)[k]).node.children⟩ := by
        simp only [annotate, List.getElem?_map, hk, Option.map_some]
      rw [T.succ k _ ha]
      have := congrArg List.length (kidsOf_map xs ((items atom)[k]).cstart ((items atom)[k]).node.children)
      simp only [List.length_map] at this
      simp only [this]
  have hsp := annotate_spec atom xs
  refine ⟨fun i => fl.getD i true, ?_, ?_, ?_⟩
  · intro i hi
    have := s1 i _ (flag_get (J := J) (List.getElem?_eq_getElem hi))
    rw [List.getD_eq_getElem?_getD, this]; rfl
  · intro k a ha m hm
    obtain ⟨_, _, it, h1, h2, _⟩ := hsp.1 k a ha
    obtain ⟨b, h3, h4⟩ := s2 k it h1
    have hm' : m < it.node.children.length := by
      have := congrArg List.length (hsp.2.1 a (List.mem_of_getElem? ha))
      rw [List.length_map] at this
      rw [h2]; omega
    simp only [List.getD_eq_getElem?_getD, hcst k it h1, h3, h4 m hm']
  · intro hnd v a ha b hb hav hbv fa fb
    obtain ⟨i, hia⟩ := List.getElem?_of_mem ha
    obtain ⟨j, hjb⟩ := List.getElem?_of_mem hb
    obtain ⟨a1, _, ia, h1, h2, _⟩ := hsp.1 i a hia
    obtain ⟨b1, _, ib, g1, g2, _⟩ := hsp.1 j b hjb
    have hn := s3.nodup_iff.2 hnd
    unfold List.Nodup at hn
    rw [List.pairwise_filterMap, List.pairwise_iff_getElem] at hn
    obtain ⟨l1, e1⟩ := List.getElem?_eq_some_iff.1 h1
    obtain ⟨l2, e2⟩ := List.getElem?_eq_some_iff.1 g1
    obtain ⟨x, hx, _⟩ := s2 i ia h1
    obtain ⟨y, hy, _⟩ := s2 j ib g1
    simp only [a1, List.getD_eq_getElem?_getD, hx, Option.getD_some] at fa
    simp only [b1, List.getD_eq_getElem?_getD, hy, Option.getD_some] at fb
    subst fa; subst fb
    obtain ⟨m1, f1⟩ := List.getElem?_eq_some_iff.1 hx
    obtain ⟨m2, f2⟩ := List.getElem?_eq_some_iff.1 hy
    have z1 : i < ((items atom).zip fl).length := by simp only [List.length_zip]; omega
    have z2 : j < ((items atom).zip fl).length := by simp only [List.length_zip]; omega
    have va : (fun p : Item × Bool => if p.2 then none else p.1.varOf?) ((items atom).zip fl)[i] = some v := by
      simp [List.getElem_zip, e1, f1, Item.varOf?, h2, hav]
    have vb : (fun p : Item × Bool => if p.2 then none else p.1.varOf?) ((items atom).zip fl)[j] = some v := by
      simp [List.getElem_zip, e2, f2, Item.varOf?, g2, hbv]
    rcases Nat.lt_trichotomy i j with h | h | h
    · exact absurd rfl (hn i j z1 z2 h v va v vb)
    · omega
    · exact absurd rfl (hn j i z2 z1 h v vb v va)

end PBfs
