import Verif.Proof.Envs
import Verif.Proof.Head2
import Verif.Proof.Replay
import Verif.Proof.Perm2
/-! # What the code of goals, heads and clauses does, independently of how it was generated -/
namespace PBfs

/-- Between two atoms of a body: temporary registers are forgotten. -/
def Sym.next (S : Sym) : Sym := ⟨dropX S.seen, fun _ => none, S.pl⟩

/-- The code of a goal (after `al`) builds its arguments. -/
structure GoalSem (st : Storage) (I : Int → FV) (yOf : Name → Option Nat) (ny : Nat) (al : List Instr)
    (c : CAtom) (atom : Node) (S S' : Sym) : Prop where
  code : ∃ ds, c.instrs = al ++ (ds ++ [.call atom.fv]) ∧ ds ≠ [] ∧ (∀ d ∈ ds, d.isData = true) ∧
    (ny = 0 → ∀ d ∈ ds, d.envFree = true) ∧
    ∀ pre fuel ν e, QRel ⟨st, I, pre, yOf, ny, c.regCount⟩ ν S e e.hp.size → e.state = .running →
      ∃ e' ν', runData pre fuel st ds e = .ok e' ∧ QRel ⟨st, I, pre, yOf, ny, c.regCount⟩ ν' S' e' e'.hp.size ∧
        Build ⟨st, I, pre, yOf, ny, c.regCount⟩ ν e ν' e'
  args : ∀ i n, (atomArgs atom)[i]? = some n → S'.x i = some n
  subst : c.fromQuery = true → (∀ v ∈ c.subst, if v.perm then yOf v.name = some v.reg ∧ v.name ∈ S'.pl
      else S'.x v.reg = some (.var v.name)) ∧
    ∀ v, v ∈ c.subst.map (·.name) ↔ v ∈ Node.varss atom.children
  goal : atom.goal = true
  parsed : c.parsed = atom

/-- The code of the remaining goals of a clause. -/
inductive FrameSem (st : Storage) (I : Int → FV) (yOf : Name → Option Nat) (ny : Nat) :
    Sym → List CAtom → List Node → Prop
  | nil {S} : FrameSem st I yOf ny S [] []
  | cons {S S' c atom cs as} : GoalSem st I yOf ny [] c atom S S' → FrameSem st I yOf ny S'.next cs as →
      FrameSem st I yOf ny S (c :: cs) (atom :: as)

/-- The code of a head unifies its arguments with the argument registers. -/
structure HeadSem (st : Storage) (I : Int → FV) (yOf : Name → Option Nat) (ny : Nat)
    (c : CAtom) (head : Node) (S : Sym) : Prop where
  code : ∃ ds, c.instrs = allocInstrs ny ++ (ds ++ [.proceed]) ∧ ds ≠ [] ∧ (∀ d ∈ ds, d.isData = true) ∧
    (ny = 0 → ∀ d ∈ ds, d.envFree = true) ∧
    ∀ pre fuel e (args : List Nat), Good (ValidCell st) (e.hp.at? pre) e.hp.size e.hp.size → e.state = .running →
      e.regs.length = c.regCount → (ny ≠ 0 → ∃ env rest, e.envs = env :: rest ∧ env.length = ny) →
      args.length = (atomArgs head).length →
      (∀ (i p : Nat), args[i]? = some p → p < e.hp.size ∧ ∃ cell, e.regs[i]? = some cell ∧
        cell.ptr = some p ∧ ValidCell st cell) →
      (∃ e' ν', runData pre fuel st ds e = .ok e' ∧
        (e'.state = .running → QRel ⟨st, I, pre, yOf, ny, c.regCount⟩ ν' S e' e'.hp.size) ∧
        HStep ⟨st, I, pre, yOf, ny, c.regCount⟩ e.hp.size
          (fun _ A σ ρ => args.map σ = Node.evals A ρ (atomArgs head)) e (fun _ _ σ ρ => Agree ν' σ ρ) e') ∨
      (runData pre fuel st ds e = .error .hang ∧ MayHang I fuel (e.hp.at? pre) args (atomArgs head))
  goal : head.goal = true
  args : (atomArgs head).length ≤ c.regCount

/-- The code of a clause. -/
def RuleSem (st : Storage) (I : Int → FV) (r : Rule) (cl : Clause) : Prop :=
  ∃ yOf ny hc bcs S, r = hc :: (bcs ++ deallocAtoms ny) ∧
    (∀ n y, yOf n = some y → y < ny) ∧ (∀ n m y, yOf n = some y → yOf m = some y → n = m) ∧
    HeadSem st I yOf ny hc cl.head S ∧ FrameSem st I yOf ny S bcs cl.body ∧
    (∀ c, bcs.head? = some c → c.regCount = hc.regCount) ∧ (cl.body = [] → ny = 0) ∧ (∀ c ∈ bcs, c.fromQuery = false) ∧
    (ny ≠ 0 ↔ ∃ v, SharedVar true (cl.head :: cl.body) v)

/-! ## Symbolic states that make sense -/

structure Sym.Sane (yOf : Name → Option Nat) (S : Sym) : Prop where
  x : ∀ r n, S.x r = some (.var n) → n ∈ S.pl
  y : ∀ n y, yOf n = some y → (S.has (.y y) = true ↔ n ∈ S.pl)

structure SaneStep (yOf : Name → Option Nat) (S S' : Sym) : Prop where
  sane : S'.Sane yOf
  grow : ∀ v, v ∈ S.pl → v ∈ S'.pl

theorem Sym.Sane.setX {yOf S} (h : Sym.Sane yOf S) {r n} (hn : ∀ v, n = .var v → v ∈ S.pl) : (S.setX r n).Sane yOf where
  x k v hk := by
    simp only [Sym.setX] at hk
    split at hk
    · cases hk; exact hn v rfl
    · exact h.x k v hk
  y := h.y

theorem Sym.Sane.clearX {yOf S} (h : Sym.Sane yOf S) {r} : (S.clearX r).Sane yOf where
  x k v hk := by
    simp only [Sym.clearX] at hk
    split at hk
    · cases hk
    · exact h.x k v hk
  y := h.y

theorem Sym.Sane.markX {yOf S} (h : Sym.Sane yOf S) {r} : (S.mark (.x r)).Sane yOf where
  x := h.x
  y n y hy := by rw [Sym.has_mark_ne (by simp)]; exact h.y n y hy

theorem Sym.Sane.place {yOf S} (h : Sym.Sane yOf S) {n} (hn : yOf n = none) : (S.place n).Sane yOf where
  x k v hk := by simp [h.x k v hk]
  y m y hy := by
    have := h.y m y hy
    simp only [Sym.has_place, Sym.place_pl, List.mem_cons, this]
    constructor
    · exact .inr
    · rintro (rfl | h)
      · rw [hn] at hy; cases hy
      · exact h

theorem Sym.Sane.newY {yOf S} (yinj : ∀ n m y, yOf n = some y → yOf m = some y → n = m)
    (h : Sym.Sane yOf S) {n y} (hn : yOf n = some y) : ((S.mark (.y y)).place n).Sane yOf where
  x k v hk := by simp [h.x k v hk]
  y m z hz := by
    have := h.y m z hz
    simp only [Sym.has_place, Sym.has_mark, Sym.place_pl, Sym.mark_pl, List.mem_cons, this, SReg.y.injEq]
    constructor
    · rintro (rfl | h)
      · exact .inl (yinj _ _ _ hz hn)
      · exact .inr h
    · rintro (rfl | h)
      · rw [hn] at hz; cases hz; exact .inl rfl
      · exact .inr h

theorem Sym.Sane.next {yOf S} (h : Sym.Sane yOf S) : S.next.Sane yOf where
  x _ _ hk := by cases hk
  y n y hy := by
    rw [show S.next.pl = S.pl from rfl, ← h.y n y hy]
    simp [Sym.has, Sym.next, dropX]

section
variable {yOf : Name → Option Nat} (yinj : ∀ n m y, yOf n = some y → yOf m = some y → n = m) {nr : Nat}
include yinj

theorem symKid_sane {c x S S'} (hs : symKid yOf nr c x S = some S') (h : S.Sane yOf) :
    SaneStep yOf S S' ∧ ∀ v, c = .var v → v ∈ S'.pl := by
  cases c with
  | int v =>
    simp only [symKid] at hs
    split at hs <;> cases hs
    exact ⟨⟨h.setX (by intro v hv; cases hv), fun _ h => h⟩, by intro v hv; cases hv⟩
  | cons v =>
    simp only [symKid] at hs
    split at hs <;> cases hs
    exact ⟨⟨h.setX (by intro v hv; cases hv), fun _ h => h⟩, by intro v hv; cases hv⟩
  | fn f cs =>
    simp only [symKid] at hs
    split at hs
    · split at hs <;> cases hs
      exact ⟨⟨h, fun _ h => h⟩, by intro v hv; cases hv⟩
    · cases hs
  | efn f cs =>
    simp only [symKid] at hs
    split at hs
    · split at hs <;> cases hs
      exact ⟨⟨h, fun _ h => h⟩, by intro v hv; cases hv⟩
    · cases hs
  | var n =>
    cases hy : yOf n with
    | some y =>
      simp only [symKid, hy] at hs
      split at hs
      · split at hs <;> cases hs
        exact ⟨⟨h, fun _ h => h⟩, by rintro v hv; cases hv; assumption⟩
      · split at hs <;> cases hs
        exact ⟨⟨h.newY yinj hy, fun _ h => by simp [h]⟩, by rintro v hv; cases hv; simp⟩
    | none =>
      simp only [symKid, hy] at hs
      split at hs
      · split at hs <;> cases hs
        rename_i hh
        have hx : S.x x = some (.var n) := by simpa [Sym.holds] using hh
        exact ⟨⟨h, fun _ h => h⟩, by rintro v hv; cases hv; exact h.x x _ hx⟩
      · split at hs
        · cases hs
        split at hs <;> cases hs
        refine ⟨⟨?_, fun _ h => by simp [h]⟩, by rintro v hv; cases hv; simp⟩
        have := (h.place hy).markX (r := x)
        exact this.setX (r := x) (n := .var n) (by rintro v hv; cases hv; simp)

theorem symKids_sane {ks S S'} (hs : symKids yOf nr ks S = some S') (h : S.Sane yOf) :
    SaneStep yOf S S' ∧ ∀ v x, (Node.var v, x) ∈ ks → v ∈ S'.pl := by
  induction ks generalizing S with
  | nil => cases hs; exact ⟨⟨h, fun _ h => h⟩, by simp⟩
  | cons k ks ih =>
    obtain ⟨c, x⟩ := k
    simp only [symKids, Option.bind_eq_some_iff] at hs
    obtain ⟨S1, h1, h2⟩ := hs
    obtain ⟨a1, a2⟩ := symKid_sane yinj h1 h
    obtain ⟨b1, b2⟩ := ih h2 a1.sane
    refine ⟨⟨b1.sane, fun v hv => b1.grow v (a1.grow v hv)⟩, ?_⟩
    intro v x' hv
    rcases List.mem_cons.1 hv with hv | hv
    · cases hv; exact b1.grow _ (a2 v rfl)
    · exact b2 v x' hv

theorem symItem_sane {a S S'} (hs : symItem yOf nr a S = some S') (h : S.Sane yOf) :
    SaneStep yOf S S' ∧ (∀ v, a.node = .var v → v ∈ S'.pl) ∧
      (a.node.isVar = false → ∀ v x, (Node.var v, x) ∈ a.kids → v ∈ S'.pl) := by
  have struct : a.node.isVar = false → (∀ S'', (if a.x < nr then
      (symKids yOf nr a.kids ((S.mark (.x a.x)).clearX a.x)).bind fun S' =>
        if S'.x a.x = none then some (S'.setX a.x a.node) else none
    else none) = some S'' → SaneStep yOf S S'' ∧ (∀ v, a.node = .var v → v ∈ S''.pl) ∧
      (a.node.isVar = false → ∀ v x, (Node.var v, x) ∈ a.kids → v ∈ S''.pl)) := by
    intro hv S'' hs
    split at hs
    · simp only [Option.bind_eq_some_iff] at hs
      obtain ⟨S1, h1, h2⟩ := hs
      split at h2 <;> cases h2
      obtain ⟨a1, a2⟩ := symKids_sane yinj h1 (h.markX.clearX)
      refine ⟨⟨a1.sane.setX ?_, a1.grow⟩, ?_, fun _ => a2⟩
      · intro v hn; rw [hn] at hv; cases hv
      · intro v hn; rw [hn] at hv; cases hv
    · cases hs
  cases hn : a.node with
  | var n =>
    refine (fun (p : SaneStep yOf S S' ∧ n ∈ S'.pl) => ⟨p.1, by rintro v hv; cases hv; exact p.2, by simp [Node.isVar]⟩) ?_
    simp only [symItem, hn] at hs
    split at hs
    · cases hy : yOf n with
      | some y =>
        simp only [hy] at hs
        split at hs
        · split at hs <;> cases hs
          rename_i hp
          exact ⟨⟨h.setX (by rintro v hv; cases hv; exact hp), fun _ h => h⟩, hp⟩
        · split at hs <;> cases hs
          exact ⟨⟨(h.newY yinj hy).setX (by rintro v hv; cases hv; simp), fun _ h => by simp [h]⟩, by simp⟩
      | none =>
        simp only [hy] at hs
        split at hs
        · split at hs <;> cases hs
          rename_i hh
          have hx : S.x a.x = some (.var n) := by simpa [Sym.holds] using hh
          have hp := h.x _ _ hx
          exact ⟨⟨h.setX (by rintro v hv; cases hv; exact hp), fun _ h => h⟩, hp⟩
        · split at hs
          · cases hs
          split at hs <;> cases hs
          refine ⟨⟨?_, fun _ h => by simp [h]⟩, by simp⟩
          have := (h.place hy).markX (r := a.x)
          exact (this.setX (r := a.x) (n := .var n) (by rintro v hv; cases hv; simp)).setX
            (r := a.id) (n := .var n) (by rintro v hv; cases hv; simp)
    · cases hs
  | int v =>
    simp only [symItem, hn] at hs
    rw [hn] at struct
    exact struct rfl S' hs
  | cons v =>
    simp only [symItem, hn] at hs
    rw [hn] at struct
    exact struct rfl S' hs
  | fn f v =>
    simp only [symItem, hn] at hs
    rw [hn] at struct
    exact struct rfl S' hs
  | efn f v =>
    simp only [symItem, hn] at hs
    rw [hn] at struct
    exact struct rfl S' hs

theorem symItems_sane {as S S'} (hs : symItems yOf nr as S = some S') (h : S.Sane yOf) :
    SaneStep yOf S S' ∧ ∀ a ∈ as, (∀ v, a.node = .var v → v ∈ S'.pl) ∧
      (a.node.isVar = false → ∀ v x, (Node.var v, x) ∈ a.kids → v ∈ S'.pl) := by
  induction as generalizing S with
  | nil => cases hs; exact ⟨⟨h, fun _ h => h⟩, by simp⟩
  | cons a as ih =>
    simp only [symItems, Option.bind_eq_some_iff] at hs
    obtain ⟨S1, h1, h2⟩ := hs
    obtain ⟨a1, a2, a3⟩ := symItem_sane yinj h1 h
    obtain ⟨b1, b2⟩ := ih h2 a1.sane
    refine ⟨⟨b1.sane, fun v hv => b1.grow v (a1.grow v hv)⟩, ?_⟩
    intro b hb
    rcases List.mem_cons.1 hb with rfl | hb
    · exact ⟨fun v hv => b1.grow _ (a2 v hv), fun hv v x hk => b1.grow _ (a3 hv v x hk)⟩
    · exact b2 b hb

end

/-! ## Nodes and variables of an atom -/

/-- What does not depend on the register assignment. -/
structure Nodes (atom : Node) (ais : List AItem) : Prop where
  id : ∀ (k : Nat) (a : AItem), ais[k]? = some a → a.id = k
  kids : ∀ a ∈ ais, a.kids.map (·.1) = a.node.children
  kidItem : ∀ a ∈ ais, ∀ c x, (c, x) ∈ a.kids →
    ∃ b ∈ ais, b.node = c ∧ b.x = x ∧ a.id < b.id ∧ (atomArgs atom).length ≤ b.id
  args : ∀ (i : Nat) (n : Node), (atomArgs atom)[i]? = some n → ∃ a : AItem, ais[i]? = some a ∧ a.node = n
  sub : ∀ a ∈ ais, ∀ v, v ∈ a.node.vars → v ∈ Node.varss (atomArgs atom)
  colours : ∀ cst, KidTree (atomArgs atom).length ais cst → ∀ J, ∃ inp, Colours (atomArgs atom) ais cst J inp

theorem annotate_nodes (atom : Node) (xs) : Nodes atom (annotate (items atom) xs) := by
  obtain ⟨h1, h2, h3, h4⟩ := annotate_spec atom xs
  refine ⟨fun k a h => (h1 k a h).1, h2, h3, h4, ?_, fun _ T J => annotate_colours atom xs T J⟩
  intro a ha v hv
  simp only [annotate, List.mem_map] at ha
  obtain ⟨it, hit, rfl⟩ := ha
  have := bfs_all (P := fun n => ∀ v, v ∈ n.vars → v ∈ Node.varss (atomArgs atom))
    (fun n c hn hc v hv => hn v (Node.mem_vars_child hc hv)) (Node.sizes (atomArgs atom)) (atomArgs atom) 0
    (atomArgs atom).length (fun nd hnd v hv => Node.mem_varss.2 ⟨nd, hnd, hv⟩) (by simp) it hit
  exact this v hv

theorem assignAtom_nodes (varX atom) : Nodes atom (assignAtom varX atom).1 := by
  simp only [assignAtom]; exact annotate_nodes ..

theorem assignSingle_nodes (atom) : Nodes atom (assignSingle atom).1 := assignAtom_nodes ..

theorem assignPair_nodes (head body) : Nodes head (assignPair head body).1.1 ∧ Nodes body (assignPair head body).2.1.1 := by
  unfold assignPair
  split
  · exact ⟨assignSingle_nodes _, assignSingle_nodes _⟩
  · split
    · exact ⟨assignSingle_nodes _, assignSingle_nodes _⟩
    · exact ⟨assignAtom_nodes .., assignAtom_nodes ..⟩

theorem varss_atomArgs (atom : Node) : Node.varss (atomArgs atom) = Node.varss atom.children := by
  cases atom <;> rfl

/-- Every variable below a node shows up among the nodes, as an argument or as a child of a structure. -/
theorem Nodes.find {atom ais} (N : Nodes atom ais) {Q : Name → Prop}
    (harg : ∀ a ∈ ais, ∀ v, a.id < (atomArgs atom).length → a.node = .var v → Q v)
    (hkid : ∀ a ∈ ais, (a.id < (atomArgs atom).length ∨ a.node.isFn = true ∨ a.node.isEfn = true) →
      ∀ v x, (Node.var v, x) ∈ a.kids → Q v) :
    ∀ v ∈ Node.varss (atomArgs atom), Q v := by
  have key : ∀ (k : Nat) (a : AItem), a.node.size ≤ k → a ∈ ais →
      (a.id < (atomArgs atom).length ∨ a.node.isFn = true ∨ a.node.isEfn = true) → ∀ v ∈ a.node.vars, Q v := by
    intro k
    induction k with
    | zero =>
      intro a h
      rw [Node.size_eq] at h; omega
    | succ k ih =>
      intro a h ha hk v hv
      have hstep : ∀ c ∈ a.node.children, v ∈ c.vars → Q v := by
        intro c hc hvc
        rw [← N.kids a ha] at hc
        obtain ⟨⟨c', x⟩, hm, rfl⟩ := List.mem_map.1 hc
        obtain ⟨b, hb, hbn, hbx, hlt, hle⟩ := N.kidItem a ha c' x hm
        have hsz : c'.size ≤ k := by
          have h1 := Node.size_eq a.node
          have h2 : c'.size ≤ Node.sizes a.node.children := by
            rw [← N.kids a ha]
            have : ∀ (l : List (Node × Nat)), (c', x) ∈ l → c'.size ≤ Node.sizes (l.map (·.1)) := by
              intro l
              induction l with
              | nil => simp
              | cons y l ihl =>
                intro h
                simp only [List.map_cons, Node.sizes]
                rcases List.mem_cons.1 h with h | h
                · rw [← h]; simp only; omega
                · have := ihl h; omega
            exact this _ hm
          omega
        cases hc' : c' with
        | var w =>
          rw [hc'] at hvc hm
          simp only [Node.vars, List.mem_singleton] at hvc
          subst hvc
          exact hkid a ha hk v x hm
        | cons w => rw [hc'] at hvc; simp [Node.vars] at hvc
        | int w => rw [hc'] at hvc; simp [Node.vars] at hvc
        | fn f cs => exact ih b (by rw [hbn]; exact hsz) hb (.inr (.inl (by rw [hbn, hc']; rfl))) v (by rw [hbn]; exact hvc)
        | efn f cs => exact ih b (by rw [hbn]; exact hsz) hb (.inr (.inr (by rw [hbn, hc']; rfl))) v (by rw [hbn]; exact hvc)
      cases hn : a.node with
      | var w =>
        rw [hn] at hv hk
        simp only [Node.vars, List.mem_singleton] at hv
        subst hv
        rcases hk with hk | hk | hk
        · exact harg a ha v hk hn
        · cases hk
        · cases hk
      | cons w => rw [hn] at hv; simp [Node.vars] at hv
      | int w => rw [hn] at hv; simp [Node.vars] at hv
      | fn f cs =>
        rw [hn] at hv hstep
        simp only [Node.vars] at hv
        obtain ⟨c, hc, hvc⟩ := Node.mem_varss.1 hv
        exact hstep c hc hvc
      | efn f cs =>
        rw [hn] at hv hstep
        simp only [Node.vars] at hv
        obtain ⟨c, hc, hvc⟩ := Node.mem_varss.1 hv
        exact hstep c hc hvc
  intro v hv
  obtain ⟨c, hc, hvc⟩ := Node.mem_varss.1 hv
  obtain ⟨i, hi⟩ := List.getElem?_of_mem hc
  obtain ⟨a, ha, han⟩ := N.args i c hi
  have hid := N.id i a ha
  have hlt := (List.getElem?_eq_some_iff.1 hi).1
  exact key _ a (Nat.le_refl _) (List.mem_of_getElem? ha) (.inl (by omega)) v (by rw [han]; exact hvc)

theorem Nodes.itemVar {atom ais} (N : Nodes atom ais) {v} : itemVar ais v ↔ v ∈ Node.varss (atomArgs atom) := by
  constructor
  · rintro ⟨a, ha, hn⟩
    exact N.sub a ha v (by simp [hn, Node.vars])
  · refine N.find (Q := PBfs.itemVar ais) (fun a ha v _ hn => ⟨a, ha, hn⟩) ?_ v
    intro a ha _ v x hm
    obtain ⟨b, hb, hbn, _⟩ := N.kidItem a ha _ x hm
    exact ⟨b, hb, hbn⟩

/-- The nodes for which code is generated. -/
theorem mem_flattenQuery {nargs : Nat} {ais : List AItem} {a} :
    a ∈ flattenQuery nargs ais ↔ a ∈ ais ∧ a.kept nargs = true := by
  unfold flattenQuery flattenProgram
  rw [List.mem_append, List.mem_reverse]
  constructor
  · rintro (h | h)
    · exact List.mem_filter.1 (List.mem_of_mem_drop h)
    · exact List.mem_filter.1 (List.mem_of_mem_take h)
  · intro h
    have := List.mem_filter.2 h
    rw [← List.take_append_drop nargs (List.filter _ _)] at this
    rcases List.mem_append.1 this with h | h
    · exact .inr h
    · exact .inl h

theorem kept_iff {a : AItem} {nargs} : a.kept nargs = true ↔ a.id < nargs ∨ a.node.isFn = true ∨ a.node.isEfn = true := by
  simp [AItem.kept, or_assoc]

/-- After a successful replay every variable of the atom has a place. -/
theorem symAtom_sane {yOf : Name → Option Nat} (yinj : ∀ n m y, yOf n = some y → yOf m = some y → n = m) {nr atom ais S S'}
    (N : Nodes atom ais) (hs : symAtom yOf nr atom ais S = some S') (h : S.Sane yOf) :
    SaneStep yOf S S' ∧ (∀ v ∈ Node.varss (atomArgs atom), v ∈ S'.pl) ∧
      ∀ i n, (atomArgs atom)[i]? = some n → S'.x i = some n := by
  simp only [symAtom, Option.bind_eq_some_iff] at hs
  obtain ⟨S1, h1, h2⟩ := hs
  split at h2 <;> cases h2
  rename_i hh
  obtain ⟨a1, a2⟩ := symItems_sane yinj h1 h
  refine ⟨a1, N.find ?_ ?_, ?_⟩
  · intro a ha v hlt hn
    exact (a2 a (mem_flattenQuery.2 ⟨ha, kept_iff.2 (.inl hlt)⟩)).1 v hn
  · intro a ha hk v x hm
    refine (a2 a (mem_flattenQuery.2 ⟨ha, kept_iff.2 hk⟩)).2 ?_ v x hm
    have := N.kids a ha
    cases hn : a.node <;> simp [Node.isVar]
    rw [hn] at this
    simp only [Node.children, List.map_eq_nil_iff] at this
    rw [this] at hm; simp at hm
  · intro i n hi
    simpa using (holdsArgs_iff (k := 0)).1 hh i n hi

theorem atomArgs_ne {a : Node} (h : a.goal = true) : atomArgs a ≠ [] := by
  cases a <;> simp_all [Node.goal, atomArgs, Node.children]

theorem queryItem_ne {yOf xOf a g is g'} (h : queryItem yOf xOf a g = .ok (is, g')) : is ≠ [] := by
  unfold queryItem at h
  split at h
  · split at h
    · split at h <;> (simp only [pure_ok] at h; cases h; simp)
    · split at h <;> (simp only [pure_ok] at h; cases h; simp)
  · simp only at h
    split at h
    · simp only [bind_ok, pure_ok] at h
      obtain ⟨_, _, _, _, h⟩ := h
      cases h; simp
    · cases h
  · simp only [bind_ok, pure_ok] at h
    obtain ⟨_, _, _, _, h⟩ := h
    cases h; simp

theorem programItem_ne {yOf a g is g'} (h : programItem yOf a g = .ok (is, g')) : is ≠ [] := by
  unfold programItem at h
  split at h
  · split at h
    · split at h <;> (simp only [pure_ok] at h; cases h; simp)
    · simp only at h
      split at h <;> (simp only [pure_ok] at h; cases h; simp)
  · simp only [bind_ok, pure_ok] at h
    obtain ⟨_, _, _, _, h⟩ := h
    cases h; simp

/-! ## The marks of the replay are those of the compiler -/

theorem symKid_seen {yOf nr c x g i g' S S'} (h : queryKid yOf c x g = .ok (i, g')) (hs : symKid yOf nr c x S = some S')
    (e : S.seen = g.seen) : S'.seen = g'.seen := by
  have hh : ∀ r, S.has r = g.has r := fun r => by simp [Sym.has, GenSt.has, e]
  cases c with
  | int v =>
    simp only [queryKid, bind_ok, pure_ok] at h
    obtain ⟨⟨c1, g1⟩, h1, h2⟩ := h
    cases h2
    simp only [symKid] at hs
    split at hs <;> cases hs
    rw [Sym.setX_seen, e, structCell_ok h1]
  | cons v =>
    simp only [queryKid, bind_ok, pure_ok] at h
    obtain ⟨⟨c1, g1⟩, h1, h2⟩ := h
    cases h2
    simp only [symKid] at hs
    split at hs <;> cases hs
    rw [Sym.setX_seen, e, structCell_ok h1]
  | fn f cs =>
    simp only [queryKid, ← hh] at h
    simp only [symKid] at hs
    split at hs
    · rename_i hx
      split at hs <;> cases hs
      simp only [hx, if_true, pure_ok] at h
      cases h; exact e
    · cases hs
  | efn f cs =>
    simp only [queryKid, ← hh] at h
    simp only [symKid] at hs
    split at hs
    · rename_i hx
      split at hs <;> cases hs
      simp only [hx, if_true, pure_ok] at h
      cases h; exact e
    · cases hs
  | var n =>
    cases hy : yOf n with
    | some y =>
      simp only [queryKid, hy, ← hh] at h
      simp only [symKid, hy] at hs
      split at hs
      · rename_i hx
        split at hs <;> cases hs
        simp only [hx, if_true, pure_ok] at h
        cases h; exact e
      · rename_i hx
        split at hs <;> cases hs
        simp only [hx, if_false, pure_ok] at h
        cases h; simp [GenSt.mark, e]
    | none =>
      simp only [queryKid, hy, ← hh] at h
      simp only [symKid, hy] at hs
      split at hs
      · rename_i hx
        split at hs <;> cases hs
        simp only [hx, if_true, pure_ok] at h
        cases h; exact e
      · rename_i hx
        split at hs
        · cases hs
        split at hs <;> cases hs
        simp only [hx, if_false, pure_ok] at h
        cases h; simp [GenSt.mark, e]

theorem symKids_seen {yOf nr ks g is g' S S'} (h : queryKids yOf ks g = .ok (is, g')) (hs : symKids yOf nr ks S = some S')
    (e : S.seen = g.seen) : S'.seen = g'.seen := by
  induction ks generalizing g is S with
  | nil => simp only [queryKids, pure_ok] at h; cases h; cases hs; exact e
  | cons k ks ih =>
    simp only [queryKids, bind_ok, pure_ok] at h
    obtain ⟨⟨i, g1⟩, h1, ⟨is', g2⟩, h2, h⟩ := h
    cases h
    simp only [symKids, Option.bind_eq_some_iff] at hs
    obtain ⟨S1, hs1, hs2⟩ := hs
    exact ih h2 hs2 (symKid_seen h1 hs1 e)

theorem symItem_seen {yOf xOf nr a g is g' S S'} (h : queryItem yOf xOf a g = .ok (is, g'))
    (hs : symItem yOf nr a S = some S') (e : S.seen = g.seen) : S'.seen = g'.seen := by
  have hh : ∀ r, S.has r = g.has r := fun r => by simp [Sym.has, GenSt.has, e]
  have struct : ∀ {cell g1 js}, structCell a.node (g.mark (.x a.x)) = .ok (cell, g1) →
      queryKids yOf a.kids g1 = .ok (js, g') → (if a.x < nr then
      (symKids yOf nr a.kids ((S.mark (.x a.x)).clearX a.x)).bind fun S' =>
        if S'.x a.x = none then some (S'.setX a.x a.node) else none
    else none) = some S' → S'.seen = g'.seen := by
    intro cell g1 js h1 h2 hs
    split at hs
    · simp only [Option.bind_eq_some_iff] at hs
      obtain ⟨S1, k1, k2⟩ := hs
      split at k2 <;> cases k2
      rw [Sym.setX_seen]
      refine symKids_seen h2 k1 ?_
      rw [structCell_ok h1]
      simp [GenSt.mark, e]
    · cases hs
  cases hn : a.node with
  | var n =>
    simp only [queryItem, hn, ← hh] at h
    simp only [symItem, hn] at hs
    split at hs
    · cases hy : yOf n with
      | some y =>
        simp only [hy] at hs h
        split at hs
        · rename_i hx
          split at hs <;> cases hs
          simp only [hx, if_true, pure_ok] at h
          cases h; exact e
        · rename_i hx
          split at hs <;> cases hs
          simp only [hx, if_false, pure_ok] at h
          cases h; simp [GenSt.mark, e]
      | none =>
        simp only [hy] at hs h
        split at hs
        · rename_i hx
          split at hs <;> cases hs
          simp only [hx, if_true, pure_ok] at h
          cases h; exact e
        · rename_i hx
          split at hs
          · cases hs
          split at hs <;> cases hs
          simp only [hx, if_false, pure_ok] at h
          cases h; simp [GenSt.mark, e]
    · cases hs
  | int v =>
    simp only [queryItem, hn, bind_ok, pure_ok] at h
    obtain ⟨⟨cl, g1⟩, h1, ⟨js, g2⟩, h2, h3⟩ := h
    cases h3
    simp only [symItem, hn] at hs
    rw [hn] at struct
    exact struct h1 h2 hs
  | cons v =>
    simp only [queryItem, hn, bind_ok, pure_ok] at h
    obtain ⟨⟨cl, g1⟩, h1, ⟨js, g2⟩, h2, h3⟩ := h
    cases h3
    simp only [symItem, hn] at hs
    rw [hn] at struct
    exact struct h1 h2 hs
  | fn f v =>
    simp only [queryItem, hn, bind_ok, pure_ok] at h
    obtain ⟨⟨cl, g1⟩, h1, ⟨js, g2⟩, h2, h3⟩ := h
    cases h3
    simp only [symItem, hn] at hs
    rw [hn] at struct
    exact struct h1 h2 hs
  | efn f v =>
    simp only [queryItem, hn] at h
    split at h
    · simp only [bind_ok, pure_ok] at h
      obtain ⟨⟨cl, g1⟩, h1, ⟨js, g2⟩, h2, h3⟩ := h
      cases h3
      simp only [symItem, hn] at hs
      rw [hn] at struct
      exact struct h1 h2 hs
    · cases h

theorem symItems_seen {yOf xOf nr as g is g' S S'} (h : queryItems yOf xOf as g = .ok (is, g'))
    (hs : symItems yOf nr as S = some S') (e : S.seen = g.seen) : S'.seen = g'.seen := by
  induction as generalizing g is S with
  | nil => simp only [queryItems, pure_ok] at h; cases h; cases hs; exact e
  | cons k ks ih =>
    simp only [queryItems, bind_ok, pure_ok] at h
    obtain ⟨⟨i, g1⟩, h1, ⟨is', g2⟩, h2, h⟩ := h
    cases h
    simp only [symItems, Option.bind_eq_some_iff] at hs
    obtain ⟨S1, hs1, hs2⟩ := hs
    exact ih h2 hs2 (symItem_seen h1 hs1 e)

/-- The code generated for a goal. -/
theorem no_perm {yOf : Name → Option Nat} {ny : Nat} (ylt : ∀ n y, yOf n = some y → y < ny) (h : ny = 0) : ∀ n, yOf n = none := by
  intro n
  cases hy : yOf n with
  | none => rfl
  | some y => have := ylt n y hy; omega

theorem toQuery_sem {st : Storage} {I} (hst : StOK st) (hI : Interp I st) {yOf xOf : Name → Option Nat} {ny nr : Nat}
    (ylt : ∀ n y, yOf n = some y → y < ny)
    (yinj : ∀ n m y, yOf n = some y → yOf m = some y → n = m) {atom ais g is g1 S S'}
    (hg : atom.goal = true) (N : Nodes atom ais) (hw : ∀ a ∈ ais, a.node.wf = true)
    (h : toQuery yOf xOf atom ais g = .ok (is, g1)) (hle : StLe g1.st st)
    (hs : symAtom yOf nr atom ais S = some S') (hsane : S.Sane yOf) (hseen : S.seen = g.seen) (al : List Instr)
    (c : CAtom) (hci : c.instrs = al ++ is) (hcn : c.regCount = nr) (hcp : c.parsed = atom)
    (hsub : c.fromQuery = true → (∀ v ∈ c.subst, if v.perm then yOf v.name = some v.reg ∧ v.name ∈ S'.pl
        else S'.x v.reg = some (.var v.name)) ∧
      ∀ v, v ∈ c.subst.map (·.name) ↔ v ∈ Node.varss atom.children) :
    GoalSem st I yOf ny al c atom S S' ∧ S'.seen = g1.seen ∧ StLe g.st g1.st := by
  obtain ⟨_, _, hargs⟩ := symAtom_sane yinj N hs hsane
  simp only [toQuery, bind_ok, pure_ok] at h
  obtain ⟨⟨ds, g2⟩, h1, h2⟩ := h
  cases h2
  simp only [symAtom, Option.bind_eq_some_iff] at hs
  obtain ⟨S1, hs1, hs2⟩ := hs
  split at hs2 <;> cases hs2
  have hk : ∀ a ∈ flattenQuery (atomArgs atom).length ais, a.kids.map (·.1) = a.node.children :=
    fun a ha => N.kids a (mem_flattenQuery.1 ha).1
  have hw' : ∀ a ∈ flattenQuery (atomArgs atom).length ais, a.node.wf = true :=
    fun a ha => hw a (mem_flattenQuery.1 ha).1
  have hne : ds ≠ [] := by
    obtain ⟨n, ns, hns⟩ := List.exists_cons_of_ne_nil (atomArgs_ne hg)
    obtain ⟨a, ha, _⟩ := N.args 0 n (by rw [hns]; rfl)
    have hm : a ∈ flattenQuery (atomArgs atom).length ais := by
      refine mem_flattenQuery.2 ⟨List.mem_of_getElem? ha, kept_iff.2 (.inl ?_)⟩
      rw [N.id 0 a ha, hns]; simp
    cases hf : flattenQuery (atomArgs atom).length ais with
    | nil => rw [hf] at hm; simp at hm
    | cons b bs =>
      rw [hf] at h1
      simp only [queryItems, bind_ok, pure_ok] at h1
      obtain ⟨⟨i, g2⟩, k1, ⟨js, g3⟩, k2, k3⟩ := h1
      cases k3
      have := queryItem_ne k1
      simp [this]
  have hseen' : S'.seen = g2.seen := by
    -- the marks do not depend on the executor
    exact symItems_seen h1 hs1 hseen
  refine ⟨⟨⟨ds, by rw [hci], hne, (queryItems_data h1).1,
    fun h0 => (queryItems_envFree (no_perm ylt h0) h1).1, ?_⟩, hargs, hsub, hg, hcp⟩, hseen', queryItems_le h1 hk hw'⟩
  intro pre fuel ν e q hr
  obtain ⟨e', ν', r1, r2, r3, r4⟩ := queryItems_exec (Γ := ⟨st, I, pre, yOf, ny, c.regCount⟩) ⟨hst, hI, ylt, yinj⟩
    (fuel := fuel) h1 (by rw [hcn]; exact hs1) hk hseen hle hw' q hr
  exact ⟨e', ν', r1, r2, r4⟩

end PBfs
