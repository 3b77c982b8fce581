import Verif.Proof.Put
import Verif.Proof.Regs
import Verif.Proof.Ground
/-! # Code of the head of a clause

Executing the head of a clause solves the equations between the arguments of the goal and the arguments of
the head. -/
namespace PBfs

/-- The value of a cell that is not a pointer, from the values of its arguments. -/
def cellTop {D} (B : IAlg D) : Cell → List D → Option D
  | .cons i, _ => some (B.cons i)
  | .int v, _ => some (B.int v)
  | .fn f _, as => some (B.fn f as)
  | .efn f _, as => some (B.efn f as)
  | _, _ => none

def Cell.args : Cell → Nat
  | .fn _ n => n
  | .efn _ n => n
  | _ => 0

/-- Different cells have different values. -/
theorem cellTop_inj {D} {B : IAlg D} {V c c' as bs d} (fr : Free B V) (hv : V c) (hv' : V c')
    (hl : as.length = c.args) (hl' : bs.length = c'.args)
    (h : cellTop B c as = some d) (h' : cellTop B c' bs = some d) : c = c' ∧ as = bs := by
  have nil : ∀ {l : List D}, l.length = 0 → l = [] := fun h => List.length_eq_zero_iff.1 h
  cases c <;> cases c' <;> simp only [cellTop, Option.some.injEq, reduceCtorEq] at h h' <;>
    subst h <;> simp only [Cell.args] at hl hl'
  · rw [fr.cons_inj hv hv' h'.symm, nil hl, nil hl']; exact ⟨rfl, rfl⟩
  · exact (fr.cons_int h'.symm).elim
  · exact (fr.cons_fn h'.symm).elim
  · exact (fr.cons_efn h'.symm).elim
  · exact (fr.cons_int h').elim
  · rw [fr.int_inj h', nil hl, nil hl']; exact ⟨rfl, rfl⟩
  · exact (fr.int_fn h'.symm).elim
  · exact (fr.int_efn h'.symm).elim
  · exact (fr.cons_fn h').elim
  · exact (fr.int_fn h').elim
  · obtain ⟨e1, e2⟩ := fr.fn_inj hv' hv hl' hl h'
    subst e1; subst e2
    exact ⟨by rw [← hl, ← hl'], rfl⟩
  · exact (fr.fn_efn h'.symm).elim
  · exact (fr.cons_efn h').elim
  · exact (fr.int_efn h').elim
  · exact (fr.fn_efn h').elim
  · obtain ⟨e1, e2⟩ := fr.efn_inj hv' hv hl' hl h'
    subst e1; subst e2
    exact ⟨by rw [← hl, ← hl'], rfl⟩

theorem cellEq_top {D} {B : IAlg D} {σ : Nat → D} {a c} (h : c.isPtr = false) :
    CellEq B σ a c ↔ cellTop B c (argVals σ (a + 1) c.args) = some (σ a) := by
  cases c <;> simp_all [CellEq, cellTop, Cell.isPtr, Cell.args, argVals, eq_comm]

theorem cellIs_top {D} {A : Alg D} {I c} {n : Node} (h : CellIs I c n) (ds : List D) :
    cellTop (toIAlg A I) c ds = n.top A ds := by
  unfold CellIs at h
  split at h
  · simp [cellTop, toIAlg, h, Node.top]
  · simp [cellTop, toIAlg, h, Node.top]
  · simp [cellTop, toIAlg, h, Node.top]
  · obtain ⟨rfl, _, _⟩ := h; rfl
  · exact h.elim

theorem cellIs_args {I c} {n : Node} (h : CellIs I c n) : c.args = n.children.length := by
  unfold CellIs at h
  split at h
  · rfl
  · rfl
  · exact h.2
  · exact h.2.1.trans h.2.2.symm
  · exact h.elim

theorem cellIs_notPtr {I c} {n : Node} (h : CellIs I c n) : c.isPtr = false ∧ n.isVar = false := by
  unfold CellIs at h
  split at h <;> first | exact ⟨rfl, rfl⟩ | exact h.elim

theorem Good.args {V H sz lim a c} (g : Good V H sz lim) (h : H a = some c) : a + c.args < lim := by
  have := g.lt h
  have := g.le
  cases c with
  | fn f n => exact g.fnArgs _ _ _ h
  | efn f n => exact g.efnArgs _ _ _ h
  | _ => simp [Cell.args]; omega

theorem pushable_top {I c} {n : Node} {sz lim} (h : CellIs I c n) (hl : sz + n.children.length < lim) :
    Pushable sz lim c := by
  have := cellIs_args h
  have := (cellIs_notPtr h).1
  cases c with
  | cons => exact .cons
  | int => exact .int
  | ref => simp_all [Cell.isPtr]
  | str => simp_all [Cell.isPtr]
  | fn f k => simp only [Cell.args] at *; exact .fn (by omega)
  | efn f k => simp only [Cell.args] at *; exact .efn (by omega)

/-! ## Assertions and steps -/

/-- An assertion about the values of addresses and variables. -/
abbrev Asrt := ∀ (D : Type), Alg D → (Nat → D) → (Name → D) → Prop

/-- What a step of the head does to the solutions: those of the new state are solutions of the old one, and
every solution of the old one can be extended (leaving the addresses below `lim` alone); failure means there
are none. -/
structure HStep (Γ : QCtx) (lim : Nat) (Φ : Asrt) (e : Exec) (Φ' : Asrt) (e' : Exec) : Prop where
  sound : e'.state = .running → ∀ D A σ ρ, Mod (toIAlg A Γ.I) (Γ.H e') σ → Φ' D A σ ρ →
    Mod (toIAlg A Γ.I) (Γ.H e) σ ∧ Φ D A σ ρ
  complete : ∀ D A σ ρ, Free (toIAlg A Γ.I) (ValidCell Γ.st) → Mod (toIAlg A Γ.I) (Γ.H e) σ → Φ D A σ ρ →
    e'.state = .running ∧ ∃ σ', (∀ a, a < lim → σ' a = σ a) ∧
      Mod (toIAlg A Γ.I) (Γ.H e') σ' ∧ Φ' D A σ' ρ
  state : e'.state = .running ∨ e'.state = .fail
  size : e.hp.size ≤ e'.hp.size
  tail : e'.envs.tail = e.envs.tail

theorem HStep.trans {Γ lim Φ e Φ' e' lim' Φ'' e''} (h : HStep Γ lim Φ e Φ' e') (h' : HStep Γ lim' Φ' e' Φ'' e'')
    (hl : lim ≤ lim') (hr : e'.state = .running) : HStep Γ lim Φ e Φ'' e'' where
  sound hr' D A σ ρ m f := by
    obtain ⟨m1, f1⟩ := h'.sound hr' D A σ ρ m f
    exact h.sound hr D A σ ρ m1 f1
  complete D A σ ρ fr m f := by
    obtain ⟨_, σ1, a1, m1, f1⟩ := h.complete D A σ ρ fr m f
    obtain ⟨r2, σ2, a2, m2, f2⟩ := h'.complete D A σ1 ρ fr m1 f1
    exact ⟨r2, σ2, fun a ha => (a2 a (by omega)).trans (a1 a ha), m2, f2⟩
  state := h'.state
  size := by have := h.size; have := h'.size; omega
  tail := h'.tail.trans h.tail

/-- After a failure the rest does not matter. -/
theorem HStep.failed {Γ lim Φ e Φ' e' Φ''} (h : HStep Γ lim Φ e Φ' e') (hr : e'.state ≠ .running) :
    HStep Γ lim Φ e Φ'' e' where
  sound hr' := (hr hr').elim
  complete D A σ ρ fr m f := (hr (h.complete D A σ ρ fr m f).1).elim
  state := h.state
  size := h.size
  tail := h.tail

/-- Assertions about addresses below `lim` are kept. -/
theorem HStep.frame {Γ lim Φ e Φ' e'} {Ψ : Asrt} (h : HStep Γ lim Φ e Φ' e')
    (hΨ : ∀ D A (σ τ : Nat → D) ρ, (∀ a, a < lim → τ a = σ a) → Ψ D A σ ρ → Ψ D A τ ρ) :
    HStep Γ lim (fun D A σ ρ => Φ D A σ ρ ∧ Ψ D A σ ρ) e (fun D A σ ρ => Φ' D A σ ρ ∧ Ψ D A σ ρ) e' where
  sound hr D A σ ρ m f := by
    obtain ⟨m1, f1⟩ := h.sound hr D A σ ρ m f.1
    exact ⟨m1, f1, f.2⟩
  complete D A σ ρ fr m f := by
    obtain ⟨r, σ', a1, m1, f1⟩ := h.complete D A σ ρ fr m f.1
    exact ⟨r, σ', a1, m1, f1, hΨ D A σ σ' ρ a1 f.2⟩
  state := h.state
  size := h.size
  tail := h.tail

theorem HStep.congr {Γ lim Φ e Φ' e'} {Ψ Ψ' : Asrt} (h : HStep Γ lim Φ e Φ' e')
    (h1 : ∀ D A σ ρ, Φ D A σ ρ ↔ Ψ D A σ ρ) (h2 : ∀ D A σ ρ, Φ' D A σ ρ ↔ Ψ' D A σ ρ) :
    HStep Γ lim Ψ e Ψ' e' := by
  have e1 : Φ = Ψ := by funext D A σ ρ; exact propext (h1 D A σ ρ)
  have e2 : Φ' = Ψ' := by funext D A σ ρ; exact propext (h2 D A σ ρ)
  subst e1; subst e2; exact h

/-- Only registers, mode and argument pointer change. -/
theorem HStep.same {Γ : QCtx} {lim e e'} {Φ Φ' : Asrt} (hp : e'.hp = e.hp) (hs : e'.state = .running)
    (ht : e'.envs.tail = e.envs.tail)
    (h : ∀ D A σ ρ, Mod (toIAlg A Γ.I) (Γ.H e) σ → (Φ D A σ ρ ↔ Φ' D A σ ρ)) : HStep Γ lim Φ e Φ' e' where
  sound _ D A σ ρ m f := by
    rw [QCtx.H, hp] at m
    exact ⟨m, (h D A σ ρ m).2 f⟩
  complete D A σ ρ _ m f := ⟨hs, σ, fun _ _ => rfl, by rw [QCtx.H, hp]; exact m, (h D A σ ρ m).1 f⟩
  state := .inl hs
  size := Nat.le_of_eq (by rw [hp])
  tail := ht

/-! ## Heap operations of the head -/

/-- Binding `d` to a new cell `c` standing for `n`: the kids get the addresses after the new cell. -/
theorem bind_new {Γ : QCtx} (ok : Γ.OK) {e : Exec} {d v c n} (g : Good (ValidCell Γ.st) (Γ.H e) e.hp.size e.hp.size)
    (hd : Γ.H e d = some (.ref d v)) (hc : CellIs Γ.I c n) (hv : ValidCell Γ.st c) :
    ∃ hp, (e.push c).hp.bind Γ.pre d ((e.push c).hp.size - 1) = .ok hp ∧ hp.size = e.hp.size + 1 ∧
      hp.start = e.hp.start ∧
      Good (ValidCell Γ.st) (hp.at? Γ.pre) (e.hp.size + 1) (e.hp.size + 1 + n.children.length) ∧
      (∀ (D : Type) (A : Alg D) σ, Mod (toIAlg A Γ.I) (hp.at? Γ.pre) σ ↔ Mod (toIAlg A Γ.I) (Γ.H e) σ ∧
        σ d = σ e.hp.size ∧ CellEq (toIAlg A Γ.I) σ e.hp.size c) := by
  have hsz : (e.push c).hp.size = e.hp.size + 1 := Hp.size_push _ _
  have hlt := g.lt hd
  have g1 : Good (ValidCell Γ.st) (Γ.H (e.push c)) (e.push c).hp.size (e.hp.size + 1 + n.children.length) := by
    rw [push_view, hsz]
    exact g.push (pushable_top hc (by omega)) hv (by omega) (by omega)
  have hd1 : Γ.H (e.push c) d = some (.ref d v) := by rw [push_view, upd_old hlt, hd]
  have ht : DerefTo (Γ.H (e.push c)) e.hp.size e.hp.size :=
    ⟨0, .val (by rw [push_view, HV.upd_same]) (cellIs_notPtr hc).1⟩
  obtain ⟨hp, b1, b2, b3, b4, b5⟩ := bind_step (ValidCell.laws ok.stok) g1 hd1 ht (by omega)
  refine ⟨hp, ?_, by rw [b2, hsz], by rw [b3]; rfl, ?_, ?_⟩
  · rw [hsz, Nat.add_sub_cancel]; exact b1
  · rw [b2, hsz] at b5; exact b5
  · intro D A σ
    rw [b4, mod_bind hd1, push_view, mod_push g.none]
    constructor
    · rintro ⟨⟨a, b⟩, c⟩; exact ⟨a, c, b⟩
    · rintro ⟨a, b, c⟩; exact ⟨⟨a, c⟩, b⟩

/-- The end of a chain is an unbound variable or a value. -/
theorem deref_cell {Γ : QCtx} {e : Exec} {a lim} (g : Good (ValidCell Γ.st) (Γ.H e) e.hp.size lim)
    (ha : a < e.hp.size) : ∃ d c, e.deref Γ.pre a = .ok d ∧ e.heapAt Γ.pre d = .ok c ∧
      DerefTo (Γ.H e) a d ∧ Γ.H e d = some c ∧ d < e.hp.size ∧ ValidCell Γ.st c ∧
      ((∃ v, c = .ref d v) ∨ c.isPtr = false) := by
  obtain ⟨d, h1, h2⟩ := deref_ok g ha
  obtain ⟨c, hc⟩ := g.get (h2.lt g)
  refine ⟨d, c, h1, by simp only [Exec.heapAt, hc, orFault_some], h2, hc, h2.lt g, g.valid _ _ hc, ?_⟩
  rcases h2.end_cell.2 with ⟨v, hv⟩ | ⟨c', hc', hp⟩
  · cases hc.symm.trans hv; exact .inl ⟨v, rfl⟩
  · cases hc.symm.trans hc'; exact .inr hp

theorem isPtr_isRef {c : Cell} (h : c.isPtr = false) : c.isRef = false := by cases c <;> simp_all [Cell.isPtr, Cell.isRef]

/-- Unification of two addresses, on the executor. -/
theorem unify_exec {Γ : QCtx} (ok : Γ.OK) {fuel e a b} (g : Good (ValidCell Γ.st) (Γ.H e) e.hp.size e.hp.size)
    (ha : a < e.hp.size) (hb : b < e.hp.size) (hr : e.state = .running) :
    (∃ e', e.unify Γ.pre fuel a b = .ok e' ∧ e'.hp.size = e.hp.size ∧ e'.regs = e.regs ∧ e'.envs = e.envs ∧
      e'.mode = e.mode ∧ e'.s = e.s ∧
      Good (ValidCell Γ.st) (Γ.H e') e.hp.size e.hp.size ∧
      ∀ Φ Φ' : Asrt, (∀ D A σ ρ, Mod (toIAlg A Γ.I) (Γ.H e) σ → (Φ D A σ ρ ↔ (σ a = σ b ∧ Φ' D A σ ρ))) →
        ∀ lim, HStep Γ lim Φ e Φ' e') ∨
    (e.unify Γ.pre fuel a b = .error .hang ∧ ∀ N, N ≤ fuel → ¬ (Fixed Γ.I N (Γ.H e) a ∨ Fixed Γ.I N (Γ.H e) b)) := by
  rcases unifyLoop_spec (pre := Γ.pre) (ValidCell.laws ok.stok) fuel e.hp [a, b] g (by simp [ha, hb]) (by simp) with
    ⟨r, h1, p⟩ | h
  · left
    refine ⟨{ e with hp := r.hp, state := if r.ok then e.state else .fail }, ?_, p.size, rfl, rfl, rfl, rfl,
      p.good, ?_⟩
    · simp only [Exec.unify, unify, h1, ok_bind]; rfl
    · intro Φ Φ' hΦ lim
      refine ⟨?_, ?_, ?_, ?_, rfl⟩
      · intro hs D A σ ρ m f
        have hrok : r.ok = true := by
          by_contra hn
          simp only [Bool.not_eq_true] at hn
          simp [hn] at hs
        obtain ⟨m1, f1⟩ := p.sound hrok _ σ m
        exact ⟨m1, (hΦ D A σ ρ m1).2 ⟨f1.1, f⟩⟩
      · intro D A σ ρ fr m f
        obtain ⟨f1, f2⟩ := (hΦ D A σ ρ m).1 f
        obtain ⟨c1, c2⟩ := p.complete _ σ fr m ⟨f1, trivial⟩
        exact ⟨by simp [c1, hr], σ, fun _ _ => rfl, c2, f2⟩
      · cases r.ok <;> simp [hr]
      · exact Nat.le_of_eq p.size.symm
  · right
    exact ⟨by simp only [Exec.unify, unify, h, error_bind], fun N hN hf => unify_ground ok.stok g ha hb hf hN h⟩

/-! ## Kids of a structure -/

/-- The address of the next kid: read from an existing structure, or about to be pushed. -/
def kb (e : Exec) : Nat := match e.mode with
  | .read => e.s
  | .write => e.hp.size

/-- There is room for `n` more kids below `lim`. -/
def Room (e : Exec) (n lim : Nat) : Prop := match e.mode with
  | .read => e.s + n ≤ e.hp.size ∧ lim = e.hp.size
  | .write => lim = e.hp.size + n

/-- The cell is a pointer to `a`. -/
def PtrTo (Γ : QCtx) (cell : Cell) (a : Nat) : Prop := cell.ptr = some a ∧ ValidCell Γ.st cell

/-- Where a new variable (or structure) among the kids is, and the content of its register
(instructions.cpp:107-142). -/
def kidPlace (e : Exec) (v : Int) : Exec × Cell := match e.mode with
  | .read => (e, .str e.s)
  | .write => (e.pushRef v, e.newRef v)

theorem unifyVariable_eq {pre fuel st x v} {e : Exec} : stepData pre fuel st (.unifyVariable x v) e =
    ((kidPlace e v).1.setReg x (kidPlace e v).2 >>= fun e' => pure { e' with s := e'.s + 1 }) := by
  unfold stepData kidPlace
  cases e.mode <;> rfl

theorem unifyPermVariable_eq {pre fuel st y v} {e : Exec} : stepData pre fuel st (.unifyPermVariable y v) e =
    ((kidPlace e v).1.setPerm y (kidPlace e v).2 >>= fun e' => pure { e' with s := e'.s + 1 }) := by
  unfold stepData kidPlace
  cases e.mode <;> rfl

theorem kidPlace_spec {Γ : QCtx} {e : Exec} {v n lim} (g : Good (ValidCell Γ.st) (Γ.H e) e.hp.size lim)
    (rm : Room e (n + 1) lim) (hv : ∀ a, ValidCell Γ.st (.ref a v)) :
    Good (ValidCell Γ.st) (Γ.H (kidPlace e v).1) (kidPlace e v).1.hp.size lim ∧
    Room { (kidPlace e v).1 with s := (kidPlace e v).1.s + 1 } n lim ∧
    kb { (kidPlace e v).1 with s := (kidPlace e v).1.s + 1 } = kb e + 1 ∧
    PtrTo Γ (kidPlace e v).2 (kb e) ∧ kb e < (kidPlace e v).1.hp.size ∧
    e.hp.size ≤ (kidPlace e v).1.hp.size ∧
    (kidPlace e v).1.regs = e.regs ∧ (kidPlace e v).1.envs = e.envs ∧ (kidPlace e v).1.state = e.state ∧
    (∀ (D : Type) (A : Alg D) σ, Mod (toIAlg A Γ.I) (Γ.H (kidPlace e v).1) σ ↔ Mod (toIAlg A Γ.I) (Γ.H e) σ) := by
  unfold kidPlace kb Room at *
  cases hm : e.mode with
  | read =>
    simp only [hm] at rm ⊢
    refine ⟨g, ⟨by omega, rm.2⟩, trivial, ⟨rfl, trivial⟩, by omega, Nat.le_refl _, trivial, trivial, trivial, fun _ _ _ => trivial⟩
  | write =>
    simp only [hm] at rm ⊢
    have hsz : (e.pushRef v).hp.size = e.hp.size + 1 := Hp.size_push _ _
    have hm' : (e.pushRef v).mode = .write := hm
    simp only [hm', hsz]
    refine ⟨?_, by omega, trivial, ⟨rfl, hv _⟩, by omega, by omega, rfl, rfl, rfl, ?_⟩
    · rw [Exec.pushRef, push_view]
      exact g.push .new (hv _) (Nat.le_refl _) (by omega)
    · intro D A σ
      rw [Exec.pushRef, push_view, mod_push g.none]
      simp [CellEq]

/-- `unify_value`: the next kid is the value of a register. -/
theorem unifyVal_exec {Γ : QCtx} (ok : Γ.OK) {fuel} {e : Exec} {r a n lim}
    (g : Good (ValidCell Γ.st) (Γ.H e) e.hp.size lim) (rm : Room e (n + 1) lim) (hr : e.state = .running)
    (hp : PtrTo Γ r a) (ha : a < e.hp.size) :
    (∃ e', unifyVal Γ.pre fuel r e = .ok e' ∧ e.hp.size ≤ e'.hp.size ∧ e'.regs = e.regs ∧ e'.envs = e.envs ∧
      Good (ValidCell Γ.st) (Γ.H e') e'.hp.size lim ∧ Room e' n lim ∧ kb e' = kb e + 1 ∧
      ∀ Φ Φ' : Asrt, (∀ D A σ ρ, Mod (toIAlg A Γ.I) (Γ.H e) σ → (Φ D A σ ρ ↔ (σ (kb e) = σ a ∧ Φ' D A σ ρ))) →
        ∀ lim, HStep Γ lim Φ e Φ' e') ∨
    (unifyVal Γ.pre fuel r e = .error .hang ∧ ∀ N, N ≤ fuel → ¬ (Fixed Γ.I N (Γ.H e) (kb e) ∨ Fixed Γ.I N (Γ.H e) a)) := by
  have haddr : r.addr = .ok a := by simp [Cell.addr, hp.1]
  unfold unifyVal Room kb at *
  cases hm : e.mode with
  | read =>
    simp only [hm] at rm ⊢
    simp only [haddr, ok_bind]
    obtain ⟨rm1, rm2⟩ := rm
    subst rm2
    rcases unify_exec ok (fuel := fuel) g ha (show e.s < e.hp.size by omega) hr with
      ⟨e', h1, h2, h3, h4, h5, h6, h7, h8⟩ | h
    · left
      refine ⟨{ e' with s := e'.s + 1 }, ?_, Nat.le_of_eq h2.symm, h3, h4, ?_, ?_, ?_, ?_⟩
      · simp only [h1, ok_bind]; rfl
      · simp only [h2]; exact h7
      · simp only [h5, h6, h2, hm]; exact ⟨by omega, trivial⟩
      · simp only [h5, hm, h6]
      · intro Φ Φ' hΦ lim
        have := h8 Φ Φ' (fun D A σ ρ m => by rw [hΦ D A σ ρ m, eq_comm]) lim
        exact ⟨this.sound, this.complete, this.state, this.size, this.tail⟩
    · right
      exact ⟨by simp only [h.1, error_bind], fun N hN hf => h.2 N hN hf.symm⟩
  | write =>
    simp only [hm] at rm ⊢
    obtain ⟨d, c, d1, d2, d3, d4, d5, d6, d7⟩ := deref_cell g ha
    left
    -- the pushed cell says that the new address is equal to `d`
    have key : ∃ c', pushValue Γ.pre r e = .ok (e.push c') ∧ Pushable e.hp.size lim c' ∧ ValidCell Γ.st c' ∧
        ∀ (D : Type) (A : Alg D) σ, Mod (toIAlg A Γ.I) (Γ.H e) σ →
          (CellEq (toIAlg A Γ.I) σ e.hp.size c' ↔ σ e.hp.size = σ a) := by
      unfold pushValue
      simp only [haddr, d1, d2, ok_bind]
      have hd : ∀ {D : Type} {A : Alg D} {σ}, Mod (toIAlg A Γ.I) (Γ.H e) σ → σ a = σ d :=
        fun m => m.deref d3
      cases c with
      | cons i =>
        refine ⟨_, rfl, .cons, d6, fun D A σ m => ?_⟩
        rw [hd m, m d _ d4]; rfl
      | int i =>
        refine ⟨_, rfl, .int, d6, fun D A σ m => ?_⟩
        rw [hd m, m d _ d4]; rfl
      | ref b v =>
        rcases d7 with ⟨v', h⟩ | h
        · cases h
          refine ⟨_, rfl, .ref d5, d6, fun D A σ m => ?_⟩
          rw [hd m]; rfl
        · simp [Cell.isPtr] at h
      | fn f k =>
        refine ⟨_, rfl, .str d5, trivial, fun D A σ m => ?_⟩
        rw [hd m]; rfl
      | efn f k =>
        refine ⟨_, rfl, .str d5, trivial, fun D A σ m => ?_⟩
        rw [hd m]; rfl
      | str b =>
        rcases d7 with ⟨v', h⟩ | h
        · cases h
        · simp [Cell.isPtr] at h
    obtain ⟨c', k1, k2, k3, k4⟩ := key
    have hsz : (e.push c').hp.size = e.hp.size + 1 := Hp.size_push _ _
    have hm' : (e.push c').mode = .write := hm
    refine ⟨{ e.push c' with s := (e.push c').s + 1 }, ?_, ?_, rfl, rfl, ?_, ?_, ?_, ?_⟩
    · simp only [k1, ok_bind]; rfl
    · simp only [hsz]; omega
    · simp only [hsz]
      show Good _ (Γ.H (e.push c')) _ _
      rw [push_view]
      exact g.push k2 k3 (Nat.le_refl _) (by omega)
    · simp only [hm', hsz]; omega
    · simp only [hm', hsz]
    · intro Φ Φ' hΦ lim'
      have hH : Γ.H { e.push c' with s := (e.push c').s + 1 } = (Γ.H e).upd e.hp.size c' := push_view
      refine ⟨?_, ?_, .inl hr, by simp only [hsz]; omega, rfl⟩
      · intro _ D A σ ρ m f
        rw [hH, mod_push g.none] at m
        exact ⟨m.1, (hΦ D A σ ρ m.1).2 ⟨(k4 D A σ m.1).1 m.2, f⟩⟩
      · intro D A σ ρ _ m f
        obtain ⟨f1, f2⟩ := (hΦ D A σ ρ m).1 f
        refine ⟨hr, σ, fun _ _ => rfl, ?_, f2⟩
        rw [hH, mod_push g.none]
        exact ⟨m, (k4 D A σ m).2 f1⟩

/-- Unifying address `a` with a term whose outermost symbol is in the cell `c`
(instructions.cpp:55-75, 77-93): the end of the chain is bound to a new cell, or is such a cell already, or
there is no solution. -/
theorem matchCell {Γ : QCtx} (ok : Γ.OK) {e : Exec} {a c n} (g : Good (ValidCell Γ.st) (Γ.H e) e.hp.size e.hp.size)
    (ha : a < e.hp.size) (hc : CellIs Γ.I c n) (hv : ValidCell Γ.st c) :
    ∃ d cell, e.deref Γ.pre a = .ok d ∧ e.heapAt Γ.pre d = .ok cell ∧ (DerefTo (Γ.H e) a d ∧ Γ.H e d = some cell) ∧
      ((cell.isRef = true ∧ ∃ hp, (e.push c).hp.bind Γ.pre d ((e.push c).hp.size - 1) = .ok hp ∧
          hp.size = e.hp.size + 1 ∧
          Good (ValidCell Γ.st) (hp.at? Γ.pre) (e.hp.size + 1) (e.hp.size + 1 + n.children.length) ∧
          (∀ (D : Type) (A : Alg D) σ ρ, Mod (toIAlg A Γ.I) (hp.at? Γ.pre) σ →
            argVals σ (e.hp.size + 1) n.children.length = Node.evals A ρ n.children →
            Mod (toIAlg A Γ.I) (Γ.H e) σ ∧ σ a = n.eval A ρ) ∧
          (∀ (D : Type) (A : Alg D) σ ρ, Mod (toIAlg A Γ.I) (Γ.H e) σ → σ a = n.eval A ρ →
            ∃ σ', (∀ b, b < e.hp.size → σ' b = σ b) ∧ Mod (toIAlg A Γ.I) (hp.at? Γ.pre) σ' ∧
              argVals σ' (e.hp.size + 1) n.children.length = Node.evals A ρ n.children) ∧
          (∀ (D : Type) (A : Alg D) σ, Mod (toIAlg A Γ.I) (hp.at? Γ.pre) σ → Mod (toIAlg A Γ.I) (Γ.H e) σ)) ∨
       (cell = c ∧ c.isRef = false ∧ d + n.children.length < e.hp.size ∧
          (∀ (D : Type) (A : Alg D) σ ρ, Mod (toIAlg A Γ.I) (Γ.H e) σ →
            argVals σ (d + 1) n.children.length = Node.evals A ρ n.children → σ a = n.eval A ρ) ∧
          (∀ (D : Type) (A : Alg D) σ ρ, Free (toIAlg A Γ.I) (ValidCell Γ.st) → Mod (toIAlg A Γ.I) (Γ.H e) σ →
            σ a = n.eval A ρ → argVals σ (d + 1) n.children.length = Node.evals A ρ n.children)) ∨
       (cell ≠ c ∧ cell.isRef = false ∧ ∀ (D : Type) (A : Alg D) σ ρ, Free (toIAlg A Γ.I) (ValidCell Γ.st) →
          Mod (toIAlg A Γ.I) (Γ.H e) σ → σ a ≠ n.eval A ρ)) := by
  obtain ⟨d, cell, d1, d2, d3, d4, d5, d6, d7⟩ := deref_cell g ha
  obtain ⟨hcp, hnv⟩ := cellIs_notPtr hc
  have hargs := cellIs_args hc
  refine ⟨d, cell, d1, d2, ⟨d3, d4⟩, ?_⟩
  rcases d7 with ⟨v, rfl⟩ | hcell
  · left
    refine ⟨rfl, ?_⟩
    obtain ⟨hp, b1, b2, _, b4, b5⟩ := bind_new ok g d4 hc hv
    refine ⟨hp, b1, b2, b4, ?_, ?_, fun D A σ m => ((b5 D A σ).1 m).1⟩
    · intro D A σ ρ m ob
      obtain ⟨m1, m2, m3⟩ := (b5 D A σ).1 m
      refine ⟨m1, ?_⟩
      rw [m1.deref d3, m2]
      rw [cellEq_iff hc, ob, Node.eval_top A ρ hnv] at m3
      exact (Option.some.inj m3).symm
    · intro D A σ ρ m hs
      have hold : ∀ b, b < e.hp.size →
          blockVal σ e.hp.size (n.eval A ρ :: Node.evals A ρ n.children) b = σ b := fun b hb => blockVal_old hb
      have hval : blockVal σ e.hp.size (n.eval A ρ :: Node.evals A ρ n.children) e.hp.size = n.eval A ρ :=
        blockVal_get (i := 0) rfl
      have hkids : argVals (blockVal σ e.hp.size (n.eval A ρ :: Node.evals A ρ n.children)) (e.hp.size + 1)
          n.children.length = Node.evals A ρ n.children := by
        have hl : (Node.evals A ρ n.children).length = n.children.length := by
          rw [Node.evals_eq_map, List.length_map]
        rw [← hl]
        refine argVals_eq_of_get fun i d' hd' => ?_
        rw [show e.hp.size + 1 + i = e.hp.size + (i + 1) by omega]
        exact blockVal_get (by simpa using hd')
      refine ⟨_, hold, (b5 D A _).2 ⟨mod_congr g hold m, ?_, ?_⟩, hkids⟩
      · rw [hold d d5, hval, ← m.deref d3, hs]
      · rw [cellEq_iff hc, hkids, hval, Node.eval_top A ρ hnv]
  · right
    have hval : ∀ {D : Type} {A : Alg D} {σ}, Mod (toIAlg A Γ.I) (Γ.H e) σ →
        cellTop (toIAlg A Γ.I) cell (argVals σ (d + 1) cell.args) = some (σ a) := by
      intro D A σ m
      rw [m.deref d3]
      exact (cellEq_top hcell).1 (m d cell d4)
    by_cases hcc : cell = c
    · left
      subst hcc
      have := g.args d4
      rw [hargs] at this
      refine ⟨rfl, isPtr_isRef hcp, this, ?_, ?_⟩
      · intro D A σ ρ m ob
        have h := hval m
        rw [hargs, ob, cellIs_top hc, Node.eval_top A ρ hnv] at h
        exact (Option.some.inj h).symm
      · intro D A σ ρ fr m hs
        have h := hval m
        have h' : cellTop (toIAlg A Γ.I) cell (Node.evals A ρ n.children) = some (σ a) := by
          rw [cellIs_top hc, Node.eval_top A ρ hnv, hs]
        have := (cellTop_inj fr hv hv (by simp) (by rw [Node.evals_eq_map, List.length_map, hargs]) h h').2
        rw [← hargs]; exact this
    · right
      refine ⟨hcc, isPtr_isRef hcell, ?_⟩
      intro D A σ ρ fr m hs
      have h := hval m
      have h' : cellTop (toIAlg A Γ.I) c (Node.evals A ρ n.children) = some (σ a) := by
        rw [cellIs_top hc, Node.eval_top A ρ hnv, hs]
      exact hcc (cellTop_inj fr d6 hv (by simp) (by rw [Node.evals_eq_map, List.length_map, hargs]) h h').1

/-! ## Registers of the head -/

/-- The register in which the value to be matched with a node is found. -/
def AItem.reg (nargs : Nat) (b : AItem) : Nat := if b.id < nargs then b.id else b.x

/-- The head being executed. -/
structure HCtx extends QCtx where
  atom : Node
  ais : List AItem
  xOf : Name → Option Nat
  /-- nodes known to be matched with ground terms -/
  inp : Nat → Bool
  /-- the size of these terms -/
  N : Nat

structure HCtx.OK (Γ : HCtx) : Prop extends Γ.toQCtx.OK where
  regs : Regs Γ.atom Γ.nr Γ.ais Γ.xOf
  wf : ∀ a ∈ Γ.ais, a.node.wf = true

/-- State of the registers: nodes from `k` on are still to be matched, nodes up to `c0` have been reached,
`α` tells the addresses of reached nodes, `ν` those of the variables. -/
structure HRegs (Γ : HCtx) (k c0 : Nat) (ν : VMap) (α : Nat → Option Nat) (seen : List SReg) (e : Exec) : Prop where
  regs : e.regs.length = Γ.nr
  νlt : ∀ v a, ν v = some a → a < e.hp.size
  νx : ∀ v, (ν v).isSome → ∃ r, Γ.xOf v = some r
  vx : ∀ v r, Γ.xOf v = some r → (SReg.x r ∈ seen ↔ (ν v).isSome)
  vy : ∀ v y, Γ.yOf v = some y → (SReg.y y ∈ seen ↔ (ν v).isSome)
  x : ∀ v r a, Γ.yOf v = none → Γ.xOf v = some r → ν v = some a →
    ∃ cell, e.regs[r]? = some cell ∧ PtrTo Γ.toQCtx cell a
  y : ∀ v y a, Γ.yOf v = some y → ν v = some a → ∃ cell, e.perm y = .ok cell ∧ PtrTo Γ.toQCtx cell a
  env : Γ.ny ≠ 0 → ∃ env rest, e.envs = env :: rest ∧ env.length = Γ.ny
  item : ∀ b ∈ Γ.ais, k ≤ b.id → ∀ p, α b.id = some p →
    p < e.hp.size ∧ ∃ cell, e.regs[b.reg (atomArgs Γ.atom).length]? = some cell ∧ PtrTo Γ.toQCtx cell p
  act : ∀ b ∈ Γ.ais, k ≤ b.id → b.kept (atomArgs Γ.atom).length = true → ((α b.id).isSome ↔ b.id < c0)
  nact : ∀ b ∈ Γ.ais, b.kept (atomArgs Γ.atom).length = false → α b.id = none
  fresh : ∀ b ∈ Γ.ais, b.node.isVar = false → (atomArgs Γ.atom).length ≤ b.id → c0 ≤ b.id → SReg.x b.x ∉ seen
  occ : ∀ v, (ν v).isSome → ∃ b ∈ Γ.ais, b.node = .var v ∧ (b.id < k ∨ ((atomArgs Γ.atom).length ≤ b.id ∧ b.id < c0))

/-- A variable occurs twice in the head, outside of the terms matched with ground terms. -/
def HCtx.Twice (Γ : HCtx) : Prop := ∃ v, ∃ b ∈ Γ.ais, ∃ b' ∈ Γ.ais, b.id ≠ b'.id ∧ b.node = .var v ∧ b'.node = .var v ∧
  Γ.inp b.id = false ∧ Γ.inp b'.id = false

/-- The occurrence of a variable has been dealt with. -/
def HCtx.Met (Γ : HCtx) (k c0 i : Nat) : Prop := i < k ∨ ((atomArgs Γ.atom).length ≤ i ∧ i < c0)

/-- The terms matched with nodes `inp` are ground, and so are the values of variables among these nodes. -/
structure HGr (Γ : HCtx) (k c0 : Nat) (ν : VMap) (α : Nat → Option Nat) (e : Exec) : Prop where
  item : ∀ b ∈ Γ.ais, k ≤ b.id → ∀ p, α b.id = some p → Γ.inp b.id = true → Fixed Γ.I Γ.N (Γ.H e) p
  met : ∀ b ∈ Γ.ais, ∀ v, b.node = .var v → Γ.Met k c0 b.id →
    ∃ a, ν v = some a ∧ (Γ.inp b.id = true → Fixed Γ.I Γ.N (Γ.H e) a)

theorem HGr.mono {Γ k c0 ν α e e'} (h : HGr Γ k c0 ν α e)
    (hm : ∀ a, Fixed Γ.I Γ.N (Γ.H e) a → Fixed Γ.I Γ.N (Γ.H e') a) : HGr Γ k c0 ν α e' where
  item b hb hk p hp hi := hm p (h.item b hb hk p hp hi)
  met b hb v hv hs := by
    obtain ⟨a, h1, h2⟩ := h.met b hb v hv hs
    exact ⟨a, h1, fun hi => hm a (h2 hi)⟩

/-- An address on a chain to a ground term does not lead to an open variable. -/
theorem Fixed.closed {I V H size lim N a d c} (g : Good V H size lim) (h : Fixed I N H a) (hd : DerefTo H a d) (hc : H d = some c) :
    c.isRef = false := by
  obtain ⟨t, _, h⟩ := h
  have h' : FixT I H d t := h.eq fun τ m => m.deref hd
  by_contra hn
  rw [Bool.not_eq_false] at hn
  obtain ⟨x, v, rfl⟩ := isRef_iff.1 hn
  rcases hd.end_cell.2 with ⟨v', hv'⟩ | ⟨c, hc', hp⟩
  · exact h'.closed g v' hv'
  · rw [hc] at hc'; cases hc'; simp [Cell.isPtr] at hp

/-- The arguments of a ground term are ground. -/
theorem Fixed.kids {I V H size lim N a d c} (g : Good V H size lim) (h : Fixed I N H a) (hd : DerefTo H a d) (hc : H d = some c)
    {i : Nat} (hi : i < c.args) : Fixed I N H (d + 1 + i) := by
  obtain ⟨t, hs, h⟩ := h
  have h' : FixT I H d t := h.eq fun τ m => m.deref hd
  cases c with
  | fn f n =>
    obtain ⟨ts, rfl, hl, hk⟩ := h'.fn g hc
    simp only [Cell.args] at hi
    refine ⟨ts[i], ?_, hk i _ (List.getElem?_eq_getElem (by omega))⟩
    have := Tree.size_mem (List.getElem_mem (show i < ts.length by omega))
    simp only [Tree.size] at hs; omega
  | efn f n =>
    obtain ⟨ts, rfl, hl, hk⟩ := h'.efn g hc
    simp only [Cell.args] at hi
    refine ⟨ts[i], ?_, hk i _ (List.getElem?_eq_getElem (by omega))⟩
    have := Tree.size_mem (List.getElem_mem (show i < ts.length by omega))
    simp only [Tree.size] at hs; omega
  | _ => simp [Cell.args] at hi

/-- The values of reached nodes that are still to be matched. -/
def Pend (Γ : HCtx) (k : Nat) (α : Nat → Option Nat) : Asrt := fun _ A σ ρ =>
  ∀ b ∈ Γ.ais, k ≤ b.id → ∀ p, α b.id = some p → σ p = b.node.eval A ρ

theorem kept_nonvar {b : AItem} {n} (h : b.kept n = true) (hn : n ≤ b.id) : b.node.isVar = false := by
  unfold AItem.kept at h
  simp only [Bool.or_eq_true, decide_eq_true_eq] at h
  cases hb : b.node <;> simp_all [Node.isFn, Node.isEfn, Node.isVar]
  omega

theorem not_kept_id {b : AItem} {n} (h : b.kept n = false) : n ≤ b.id := by
  unfold AItem.kept at h
  simp only [Bool.or_eq_false_iff, decide_eq_false_iff_not] at h
  omega

theorem HRegs.kept_of_act {Γ k c0 ν α seen e} (h : HRegs Γ k c0 ν α seen e) {b} (hb : b ∈ Γ.ais) {p}
    (hp : α b.id = some p) : b.kept (atomArgs Γ.atom).length = true := by
  by_contra hn
  rw [Bool.not_eq_true] at hn
  rw [h.nact b hb hn] at hp
  cases hp

/-- Registers of nodes differ from registers of variables. -/
theorem HCtx.OK.reg_ne {Γ : HCtx} (ok : Γ.OK) {b} (hb : b ∈ Γ.ais) (hk : b.kept (atomArgs Γ.atom).length = true) {v r}
    (hv : Γ.xOf v = some r) : b.reg (atomArgs Γ.atom).length ≠ r := by
  have h1 := ok.regs.varR v r hv
  unfold AItem.reg
  split
  · omega
  · rename_i hn
    have := (ok.regs.sReg b hb (kept_nonvar hk (by omega)) (by omega)).2.2 v
    intro h
    exact this (h ▸ hv)

/-- A register of a structure or constant below the arguments is used by nothing else. -/
theorem HCtx.OK.reg_ne' {Γ : HCtx} (ok : Γ.OK) {b} (hb : b ∈ Γ.ais) (hk : b.kept (atomArgs Γ.atom).length = true) {b'}
    (hb' : b' ∈ Γ.ais) (hn : b'.node.isVar = false) (hi : (atomArgs Γ.atom).length ≤ b'.id) (hne : b.id ≠ b'.id) :
    b.reg (atomArgs Γ.atom).length ≠ b'.x := by
  have h1 := ok.regs.sReg b' hb' hn hi
  unfold AItem.reg
  split
  · omega
  · rename_i hid
    intro h
    have := ok.regs.sInj b hb b' hb' (kept_nonvar hk (by omega)) hn (by omega) hi h
    exact hne (by rw [this])

theorem HRegs.grow {Γ k c0 ν α seen e e'} (h : HRegs Γ k c0 ν α seen e) (hr : e'.regs = e.regs)
    (he : e'.envs = e.envs) (hs : e.hp.size ≤ e'.hp.size) : HRegs Γ k c0 ν α seen e' :=
  { h with
    regs := by rw [hr]; exact h.regs
    νlt := fun v a hv => by have := h.νlt v a hv; omega
    x := by rw [hr]; exact h.x
    y := fun v y a hy ha => by
      obtain ⟨cell, h1, h2⟩ := h.y v y a hy ha
      exact ⟨cell, by unfold Exec.perm at *; rw [he]; exact h1, h2⟩
    env := by rw [he]; exact h.env
    item := fun b hb hk p hp => by
      obtain ⟨h1, h2⟩ := h.item b hb hk p hp
      exact ⟨by omega, by rw [hr]; exact h2⟩ }

theorem HRegs.advance {Γ k c0 ν α seen e} (h : HRegs Γ k c0 ν α seen e) : HRegs Γ (k + 1) c0 ν α seen e :=
  { h with
    item := fun b hb hk => h.item b hb (by omega)
    act := fun b hb hk => h.act b hb (by omega)
    occ := fun v hv => by
      obtain ⟨b, h1, h2, h3⟩ := h.occ v hv
      exact ⟨b, h1, h2, by omega⟩ }

theorem get_set_ne {l : List Cell} {r i : Nat} {c : Cell} (h : i ≠ r) : (l.set r c)[i]? = l[i]? :=
  List.getElem?_set_ne (Ne.symm h)

/-- A temporary variable of the head gets a place. -/
theorem HRegs.newVarX {Γ : HCtx} (ok : Γ.OK) {k c0 ν α seen e} (h : HRegs Γ k c0 ν α seen e) {v r a cell}
    (hn : ν v = none) (hx : Γ.xOf v = some r) (hy : Γ.yOf v = none) (hc : PtrTo Γ.toQCtx cell a)
    (ha : a < e.hp.size) (ho : ∃ b ∈ Γ.ais, b.node = .var v ∧ (b.id < k ∨ ((atomArgs Γ.atom).length ≤ b.id ∧ b.id < c0))) :
    e.setReg r cell = .ok { e with regs := e.regs.set r cell } ∧
    HRegs Γ k c0 (ν.set v a) α (.x r :: seen) { e with regs := e.regs.set r cell } := by
  have hr := (ok.regs.varR v r hx).2
  refine ⟨by unfold Exec.setReg; rw [h.regs, if_pos hr], ?_⟩
  exact
    { regs := by simp [h.regs]
      νlt := fun w b hw => by
        unfold VMap.set at hw
        split at hw
        · cases hw; exact ha
        · exact h.νlt w b hw
      νx := fun w hw => by
        by_cases hwv : w = v
        · subst hwv; exact ⟨r, hx⟩
        · simp only [VMap.set, hwv, if_false] at hw; exact h.νx w hw
      vx := fun w r' hw => by
        by_cases hwv : w = v
        · subst hwv
          rw [hx] at hw; cases hw
          simp [VMap.set]
        · simp only [VMap.set, hwv, if_false, List.mem_cons, SReg.x.injEq]
          rw [← h.vx w r' hw]
          constructor
          · rintro (rfl | h1)
            · exact absurd (ok.regs.varInj _ _ _ hw hx) hwv
            · exact h1
          · exact .inr
      vy := fun w y hw => by
        have hwv : w ≠ v := by rintro rfl; rw [hy] at hw; cases hw
        simp only [VMap.set, hwv, if_false, List.mem_cons, reduceCtorEq, false_or]
        exact h.vy w y hw
      x := fun w r' b hw hw' hb => by
        by_cases hwv : w = v
        · subst hwv
          rw [hx] at hw'; cases hw'
          rw [VMap.set_same] at hb; cases hb
          exact ⟨cell, List.getElem?_set_self (by rw [h.regs]; exact hr), hc⟩
        · simp only [VMap.set, hwv, if_false] at hb
          obtain ⟨cell', h1, h2⟩ := h.x w r' b hw hw' hb
          exact ⟨cell', by rw [get_set_ne (show r' ≠ r from fun h => hwv (ok.regs.varInj _ _ _ (h ▸ hw') hx))]; exact h1, h2⟩
      y := fun w y b hw hb => by
        have hwv : w ≠ v := by rintro rfl; rw [hy] at hw; cases hw
        simp only [VMap.set, hwv, if_false] at hb
        exact h.y w y b hw hb
      env := h.env
      item := fun b hb hk p hp => by
        obtain ⟨h1, cell', h2, h3⟩ := h.item b hb hk p hp
        exact ⟨h1, cell', by rw [get_set_ne (ok.reg_ne hb (h.kept_of_act hb hp) hx)]; exact h2, h3⟩
      act := h.act
      nact := h.nact
      fresh := fun b hb h1 h2 h3 => by
        simp only [List.mem_cons, SReg.x.injEq, not_or]
        exact ⟨fun he => (ok.regs.sReg b hb h1 h2).2.2 v (he ▸ hx), h.fresh b hb h1 h2 h3⟩
      occ := fun w hw => by
        by_cases hwv : w = v
        · subst hwv; exact ho
        · simp only [VMap.set, hwv, if_false] at hw; exact h.occ w hw }

/-- A permanent variable of the head gets a place. -/
theorem HRegs.newVarY {Γ : HCtx} (ok : Γ.OK) {k c0 ν α seen e} (h : HRegs Γ k c0 ν α seen e) {v r y a cell}
    (hn : ν v = none) (hx : Γ.xOf v = some r) (hy : Γ.yOf v = some y) (hc : PtrTo Γ.toQCtx cell a)
    (ha : a < e.hp.size) (ho : ∃ b ∈ Γ.ais, b.node = .var v ∧ (b.id < k ∨ ((atomArgs Γ.atom).length ≤ b.id ∧ b.id < c0))) :
    ∃ e', e.setPerm y cell = .ok e' ∧ HRegs Γ k c0 (ν.set v a) α (.y y :: .x r :: seen) e' ∧
      e'.hp = e.hp ∧ e'.regs = e.regs ∧ e'.state = e.state ∧ e'.envs.tail = e.envs.tail ∧ e'.mode = e.mode ∧ e'.s = e.s := by
  have hylt := ok.ylt v y hy
  obtain ⟨env, rest, he, hl⟩ := h.env (by omega)
  refine ⟨{ e with envs := env.set y cell :: rest }, ?_, ?_, rfl, rfl, rfl, by simp [he], rfl, rfl⟩
  · unfold Exec.setPerm
    rw [he]
    simp only []
    rw [if_pos (by omega)]
  · exact
    { regs := h.regs
      νlt := fun w b hw => by
        unfold VMap.set at hw
        split at hw
        · cases hw; exact ha
        · exact h.νlt w b hw
      νx := fun w hw => by
        by_cases hwv : w = v
        · subst hwv; exact ⟨r, hx⟩
        · simp only [VMap.set, hwv, if_false] at hw; exact h.νx w hw
      vx := fun w r' hw => by
        by_cases hwv : w = v
        · subst hwv
          rw [hx] at hw; cases hw
          simp [VMap.set]
        · simp only [VMap.set, hwv, if_false, List.mem_cons, SReg.x.injEq, reduceCtorEq, false_or]
          rw [← h.vx w r' hw]
          constructor
          · rintro (rfl | h1)
            · exact absurd (ok.regs.varInj _ _ _ hw hx) hwv
            · exact h1
          · exact .inr
      vy := fun w y' hw => by
        by_cases hwv : w = v
        · subst hwv
          rw [hy] at hw; cases hw
          simp [VMap.set]
        · simp only [VMap.set, hwv, if_false, List.mem_cons, SReg.y.injEq, reduceCtorEq, false_or]
          rw [← h.vy w y' hw]
          constructor
          · rintro (rfl | h1)
            · exact absurd (ok.yinj _ _ _ hw hy) hwv
            · exact h1
          · exact .inr
      x := fun w r' b hw hw' hb => by
        have hwv : w ≠ v := by rintro rfl; rw [hy] at hw; cases hw
        simp only [VMap.set, hwv, if_false] at hb
        exact h.x w r' b hw hw' hb
      y := fun w y' b hw hb => by
        by_cases hwv : w = v
        · subst hwv
          rw [hy] at hw; cases hw
          rw [VMap.set_same] at hb; cases hb
          exact ⟨cell, by simp [Exec.perm, List.getElem?_set_self (show y < env.length by omega)], hc⟩
        · simp only [VMap.set, hwv, if_false] at hb
          obtain ⟨cell', h1, h2⟩ := h.y w y' b hw hb
          refine ⟨cell', ?_, h2⟩
          have hne : y ≠ y' := fun h => hwv (ok.yinj _ _ _ hw (h ▸ hy))
          simp only [Exec.perm, he] at h1
          simp only [Exec.perm, List.getElem?_set_ne hne]
          exact h1
      env := fun _ => ⟨_, _, rfl, by simp [hl]⟩
      item := h.item
      act := h.act
      nact := h.nact
      fresh := fun b hb h1 h2 h3 => by
        simp only [List.mem_cons, SReg.x.injEq, not_or, reduceCtorEq, not_false_eq_true, true_and]
        exact ⟨fun he => (ok.regs.sReg b hb h1 h2).2.2 v (he ▸ hx), h.fresh b hb h1 h2 h3⟩
      occ := fun w hw => by
        by_cases hwv : w = v
        · subst hwv; exact ho
        · simp only [VMap.set, hwv, if_false] at hw; exact h.occ w hw }

def setα (α : Nat → Option Nat) (i p : Nat) : Nat → Option Nat := fun j => if j = i then some p else α j

/-- A structure below the arguments is reached. -/
theorem HRegs.newItem {Γ : HCtx} (ok : Γ.OK) {k c0 ν α seen e} (h : HRegs Γ k c0 ν α seen e) {b p cell}
    (hb : b ∈ Γ.ais) (hi : b.id = c0) (hna : (atomArgs Γ.atom).length ≤ c0) (hkept : b.kept (atomArgs Γ.atom).length = true)
    (hc : PtrTo Γ.toQCtx cell p) (hp : p < e.hp.size) :
    e.setReg b.x cell = .ok { e with regs := e.regs.set b.x cell } ∧
    HRegs Γ k (c0 + 1) ν (setα α c0 p) (.x b.x :: seen) { e with regs := e.regs.set b.x cell } := by
  have hnv := kept_nonvar hkept (by omega)
  obtain ⟨s1, s2, s3⟩ := ok.regs.sReg b hb hnv (by omega)
  refine ⟨by unfold Exec.setReg; rw [h.regs, if_pos s2], ?_⟩
  exact
    { regs := by simp [h.regs]
      νlt := h.νlt
      νx := h.νx
      vx := fun w r hw => by
        simp only [List.mem_cons, SReg.x.injEq]
        rw [← h.vx w r hw]
        constructor
        · rintro (rfl | h1)
          · exact absurd hw (s3 w)
          · exact h1
        · exact .inr
      vy := fun w y hw => by simp only [List.mem_cons, reduceCtorEq, false_or]; exact h.vy w y hw
      x := fun w r a hw hw' ha => by
        obtain ⟨cell', h1, h2⟩ := h.x w r a hw hw' ha
        exact ⟨cell', by rw [get_set_ne (show r ≠ b.x from fun h => s3 w (h ▸ hw'))]; exact h1, h2⟩
      y := h.y
      env := h.env
      item := fun b' hb' hk q hq => by
        by_cases hbb : b'.id = c0
        · simp only [setα, hbb, if_true, Option.some.injEq] at hq
          subst hq
          refine ⟨hp, cell, ?_, hc⟩
          have : b' = b := by
            obtain ⟨i, h1⟩ := List.getElem?_of_mem hb
            obtain ⟨j, h2⟩ := List.getElem?_of_mem hb'
            have e1 := ok.regs.id i b h1
            have e2 := ok.regs.id j b' h2
            have : i = j := by omega
            subst this
            rw [h1] at h2; exact (Option.some.inj h2).symm
          subst this
          unfold AItem.reg
          rw [if_neg (by omega)]
          exact List.getElem?_set_self (by rw [h.regs]; exact s2)
        · simp only [setα, hbb, if_false] at hq
          obtain ⟨h1, cell', h2, h3⟩ := h.item b' hb' hk q hq
          exact ⟨h1, cell', by
            rw [get_set_ne (ok.reg_ne' hb' (h.kept_of_act hb' hq) hb hnv (by omega) (by omega))]; exact h2, h3⟩
      act := fun b' hb' hk hk' => by
        by_cases hbb : b'.id = c0
        · simp only [setα, hbb, if_true, Option.isSome_some, true_iff]; omega
        · simp only [setα, hbb, if_false]
          rw [h.act b' hb' hk hk']
          omega
      nact := fun b' hb' hk => by
        have hbb : b'.id ≠ c0 := by
          intro hbb
          have : b' = b := by
            obtain ⟨i, h1⟩ := List.getElem?_of_mem hb
            obtain ⟨j, h2⟩ := List.getElem?_of_mem hb'
            have e1 := ok.regs.id i b h1
            have e2 := ok.regs.id j b' h2
            have : i = j := by omega
            subst this
            rw [h1] at h2; exact (Option.some.inj h2).symm
          subst this
          rw [hk] at hkept; cases hkept
        simp only [setα, hbb, if_false]
        exact h.nact b' hb' hk
      fresh := fun b' hb' h1 h2 h3 => by
        simp only [List.mem_cons, SReg.x.injEq, not_or]
        refine ⟨fun he => ?_, h.fresh b' hb' h1 h2 (by omega)⟩
        have := ok.regs.sInj b' hb' b hb h1 hnv h2 (by omega) he
        subst this
        omega
      occ := fun v hv => by
        obtain ⟨b, h1, h2, h3⟩ := h.occ v hv
        exact ⟨b, h1, h2, by omega⟩ }

/-- A variable or constant below the arguments is reached. -/
theorem HRegs.skipKid {Γ : HCtx} (ok : Γ.OK) {k c0 ν α seen e} (h : HRegs Γ k c0 ν α seen e) {b}
    (hb : b ∈ Γ.ais) (hi : b.id = c0) (hk : b.kept (atomArgs Γ.atom).length = false) : HRegs Γ k (c0 + 1) ν α seen e :=
  { h with
    act := fun b' hb' h1 h2 => by
      have hbb : b'.id ≠ c0 := by
        intro hbb
        have : b' = b := by
          obtain ⟨i, h1⟩ := List.getElem?_of_mem hb
          obtain ⟨j, h2⟩ := List.getElem?_of_mem hb'
          have e1 := ok.regs.id i b h1
          have e2 := ok.regs.id j b' h2
          have : i = j := by omega
          subst this
          rw [h1] at h2; exact (Option.some.inj h2).symm
        subst this
        rw [hk] at h2; cases h2
      rw [h.act b' hb' h1 h2]; omega
    fresh := fun b' hb' h1 h2 h3 => h.fresh b' hb' h1 h2 (by omega)
    occ := fun v hv => by
      obtain ⟨b, h1, h2, h3⟩ := h.occ v hv
      exact ⟨b, h1, h2, by omega⟩ }

/-- The register of a constant does not matter. -/
theorem HRegs.constReg {Γ : HCtx} (ok : Γ.OK) {k c0 ν α seen e} (h : HRegs Γ k c0 ν α seen e) {b cell}
    (hb : b ∈ Γ.ais) (hk : b.kept (atomArgs Γ.atom).length = false) (hnv : b.node.isVar = false) :
    e.setReg b.x cell = .ok { e with regs := e.regs.set b.x cell } ∧
    HRegs Γ k c0 ν α seen { e with regs := e.regs.set b.x cell } := by
  have hid := not_kept_id hk
  obtain ⟨s1, s2, s3⟩ := ok.regs.sReg b hb hnv hid
  refine ⟨by unfold Exec.setReg; rw [h.regs, if_pos s2], ?_⟩
  exact { h with
    regs := by simp [h.regs]
    x := fun w r a hw hw' ha => by
      obtain ⟨cell', h1, h2⟩ := h.x w r a hw hw' ha
      exact ⟨cell', by rw [get_set_ne (show r ≠ b.x from fun h => s3 w (h ▸ hw'))]; exact h1, h2⟩
    item := fun b' hb' hk' q hq => by
      obtain ⟨h1, cell', h2, h3⟩ := h.item b' hb' hk' q hq
      refine ⟨h1, cell', ?_, h3⟩
      have hkept := h.kept_of_act hb' hq
      rw [get_set_ne (ok.reg_ne' hb' hkept hb hnv hid ?_)]; exact h2
      intro hbb
      have : b' = b := by
        obtain ⟨i, h1⟩ := List.getElem?_of_mem hb
        obtain ⟨j, h2⟩ := List.getElem?_of_mem hb'
        have e1 := ok.regs.id i b h1
        have e2 := ok.regs.id j b' h2
        have : i = j := by omega
        subst this
        rw [h1] at h2; exact (Option.some.inj h2).symm
      subst this
      rw [hk] at hkept; cases hkept }

/-! ## Ground nodes -/

/-- Matching the arguments may go on forever: for all choices of arguments known to be ground, a variable occurs twice in the
other arguments of the head. -/
def MayHang (I : Int → FV) (fuel : Nat) (H : HV) (ps : List Nat) (args : List Node) : Prop :=
  ∀ (J : Nat → Bool) (N : Nat), (∀ (i p : Nat), ps[i]? = some p → J i = true → Fixed I N H p) → N ≤ fuel →
    ¬ (Node.varss (pick (fun i => !J i) args)).Nodup

theorem pick_all {α} (l : List α) : pick (fun _ => true) l = l := by
  induction l with
  | nil => rfl
  | cons x xs ih => simp [pick, ih]

theorem MayHang.twice {I fuel H ps args} (h : MayHang I fuel H ps args) : ¬ (Node.varss args).Nodup := by
  have := h (fun _ => false) 0 (fun _ _ _ h => by cases h) (Nat.zero_le _)
  simpa [pick_all] using this

/-- The same nodes have been dealt with. -/
theorem HGr.skip {Γ k c0 k' c0' ν α e} (h : HGr Γ k c0 ν α e) (hk : k ≤ k')
    (hm : ∀ b ∈ Γ.ais, ∀ v, b.node = .var v → Γ.Met k' c0' b.id → Γ.Met k c0 b.id ∨
      ∃ a, ν v = some a ∧ (Γ.inp b.id = true → Fixed Γ.I Γ.N (Γ.H e) a)) : HGr Γ k' c0' ν α e where
  item b hb hk' := h.item b hb (by omega)
  met b hb v hv hs := by
    rcases hm b hb v hv hs with h1 | h1
    · exact h.met b hb v hv h1
    · exact h1

/-- A structure is reached. -/
theorem HGr.newItem {Γ k c0 ν α e} (h : HGr Γ k c0 ν α e) {p} (hf : Γ.inp c0 = true → Fixed Γ.I Γ.N (Γ.H e) p)
    (hv : ∀ b ∈ Γ.ais, b.id = c0 → b.node.isVar = false) : HGr Γ k (c0 + 1) ν (setα α c0 p) e where
  item b hb hk q hq hi := by
    by_cases hbb : b.id = c0
    · simp only [setα, hbb, if_true, Option.some.injEq] at hq
      subst hq
      exact hf (hbb ▸ hi)
    · simp only [setα, hbb, if_false] at hq
      exact h.item b hb hk q hq hi
  met b hb v hvar hs := by
    have hne : b.id ≠ c0 := by
      intro hbb
      have := hv b hb hbb
      rw [hvar] at this; simp [Node.isVar] at this
    exact h.met b hb v hvar (by unfold HCtx.Met at *; omega)

/-- A variable gets a place. -/
theorem HGr.newVar {Γ k c0 k' c0' ν α e} (h : HGr Γ k c0 ν α e) {v p} (hn : ν v = none) (hk : k ≤ k')
    (hm : ∀ b ∈ Γ.ais, ∀ w, b.node = .var w → Γ.Met k' c0' b.id → Γ.Met k c0 b.id ∨
      (w = v ∧ (Γ.inp b.id = true → Fixed Γ.I Γ.N (Γ.H e) p))) : HGr Γ k' c0' (ν.set v p) α e where
  item b hb hk' := h.item b hb (by omega)
  met b hb w hw hs := by
    rcases hm b hb w hw hs with h1 | ⟨rfl, h1⟩
    · obtain ⟨a, h2, h3⟩ := h.met b hb w hw h1
      have hwv : w ≠ v := by rintro rfl; rw [hn] at h2; cases h2
      exact ⟨a, by simp only [VMap.set, hwv, if_false]; exact h2, h3⟩
    · exact ⟨p, VMap.set_same .., h1⟩

end PBfs
