import Verif.Proof.Den
import Verif.Proof.Shape
/-! # Code that builds the arguments of a goal

A symbolic replay of code generation (`symKid` … `symAtom`) tells which term every register holds; if it
succeeds, the generated code really builds the arguments of the goal.
-/
namespace PBfs

/-- State of the symbolic replay: the registers marked as seen, what the x registers hold, and the
variables that have a place on the heap. -/
structure Sym where
  seen : List SReg
  x : Nat → Option Node
  pl : List Name

namespace Sym
def mark (S : Sym) (r : SReg) : Sym := { S with seen := r :: S.seen }
def has (S : Sym) (r : SReg) : Bool := S.seen.contains r
def setX (S : Sym) (r : Nat) (n : Node) : Sym := { S with x := fun k => if k = r then some n else S.x k }
def clearX (S : Sym) (r : Nat) : Sym := { S with x := fun k => if k = r then none else S.x k }
def place (S : Sym) (n : Name) : Sym := { S with pl := n :: S.pl }
def holds (S : Sym) (r : Nat) (n : Node) : Bool := S.x r = some n

@[simp] theorem setX_same (S : Sym) (r n) : (S.setX r n).x r = some n := by simp [setX]
@[simp] theorem clearX_same (S : Sym) (r) : (S.clearX r).x r = none := by simp [clearX]
theorem setX_ne (S : Sym) {r k} (n) (h : k ≠ r) : (S.setX r n).x k = S.x k := by simp [setX, h]
theorem clearX_ne (S : Sym) {r k} (h : k ≠ r) : (S.clearX r).x k = S.x k := by simp [clearX, h]
@[simp] theorem setX_pl (S : Sym) (r n) : (S.setX r n).pl = S.pl := rfl
@[simp] theorem clearX_pl (S : Sym) (r) : (S.clearX r).pl = S.pl := rfl
@[simp] theorem mark_pl (S : Sym) (r) : (S.mark r).pl = S.pl := rfl
@[simp] theorem mark_x (S : Sym) (r) : (S.mark r).x = S.x := rfl
@[simp] theorem place_x (S : Sym) (r) : (S.place r).x = S.x := rfl
@[simp] theorem place_pl (S : Sym) (r) : (S.place r).pl = r :: S.pl := rfl
@[simp] theorem setX_seen (S : Sym) (r n) : (S.setX r n).seen = S.seen := rfl
@[simp] theorem clearX_seen (S : Sym) (r) : (S.clearX r).seen = S.seen := rfl
@[simp] theorem mark_seen (S : Sym) (r) : (S.mark r).seen = r :: S.seen := rfl
@[simp] theorem place_seen (S : Sym) (r) : (S.place r).seen = S.seen := rfl
end Sym

/-- Replay of `queryKid`. -/
def symKid (yOf : Name → Option Nat) (nr : Nat) (c : Node) (x : Nat) (S : Sym) : Option Sym :=
  match c with
  | .int v => if x < nr then some (S.setX x (.int v)) else none
  | .cons k => if x < nr then some (S.setX x (.cons k)) else none
  | .var n =>
    match yOf n with
    | some y =>
      if S.has (.y y) then if n ∈ S.pl then some S else none
      else if n ∈ S.pl then none
      else some ((S.mark (.y y)).place n)
    | none =>
      if S.has (.x x) then if S.holds x (.var n) then some S else none
      else if n ∈ S.pl then none
      else if x < nr then some (((S.mark (.x x)).setX x (.var n)).place n)
      else none
  | c => if S.has (.x x) then if S.holds x c then some S else none else none

/-- Replay of `queryKids`. -/
def symKids (yOf : Name → Option Nat) (nr : Nat) : List (Node × Nat) → Sym → Option Sym
  | [], S => some S
  | (c, x) :: ks, S => (symKid yOf nr c x S).bind (symKids yOf nr ks)

/-- Replay of `queryItem`. -/
def symItem (yOf : Name → Option Nat) (nr : Nat) (a : AItem) (S : Sym) : Option Sym :=
  match a.node with
  | .var n =>
    if a.id < nr then
      match yOf n with
      | some y =>
        if S.has (.y y) then if n ∈ S.pl then some (S.setX a.id (.var n)) else none
        else if n ∈ S.pl then none
        else some (((S.mark (.y y)).place n).setX a.id (.var n))
      | none =>
        if S.has (.x a.x) then if S.holds a.x (.var n) then some (S.setX a.id (.var n)) else none
        else if n ∈ S.pl then none
        else if a.x < nr then
          some ((((S.mark (.x a.x)).setX a.x (.var n)).setX a.id (.var n)).place n)
        else none
    else none
  | node =>
    if a.x < nr then
      (symKids yOf nr a.kids ((S.mark (.x a.x)).clearX a.x)).bind fun S' =>
        if S'.x a.x = none then some (S'.setX a.x node) else none
    else none

/-- Replay of `queryItems`. -/
def symItems (yOf : Name → Option Nat) (nr : Nat) : List AItem → Sym → Option Sym
  | [], S => some S
  | a :: as, S => (symItem yOf nr a S).bind (symItems yOf nr as)

/-- Registers `k, k+1, …` hold these terms. -/
def holdsArgs (S : Sym) : Nat → List Node → Bool
  | _, [] => true
  | k, n :: ns => S.holds k n && holdsArgs S (k + 1) ns

/-- Replay of `toQuery`: succeeds if at the end the argument registers hold the arguments. -/
def symAtom (yOf : Name → Option Nat) (nr : Nat) (atom : Node) (as : List AItem) (S : Sym) : Option Sym :=
  (symItems yOf nr (flattenQuery (atomArgs atom).length as) S).bind fun S' =>
    if holdsArgs S' 0 (atomArgs atom) then some S' else none

/-- What is fixed while one atom is executed. -/
structure QCtx where
  st : Storage
  I : Int → FV
  pre : Nat → Option Cell
  yOf : Name → Option Nat
  ny : Nat
  nr : Nat

structure QCtx.OK (Γ : QCtx) : Prop where
  stok : StOK Γ.st
  interp : Interp Γ.I Γ.st
  ylt : ∀ n y, Γ.yOf n = some y → y < Γ.ny
  yinj : ∀ n m y, Γ.yOf n = some y → Γ.yOf m = some y → n = m

/-- The heap as seen by `e`. -/
abbrev QCtx.H (Γ : QCtx) (e : Exec) : HV := e.hp.at? Γ.pre

/-- The content of a register is a pointer to something denoting `n`. -/
def RegIs (Γ : QCtx) (e : Exec) (ν : VMap) (cell : Cell) (n : Node) : Prop :=
  ∃ b, cell.ptr = some b ∧ b < e.hp.size ∧ ValidCell Γ.st cell ∧ Den Γ.I (Γ.H e) ν b n

/-- The executor is in the state described by `S`. -/
structure QRel (Γ : QCtx) (ν : VMap) (S : Sym) (e : Exec) (lim : Nat) : Prop where
  good : Good (ValidCell Γ.st) (Γ.H e) e.hp.size lim
  regs : e.regs.length = Γ.nr
  x : ∀ x c, S.x x = some c → ∃ cell, e.regs[x]? = some cell ∧ RegIs Γ e ν cell c
  pl : ∀ n, n ∈ S.pl ↔ (ν n).isSome
  νlt : ∀ n a, ν n = some a → a < e.hp.size
  env : Γ.ny ≠ 0 → ∃ env rest, e.envs = env :: rest ∧ env.length = Γ.ny
  y : ∀ n y, Γ.yOf n = some y → n ∈ S.pl → ∃ cell, e.perm y = .ok cell ∧ RegIs Γ e ν cell (.var n)

theorem QRel.ν_none {Γ ν S e lim n} (q : QRel Γ ν S e lim) (h : n ∉ S.pl) : ν n = none := by
  have := q.pl n
  cases hn : ν n with
  | none => rfl
  | some a => simp [hn] at this; exact absurd this h

theorem QRel.mark {Γ ν S e lim r} (q : QRel Γ ν S e lim) : QRel Γ ν (S.mark r) e lim := { q with }

theorem RegIs.congr {Γ ν e e' ν' cell n} (h : RegIs Γ e ν cell n) (hs : e.hp.size ≤ e'.hp.size)
    (sem : SemLe (Γ.H e) ν (Γ.H e') ν' Γ.I) : RegIs Γ e' ν' cell n := by
  obtain ⟨b, h1, h2, h3, h4⟩ := h
  exact ⟨b, h1, by omega, h3, h4.mono sem⟩

theorem push_view {Γ : QCtx} {e : Exec} {c} : Γ.H (e.push c) = (Γ.H e).upd e.hp.size c :=
  Hp.at_push _ _ _

theorem push_semLe {Γ : QCtx} {e : Exec} {c ν} (hn : Γ.H e e.hp.size = none) :
    SemLe (Γ.H e) ν (Γ.H (e.push c)) ν Γ.I := by
  intro D A σ ρ m g
  rw [push_view, mod_push hn] at m
  exact ⟨m.1, g⟩

theorem QRel.push {Γ ν S e lim c} (q : QRel Γ ν S e lim) (hlim : e.hp.size < lim)
    (hp : Pushable e.hp.size lim c) (hv : ValidCell Γ.st c) : QRel Γ ν S (e.push c) lim := by
  have sem : SemLe (Γ.H e) ν (Γ.H (e.push c)) ν Γ.I := push_semLe q.good.none
  have hsz : (e.push c).hp.size = e.hp.size + 1 := Hp.size_push _ _
  exact
    { good := by
        rw [push_view, hsz]
        exact q.good.push hp hv (Nat.le_refl _) hlim
      regs := q.regs
      x := fun x c' h => by
        obtain ⟨cell, h1, h2⟩ := q.x x c' h
        exact ⟨cell, h1, h2.congr (by omega) sem⟩
      pl := q.pl
      νlt := fun n a h => by have := q.νlt n a h; omega
      env := q.env
      y := fun n y h h' => by
        obtain ⟨cell, h1, h2⟩ := q.y n y h h'
        exact ⟨cell, h1, h2.congr (by omega) sem⟩ }

theorem QRel.lim {Γ ν S e lim lim'} (q : QRel Γ ν S e lim) (h : lim ≤ lim') : QRel Γ ν S e lim' :=
  { q with good := q.good.mono h }

theorem QRel.setX {Γ ν S e lim x cell n} (q : QRel Γ ν S e lim) (hx : x < Γ.nr) (h : RegIs Γ e ν cell n) :
    QRel Γ ν (S.setX x n) { e with regs := e.regs.set x cell } lim :=
  { good := q.good
    regs := by simp [q.regs]
    x := fun k c hk => by
      by_cases hkx : k = x
      · subst hkx
        simp only [Sym.setX_same, Option.some.injEq] at hk
        subst hk
        exact ⟨cell, List.getElem?_set_self (by rw [q.regs]; exact hx), h⟩
      · rw [Sym.setX_ne _ _ hkx] at hk
        obtain ⟨cell', h1, h2⟩ := q.x k c hk
        exact ⟨cell', by rw [List.getElem?_set_ne (Ne.symm hkx)]; exact h1, h2⟩
    pl := q.pl
    νlt := q.νlt
    env := q.env
    y := q.y }

theorem QRel.clearX {Γ ν S e lim x cell} (q : QRel Γ ν S e lim) :
    QRel Γ ν (S.clearX x) { e with regs := e.regs.set x cell } lim :=
  { good := q.good
    regs := by simp [q.regs]
    x := fun k c hk => by
      by_cases hkx : k = x
      · subst hkx; simp at hk
      · rw [Sym.clearX_ne _ hkx] at hk
        obtain ⟨cell', h1, h2⟩ := q.x k c hk
        exact ⟨cell', by rw [List.getElem?_set_ne (Ne.symm hkx)]; exact h1, h2⟩
    pl := q.pl
    νlt := q.νlt
    env := q.env
    y := q.y }

theorem set_semLe {H : HV} {ν : VMap} {n a I} (h : ν n = none) : SemLe H ν H (ν.set n a) I :=
  fun _ _ _ _ m g => ⟨m, ((agree_set h).1 g).1⟩

theorem den_set {H : HV} {ν : VMap} {n a I} : Den I H (ν.set n a) a (.var n) :=
  fun _ _ _ _ _ g => by
    rw [Node.eval]
    exact g n a (VMap.set_same ..)

/-- A temporary variable gets a place. -/
theorem QRel.place {Γ ν S e lim n a} (q : QRel Γ ν S e lim) (hn : n ∉ S.pl) (ha : a < e.hp.size)
    (hy : Γ.yOf n = none) : QRel Γ (ν.set n a) (S.place n) e lim :=
  have sem : SemLe (Γ.H e) ν (Γ.H e) (ν.set n a) Γ.I := set_semLe (q.ν_none hn)
  { good := q.good
    regs := q.regs
    x := fun k c hk => by
      obtain ⟨cell, h1, h2⟩ := q.x k c hk
      exact ⟨cell, h1, h2.congr (Nat.le_refl _) sem⟩
    pl := fun m => by
      simp only [Sym.place_pl, List.mem_cons, VMap.set, q.pl m]
      by_cases hm : m = n <;> simp [hm]
    νlt := fun m b hm => by
      unfold VMap.set at hm
      split at hm
      · cases hm; exact ha
      · exact q.νlt m b hm
    env := q.env
    y := fun m y hm hm' => by
      simp only [Sym.place_pl, List.mem_cons] at hm'
      rcases hm' with rfl | hm'
      · simp [hy] at hm
      · obtain ⟨cell, h1, h2⟩ := q.y m y hm hm'
        exact ⟨cell, h1, h2.congr (Nat.le_refl _) sem⟩ }

/-- A permanent variable gets a place. -/
theorem QRel.placeY {Γ ν S e lim n a y cell} (ok : Γ.OK) (q : QRel Γ ν S e lim) (hn : n ∉ S.pl)
    (ha : a < e.hp.size) (hy : Γ.yOf n = some y) (hc : cell.ptr = some a) (hv : ValidCell Γ.st cell) :
    ∃ e', e.setPerm y cell = .ok e' ∧ QRel Γ (ν.set n a) (S.place n) e' lim ∧
      e'.hp = e.hp ∧ e'.regs = e.regs ∧ e'.state = e.state ∧ e'.envs.tail = e.envs.tail := by
  have sem : SemLe (Γ.H e) ν (Γ.H e) (ν.set n a) Γ.I := set_semLe (q.ν_none hn)
  have hylt := ok.ylt n y hy
  obtain ⟨env, rest, he, hl⟩ := q.env (by omega)
  refine ⟨{ e with envs := env.set y cell :: rest }, ?_, ?_, rfl, rfl, rfl, by simp [he]⟩
  · unfold Exec.setPerm
    rw [he]
    simp only []
    rw [if_pos (by omega)]
  · exact
    { good := q.good
      regs := q.regs
      x := fun k c hk => by
        obtain ⟨cell, h1, h2⟩ := q.x k c hk
        exact ⟨cell, h1, h2.congr (Nat.le_refl _) sem⟩
      pl := fun m => by
        simp only [Sym.place_pl, List.mem_cons, VMap.set, q.pl m]
        by_cases hm : m = n <;> simp [hm]
      νlt := fun m b hm => by
        unfold VMap.set at hm
        split at hm
        · cases hm; exact ha
        · exact q.νlt m b hm
      env := fun _ => ⟨_, _, rfl, by simp [hl]⟩
      y := fun m y' hm hm' => by
        by_cases hmn : m = n
        · subst hmn
          rw [hy] at hm; cases hm
          refine ⟨cell, ?_, a, hc, ha, hv, den_set⟩
          simp [Exec.perm, List.getElem?_set_self (show y < env.length by omega)]
        · simp only [Sym.place_pl, List.mem_cons, hmn, false_or] at hm'
          obtain ⟨cell', h1, h2⟩ := q.y m y' hm hm'
          refine ⟨cell', ?_, h2.congr (Nat.le_refl _) sem⟩
          have hne : y ≠ y' := fun h => hmn (ok.yinj _ _ _ hm (h ▸ hy))
          simp only [Exec.perm, he] at h1
          simp only [Exec.perm, List.getElem?_set_ne hne]
          exact h1 }

/-- What one child of a structure under construction adds. -/
structure KidPost (Γ : QCtx) (ν : VMap) (S : Sym) (e : Exec) (ν' : VMap) (S' : Sym) (e' : Exec) (c : Node) :
    Prop where
  size : e'.hp.size = e.hp.size + 1
  old : ∀ a, a < e.hp.size → Γ.H e' a = Γ.H e a
  νext : ∀ n a, ν n = some a → ν' n = some a
  sem : ∀ (D : Type) (A : Alg D) (σ : Nat → D) (ρ : Name → D),
    (Mod (toIAlg A Γ.I) (Γ.H e') σ ∧ Agree ν' σ ρ) ↔
      (Mod (toIAlg A Γ.I) (Γ.H e) σ ∧ Agree ν σ ρ) ∧ σ e.hp.size = c.eval A ρ
  free : ∀ r, S'.x r = none → S.x r = none ∧ e'.regs[r]? = e.regs[r]?
  tail : e'.envs.tail = e.envs.tail
  state : e'.state = e.state

theorem upd_old {H : HV} {sz c a} (h : a < sz) : (H.upd sz c) a = H a := HV.upd_ne _ _ (by omega)

theorem RegIs.pushable {Γ e ν cell n lim} (h : RegIs Γ e ν cell n) : Pushable e.hp.size lim cell := by
  obtain ⟨b, h1, h2, _⟩ := h
  cases cell with
  | ref a v => simp [Cell.ptr] at h1; subst h1; exact .ref h2
  | str a => simp [Cell.ptr] at h1; subst h1; exact .str h2
  | cons => simp [Cell.ptr] at h1
  | int => simp [Cell.ptr] at h1
  | fn => simp [Cell.ptr] at h1
  | efn => simp [Cell.ptr] at h1

theorem cellEq_ptr {D} {B : IAlg D} {σ : Nat → D} {a b cell} (h : Cell.ptr cell = some b) :
    CellEq B σ a cell ↔ σ a = σ b := by
  cases cell <;> simp [Cell.ptr] at h <;> subst h <;> rfl

/-- Pushing a copy of a register. -/
theorem push_copy {Γ : QCtx} {ν S e lim cell c} (q : QRel Γ ν S e lim) (hlim : e.hp.size < lim)
    (h : RegIs Γ e ν cell c) :
    QRel Γ ν S (e.push cell) lim ∧ KidPost Γ ν S e ν S (e.push cell) c := by
  refine ⟨q.push hlim h.pushable h.choose_spec.2.2.1, Hp.size_push _ _, ?_, fun _ _ h => h, ?_,
    fun _ hr => ⟨hr, rfl⟩, rfl, rfl⟩
  · intro a ha; rw [push_view, upd_old ha]
  · intro D A σ ρ
    obtain ⟨b, h1, h2, h3, h4⟩ := h
    rw [push_view, mod_push q.good.none, cellEq_ptr h1]
    constructor
    · rintro ⟨⟨m, hc⟩, g⟩
      exact ⟨⟨m, g⟩, hc.trans (h4 D A σ ρ m g)⟩
    · rintro ⟨⟨m, g⟩, hc⟩
      exact ⟨⟨m, hc.trans (h4 D A σ ρ m g).symm⟩, g⟩

theorem Node.evals_nil {D} {A : Alg D} {ρ : Name → D} : Node.evals A ρ [] = [] := rfl

/-- Pushing a constant and pointing a register to it. -/
theorem push_const {Γ : QCtx} {ν S e lim x c n fuel} (q : QRel Γ ν S e lim) (hlim : e.hp.size < lim)
    (hx : x < Γ.nr) (hc : CellIs Γ.I c n) (hv : ValidCell Γ.st c) (hn : n.children = []) (hnv : n.isVar = false)
    (hpush : Pushable e.hp.size lim c) :
    ∃ e', stepData Γ.pre fuel Γ.st (.putStructure c x) e = .ok e' ∧ QRel Γ ν (S.setX x n) e' lim ∧
      KidPost Γ ν S e ν (S.setX x n) e' n := by
  have q1 := q.push hlim hpush hv
  have hsz : (e.push c).hp.size = e.hp.size + 1 := Hp.size_push _ _
  have sem : ∀ (D : Type) (A : Alg D) (σ : Nat → D) (ρ : Name → D),
      CellEq (toIAlg A Γ.I) σ e.hp.size c ↔ σ e.hp.size = n.eval A ρ := by
    intro D A σ ρ
    rw [cellEq_iff hc, hn]
    have := Node.eval_top A ρ hnv
    rw [hn, Node.evals_nil] at this
    simp only [List.length_nil, argVals, this, Option.some.injEq]
    exact eq_comm
  have hd : Den Γ.I (Γ.H (e.push c)) ν e.hp.size n := by
    intro D A σ ρ m _
    rw [push_view, mod_push q.good.none] at m
    exact (sem D A σ ρ).1 m.2
  have hr : RegIs Γ (e.push c) ν (.str e.hp.size) n := ⟨_, rfl, by omega, trivial, hd⟩
  refine ⟨{ e.push c with regs := (e.push c).regs.set x (.str e.hp.size) }, ?_, q1.setX hx hr,
    hsz, ?_, fun _ _ h => h, ?_, ?_, rfl, rfl⟩
  · simp only [stepData, Exec.setReg, hsz, Nat.add_sub_cancel]
    rw [if_pos (by have := q1.regs; omega)]
  · intro a ha
    show Γ.H (e.push c) a = _
    rw [push_view, upd_old ha]
  · intro D A σ ρ
    show Mod _ (Γ.H (e.push c)) σ ∧ _ ↔ _
    rw [push_view, mod_push q.good.none, sem D A σ ρ]
    constructor
    · rintro ⟨⟨a, b⟩, c⟩; exact ⟨⟨a, c⟩, b⟩
    · rintro ⟨⟨a, b⟩, c⟩; exact ⟨⟨a, c⟩, b⟩
  · intro r hr
    by_cases h : r = x
    · subst h; simp at hr
    · rw [Sym.setX_ne _ _ h] at hr
      exact ⟨hr, by show (e.regs.set x _)[r]? = _; rw [List.getElem?_set_ne (Ne.symm h)]⟩

/-- Pushing a new variable. -/
theorem push_new {Γ : QCtx} {ν S e lim n v} (q : QRel Γ ν S e lim) (hlim : e.hp.size < lim)
    (hn : ν n = none) (hv : ∀ a, ValidCell Γ.st (.ref a v)) :
    QRel Γ ν S (e.pushRef v) lim ∧ (e.pushRef v).hp.size = e.hp.size + 1 ∧
      (∀ a, a < e.hp.size → Γ.H (e.pushRef v) a = Γ.H e a) ∧
      ∀ (D : Type) (A : Alg D) (σ : Nat → D) (ρ : Name → D),
        (Mod (toIAlg A Γ.I) (Γ.H (e.pushRef v)) σ ∧ Agree (ν.set n e.hp.size) σ ρ) ↔
          (Mod (toIAlg A Γ.I) (Γ.H e) σ ∧ Agree ν σ ρ) ∧ σ e.hp.size = (Node.var n).eval A ρ := by
  refine ⟨q.push hlim .new (hv _), Hp.size_push _ _, ?_, ?_⟩
  · intro a ha
    show Γ.H (e.push _) a = _
    rw [push_view, upd_old ha]
  · intro D A σ ρ
    show Mod _ (Γ.H (e.push _)) σ ∧ _ ↔ _
    rw [push_view, mod_push q.good.none, agree_set hn, Node.eval]
    constructor
    · rintro ⟨⟨a, _⟩, b, c⟩; exact ⟨⟨a, b⟩, c⟩
    · rintro ⟨⟨a, b⟩, c⟩; exact ⟨⟨a, rfl⟩, b, c⟩

theorem structCell_isPtr {n g c g'} (h : structCell n g = .ok (c, g')) : c.isPtr = false := by
  cases n with
  | var => cases h
  | int v =>
    simp only [structCell, bind_ok, pure_ok] at h
    obtain ⟨v', hv, h⟩ := h
    cases h; rfl
  | cons n => simp only [structCell, pure_ok] at h; cases h; rfl
  | fn f cs => simp only [structCell, pure_ok] at h; cases h; rfl
  | efn f cs =>
    simp only [structCell] at h
    split at h
    · simp only [pure_ok] at h; cases h; rfl
    · cases h

/-- One child of a structure. -/
theorem queryKid_exec {Γ : QCtx} (ok : Γ.OK) {c x g i g' S S' ν e lim fuel}
    (hk : queryKid Γ.yOf c x g = .ok (i, g')) (hs : symKid Γ.yOf Γ.nr c x S = some S')
    (hseen : S.seen = g.seen) (hst : StLe g'.st Γ.st) (hw : c.wf = true)
    (q : QRel Γ ν S e lim) (hlim : e.hp.size < lim) :
    ∃ e' ν', stepData Γ.pre fuel Γ.st i e = .ok e' ∧ QRel Γ ν' S' e' lim ∧ S'.seen = g'.seen ∧
      KidPost Γ ν S e ν' S' e' c := by
  have hhas : ∀ r, S.has r = g.has r := fun r => by simp [Sym.has, GenSt.has, hseen]
  -- a known register
  have hval : ∀ r, S.holds r c = true → ∃ e' ν', stepData Γ.pre fuel Γ.st (.setValue r) e = .ok e' ∧
      QRel Γ ν' S e' lim ∧ S.seen = g.seen ∧ KidPost Γ ν S e ν' S e' c := by
    intro r hr
    simp only [Sym.holds, decide_eq_true_eq] at hr
    obtain ⟨cell, h1, h2⟩ := q.x r c hr
    obtain ⟨p1, p2⟩ := push_copy q hlim h2
    exact ⟨_, ν, by simp [stepData, Exec.reg, h1, pure, Except.pure], p1, hseen, p2⟩
  -- a new temporary variable
  have hnew : ∀ n v st', c = .var n → Γ.yOf n = none → n ∉ S.pl → x < Γ.nr → g.st.pushBackVar n = (v, st') →
      StLe st' Γ.st →
      ∃ e' ν', stepData Γ.pre fuel Γ.st (.setVariable x v) e = .ok e' ∧
      QRel Γ ν' (((S.mark (.x x)).setX x (.var n)).place n) e' lim ∧ .x x :: S.seen = .x x :: g.seen ∧
        KidPost Γ ν S e ν' (((S.mark (.x x)).setX x (.var n)).place n) e' c := by
    rintro n v st' rfl hy hn hx hv hle
    obtain ⟨p1, p2, p3, p4⟩ := push_new (n := n) q hlim (q.ν_none hn) (pushBackVar_valid hv hle)
    have p5 := (p1.mark (r := .x x)).place (n := n) (a := e.hp.size) hn (by omega) hy
    have hr : RegIs Γ (e.pushRef v) (ν.set n e.hp.size) (e.newRef v) (.var n) :=
      ⟨_, rfl, by omega, pushBackVar_valid hv hle _, den_set⟩
    refine ⟨{ e.pushRef v with regs := (e.pushRef v).regs.set x (e.newRef v) }, ν.set n e.hp.size, ?_,
      p5.setX hx hr, by rw [hseen], p2, p3, fun m a h => VMap.set_ext (q.ν_none hn) h, p4, ?_, rfl, rfl⟩
    · simp only [stepData, Exec.setReg]
      rw [if_pos (by have := p1.regs; omega)]
    · intro r hr
      by_cases h : r = x
      · subst h; simp at hr
      · simp only [Sym.place_x, Sym.setX_ne _ _ h, Sym.mark_x] at hr
        exact ⟨hr, by show (e.regs.set x _)[r]? = _; rw [List.getElem?_set_ne (Ne.symm h)]⟩
  cases c with
  | int v =>
    simp only [queryKid, bind_ok, pure_ok] at hk
    obtain ⟨⟨cell, g1⟩, hc, hk⟩ := hk
    cases hk
    simp only [symKid] at hs
    split at hs
    · rename_i hx
      cases hs
      obtain ⟨_, hcell⟩ := structCell_spec hc hw
      obtain ⟨h1, h2⟩ := hcell hst ok.interp
      obtain ⟨e', p1, p2, p3⟩ := push_const (fuel := fuel) q hlim hx h1 h2 rfl rfl
        (by cases cell <;> simp_all [CellIs]; exact .int)
      exact ⟨e', ν, p1, p2, by rw [Sym.setX_seen, hseen]; exact (structCell_ok hc).symm, p3⟩
    · cases hs
  | cons v =>
    simp only [queryKid, bind_ok, pure_ok] at hk
    obtain ⟨⟨cell, g1⟩, hc, hk⟩ := hk
    cases hk
    simp only [symKid] at hs
    split at hs
    · rename_i hx
      cases hs
      obtain ⟨_, hcell⟩ := structCell_spec hc hw
      obtain ⟨h1, h2⟩ := hcell hst ok.interp
      obtain ⟨e', p1, p2, p3⟩ := push_const (fuel := fuel) q hlim hx h1 h2 rfl rfl
        (by cases cell <;> simp_all [CellIs]; exact .cons)
      exact ⟨e', ν, p1, p2, by rw [Sym.setX_seen, hseen]; exact (structCell_ok hc).symm, p3⟩
    · cases hs
  | var n =>
    simp only [queryKid] at hk
    simp only [symKid] at hs
    cases hy : Γ.yOf n with
    | some y =>
      simp only [hy, hhas] at hk hs
      split at hk
      · rename_i hh
        simp only [pure_ok] at hk
        cases hk
        rw [if_pos hh] at hs
        split at hs
        · rename_i hpl
          cases hs
          obtain ⟨cell, h1, h2⟩ := q.y n y hy hpl
          obtain ⟨p1, p2⟩ := push_copy q hlim h2
          exact ⟨_, ν, by simp [stepData, h1, pure, Except.pure], p1, hseen, p2⟩
        · cases hs
      · rename_i hh
        simp only [pure_ok] at hk
        cases hk
        rw [if_neg hh] at hs
        split at hs
        · cases hs
        · rename_i hpl
          cases hs
          have hv : (g.mark (.y y)).st.pushBackVar n = ((g.mark (.y y)).st.pushBackVar n) := rfl
          have hval := pushBackVar_valid (i := ((g.mark (.y y)).st.pushBackVar n).1) rfl hst
          obtain ⟨p1, p2, p3, p4⟩ := push_new (n := n) q hlim (q.ν_none hpl) hval
          obtain ⟨e', h1, h2, h3, h4, h5, h6⟩ := (p1.mark (r := .y y)).placeY ok (n := n) (a := e.hp.size)
            (cell := e.newRef ((g.mark (.y y)).st.pushBackVar n).1) hpl (by omega) hy rfl (hval _)
          refine ⟨e', ν.set n e.hp.size, h1, h2, by simp [hseen, GenSt.mark], ?_⟩
          refine ⟨by rw [h3, p2], ?_, fun m a h => VMap.set_ext (q.ν_none hpl) h, ?_, ?_, h6, h5⟩
          · intro a ha
            rw [← p3 a ha]; simp only [QCtx.H, h3]
          · intro D A σ ρ
            rw [← p4]; simp only [QCtx.H, h3]
          · intro r hr
            exact ⟨hr, by rw [h4]; rfl⟩
    | none =>
      simp only [hy, hhas] at hk hs
      split at hk
      · rename_i hh
        simp only [pure_ok] at hk
        cases hk
        rw [if_pos hh] at hs
        split at hs
        · rename_i hr
          cases hs
          exact hval x hr
        · cases hs
      · rename_i hh
        simp only [pure_ok] at hk
        cases hk
        rw [if_neg hh] at hs
        split at hs
        · cases hs
        · rename_i hpl
          split at hs
          · rename_i hx
            cases hs
            exact hnew n _ _ rfl hy hpl hx rfl hst
          · cases hs
  | fn f cs =>
    simp only [queryKid] at hk
    simp only [symKid, hhas] at hs
    split at hs
    · rename_i hh
      split at hs
      · rename_i hr
        cases hs
        rw [if_pos hh] at hk
        simp only [pure_ok] at hk
        cases hk
        exact hval x hr
      · cases hs
    · cases hs
  | efn f cs =>
    simp only [queryKid] at hk
    simp only [symKid, hhas] at hs
    split at hs
    · rename_i hh
      split at hs
      · rename_i hr
        cases hs
        rw [if_pos hh] at hk
        simp only [pure_ok] at hk
        cases hk
        exact hval x hr
      · cases hs
    · cases hs

theorem queryKid_le {yOf c x g i g'} (hk : queryKid yOf c x g = .ok (i, g')) (hw : c.wf = true) : StLe g.st g'.st := by
  cases c with
  | int v =>
    simp only [queryKid, bind_ok, pure_ok] at hk
    obtain ⟨⟨cell, g1⟩, hc, hk⟩ := hk
    cases hk
    exact (structCell_spec hc hw).1
  | cons v =>
    simp only [queryKid, bind_ok, pure_ok] at hk
    obtain ⟨⟨cell, g1⟩, hc, hk⟩ := hk
    cases hk
    exact (structCell_spec hc hw).1
  | var n =>
    simp only [queryKid] at hk
    split at hk
    · split at hk
      · simp only [pure_ok] at hk; cases hk; exact .refl _
      · simp only [pure_ok] at hk; cases hk
        exact (pushBackVar_spec (s := g.st) (n := n) (Prod.eta _).symm).1
    · split at hk
      · simp only [pure_ok] at hk; cases hk; exact .refl _
      · simp only [pure_ok] at hk; cases hk
        exact (pushBackVar_spec (s := g.st) (n := n) (Prod.eta _).symm).1
  | fn f cs =>
    simp only [queryKid] at hk
    split at hk
    · simp only [pure_ok] at hk; cases hk; exact .refl _
    · simp only [pure_ok] at hk; cases hk
      exact (pushBackVar_spec (s := g.st) (Prod.eta _).symm).1
  | efn f cs =>
    simp only [queryKid] at hk
    split at hk
    · simp only [pure_ok] at hk; cases hk; exact .refl _
    · simp only [pure_ok] at hk; cases hk
      exact (pushBackVar_spec (s := g.st) (Prod.eta _).symm).1

theorem queryKids_le {yOf ks g is g'} (hk : queryKids yOf ks g = .ok (is, g'))
    (hw : ∀ k ∈ ks, k.1.wf = true) : StLe g.st g'.st := by
  induction ks generalizing g is with
  | nil => simp only [queryKids, pure_ok] at hk; cases hk; exact .refl _
  | cons k ks ih =>
    obtain ⟨c, x⟩ := k
    simp only [queryKids, bind_ok, pure_ok] at hk
    obtain ⟨⟨i, g1⟩, h1, ⟨is', g2⟩, h2, hk⟩ := hk
    cases hk
    exact (queryKid_le h1 (hw (c, x) (by simp))).trans (ih h2 fun k hk => hw k (by simp [hk]))

/-- What all children of a structure under construction add. -/
structure KidsPost (Γ : QCtx) (ν : VMap) (S : Sym) (e : Exec) (ν' : VMap) (S' : Sym) (e' : Exec)
    (cs : List Node) : Prop where
  size : e'.hp.size = e.hp.size + cs.length
  old : ∀ a, a < e.hp.size → Γ.H e' a = Γ.H e a
  νext : ∀ n a, ν n = some a → ν' n = some a
  sem : ∀ (D : Type) (A : Alg D) (σ : Nat → D) (ρ : Name → D),
    (Mod (toIAlg A Γ.I) (Γ.H e') σ ∧ Agree ν' σ ρ) ↔
      (Mod (toIAlg A Γ.I) (Γ.H e) σ ∧ Agree ν σ ρ) ∧ argVals σ e.hp.size cs.length = Node.evals A ρ cs
  free : ∀ r, S'.x r = none → S.x r = none ∧ e'.regs[r]? = e.regs[r]?
  tail : e'.envs.tail = e.envs.tail
  state : e'.state = e.state

theorem running_not_failed {e : Exec} (h : e.state = .running) : e.failed = false := by
  simp [Exec.failed, h]

theorem queryKids_exec {Γ : QCtx} (ok : Γ.OK) {fuel lim} {ks : List (Node × Nat)} {g is g'} {S S' : Sym} {ν e}
    (hk : queryKids Γ.yOf ks g = .ok (is, g')) (hs : symKids Γ.yOf Γ.nr ks S = some S')
    (hseen : S.seen = g.seen) (hst : StLe g'.st Γ.st) (hw : ∀ k ∈ ks, k.1.wf = true)
    (q : QRel Γ ν S e lim) (hlim : e.hp.size + ks.length ≤ lim) (hrun : e.state = .running) :
    ∃ e' ν', runData Γ.pre fuel Γ.st is e = .ok e' ∧ QRel Γ ν' S' e' lim ∧ S'.seen = g'.seen ∧
      KidsPost Γ ν S e ν' S' e' (ks.map (·.1)) := by
  induction ks generalizing g is S ν e with
  | nil =>
    simp only [queryKids, pure_ok] at hk; cases hk
    simp only [symKids] at hs; cases hs
    exact ⟨e, ν, rfl, q, hseen, rfl, fun _ _ => rfl, fun _ _ h => h,
      fun D A σ ρ => by simp [argVals, Node.evals], fun _ h => ⟨h, rfl⟩, rfl, rfl⟩
  | cons k ks ih =>
    obtain ⟨c, x⟩ := k
    simp only [queryKids, bind_ok, pure_ok] at hk
    obtain ⟨⟨i, g1⟩, h1, ⟨is', g2⟩, h2, hk⟩ := hk
    cases hk
    simp only [symKids, Option.bind_eq_some_iff] at hs
    obtain ⟨S1, hs1, hs⟩ := hs
    have hw' : ∀ k ∈ ks, k.1.wf = true := fun k hk => hw k (by simp [hk])
    have hlen : (c, x).1.wf = true := hw _ (by simp)
    simp only [List.length_cons] at hlim
    obtain ⟨e1, ν1, r1, q1, s1, p1⟩ := queryKid_exec (fuel := fuel) ok h1 hs1 hseen
      ((queryKids_le h2 hw').trans hst) hlen q (by omega)
    obtain ⟨e2, ν2, r2, q2, s2, p2⟩ := ih h2 hs s1 hw' q1 (by have := p1.size; omega) (p1.state.trans hrun)
    refine ⟨e2, ν2, ?_, q2, s2, ?_, ?_, ?_, ?_, ?_, p2.tail.trans p1.tail, p2.state.trans p1.state⟩
    · simp only [runData, r1, ok_bind, running_not_failed (p1.state.trans hrun)]
      exact r2
    · rw [p2.size, p1.size]; simp; omega
    · intro a ha
      rw [p2.old a (by have := p1.size; omega), p1.old a ha]
    · intro n a h; exact p2.νext _ _ (p1.νext _ _ h)
    · intro D A σ ρ
      rw [p2.sem, p1.sem, p1.size]
      simp only [List.map_cons, List.length_cons, argVals, Node.evals, List.cons.injEq]
      constructor
      · rintro ⟨⟨a, b⟩, c⟩; exact ⟨a, b, c⟩
      · rintro ⟨a, b, c⟩; exact ⟨⟨a, b⟩, c⟩
    · intro r hr
      obtain ⟨a1, a2⟩ := p2.free r hr
      obtain ⟨b1, b2⟩ := p1.free r a1
      exact ⟨b1, a2.trans b2⟩

/-- Solutions only depend on the values of existing addresses. -/
theorem mod_congr {D} {V H sz} {B : IAlg D} {σ τ : Nat → D} (g : Good V H sz sz)
    (h : ∀ a, a < sz → τ a = σ a) (m : Mod B H σ) : Mod B H τ := by
  intro a c hc
  have hm := m a c hc
  have ha := g.lt hc
  cases c with
  | cons i => simp only [CellEq] at hm ⊢; rw [h a ha, hm]
  | int i => simp only [CellEq] at hm ⊢; rw [h a ha, hm]
  | ref b v => simp only [CellEq] at hm ⊢; rw [h a ha, hm, h b (g.ref_lt hc)]
  | str b => simp only [CellEq] at hm ⊢; rw [h a ha, hm, h b (g.str_lt hc)]
  | fn f n =>
    have := g.fnArgs _ _ _ hc
    simp only [CellEq] at hm ⊢
    rw [h a ha, hm, argVals_congr fun i hi => h (a + 1 + i) (by omega)]
  | efn f n =>
    have := g.efnArgs _ _ _ hc
    simp only [CellEq] at hm ⊢
    rw [h a ha, hm, argVals_congr fun i hi => h (a + 1 + i) (by omega)]

theorem agree_congr {D} {ν : VMap} {σ τ : Nat → D} {ρ sz} (hν : ∀ n a, ν n = some a → a < sz)
    (h : ∀ a, a < sz → τ a = σ a) (g : Agree ν σ ρ) : Agree ν τ ρ := fun n a hn => by
  rw [h a (hν n a hn), g n a hn]

/-- Values given to a block of addresses. -/
def blockVal {D} (σ : Nat → D) (sz : Nat) (ds : List D) : Nat → D :=
  fun a => if a < sz then σ a else ds.getD (a - sz) (σ a)

theorem blockVal_old {D} {σ : Nat → D} {sz ds a} (h : a < sz) : blockVal σ sz ds a = σ a := by
  simp [blockVal, h]

theorem blockVal_get {D} {σ : Nat → D} {sz} {ds : List D} {i d} (h : ds[i]? = some d) :
    blockVal σ sz ds (sz + i) = d := by
  simp only [blockVal]
  rw [if_neg (by omega), show sz + i - sz = i by omega, List.getD_eq_getElem?_getD, h]
  rfl

theorem argVals_eq_of_get {D} {σ : Nat → D} {a} {ds : List D} (h : ∀ i d, ds[i]? = some d → σ (a + i) = d) :
    argVals σ a ds.length = ds := by
  induction ds generalizing a with
  | nil => rfl
  | cons d ds ih =>
    simp only [List.length_cons, argVals]
    rw [ih (fun i d' hd => by
      have := h (i + 1) d' (by simpa using hd)
      rw [← this, show a + 1 + i = a + (i + 1) by omega])]
    have := h 0 d rfl
    simpa using this

/-- What building a part of a goal does: only new cells; everything known stays; every solution can be
extended to the new cells. -/
structure Build (Γ : QCtx) (ν : VMap) (e : Exec) (ν' : VMap) (e' : Exec) : Prop where
  size : e.hp.size ≤ e'.hp.size
  old : ∀ a, a < e.hp.size → Γ.H e' a = Γ.H e a
  νext : ∀ n a, ν n = some a → ν' n = some a
  sem : SemLe (Γ.H e) ν (Γ.H e') ν' Γ.I
  ext : ∀ (D : Type) (A : Alg D) (σ : Nat → D) (ρ : Name → D),
    Mod (toIAlg A Γ.I) (Γ.H e) σ → Agree ν σ ρ →
      ∃ σ', (∀ a, a < e.hp.size → σ' a = σ a) ∧ Mod (toIAlg A Γ.I) (Γ.H e') σ' ∧ Agree ν' σ' ρ
  tail : e'.envs.tail = e.envs.tail
  state : e'.state = e.state

theorem Build.refl {Γ ν e} : Build Γ ν e ν e :=
  ⟨Nat.le_refl _, fun _ _ => rfl, fun _ _ h => h, .refl, fun _ _ σ _ m g => ⟨σ, fun _ _ => rfl, m, g⟩, rfl, rfl⟩

theorem Build.trans {Γ ν e ν' e' ν'' e''} (h : Build Γ ν e ν' e') (h' : Build Γ ν' e' ν'' e'') :
    Build Γ ν e ν'' e'' where
  size := by have := h.size; have := h'.size; omega
  old a ha := by rw [h'.old a (by have := h.size; omega), h.old a ha]
  νext n a hn := h'.νext _ _ (h.νext _ _ hn)
  sem := h.sem.trans h'.sem
  ext D A σ ρ m g := by
    obtain ⟨σ1, a1, m1, g1⟩ := h.ext D A σ ρ m g
    obtain ⟨σ2, a2, m2, g2⟩ := h'.ext D A σ1 ρ m1 g1
    exact ⟨σ2, fun a ha => (a2 a (by have := h.size; omega)).trans (a1 a ha), m2, g2⟩
  tail := h'.tail.trans h.tail
  state := h'.state.trans h.state

/-- Registers only. -/
theorem Build.setRegs {Γ ν e r} : Build Γ ν e ν { e with regs := r } :=
  ⟨Nat.le_refl _, fun _ _ => rfl, fun _ _ h => h, .refl, fun _ _ σ _ m g => ⟨σ, fun _ _ => rfl, m, g⟩, rfl, rfl⟩

/-- A new variable. -/
theorem Build.new {Γ : QCtx} {ν S e n v} (q : QRel Γ ν S e e.hp.size) (hn : ν n = none)
    (hv : ∀ a, ValidCell Γ.st (.ref a v)) :
    QRel Γ ν S (e.pushRef v) (e.hp.size + 1) ∧ (e.pushRef v).hp.size = e.hp.size + 1 ∧
      Build Γ ν e (ν.set n e.hp.size) (e.pushRef v) := by
  obtain ⟨p1, p2, p3, p4⟩ := push_new (n := n) (q.lim (Nat.le_succ _)) (Nat.lt_succ_self _) hn hv
  refine ⟨p1, p2, by omega, p3, fun m a h => VMap.set_ext hn h, ?_, ?_, rfl, rfl⟩
  · intro D A σ ρ m g
    exact ((p4 D A σ ρ).1 ⟨m, g⟩).1
  · intro D A σ ρ m g
    have h0 : ∀ a, a < e.hp.size → blockVal σ e.hp.size [ρ n] a = σ a := fun a ha => blockVal_old ha
    refine ⟨_, h0, (p4 D A _ ρ).2 ⟨⟨mod_congr q.good h0 m, agree_congr q.νlt h0 g⟩, ?_⟩⟩
    rw [Node.eval]
    exact blockVal_get (i := 0) rfl

theorem Sym.has_eq {S : Sym} {g : GenSt} (h : S.seen = g.seen) (r) : S.has r = g.has r := by
  simp [Sym.has, GenSt.has, h]

theorem RegIs.setRegs {Γ e ν cell n r} (h : RegIs Γ e ν cell n) : RegIs Γ { e with regs := r } ν cell n := h

/-- A structure: its cell, then its children. -/
theorem struct_exec {Γ : QCtx} (ok : Γ.OK) {fuel x} {node : Node} {ks : List (Node × Nat)} {g cell g1 is g'}
    {S S' : Sym} {ν e} (hv : node.isVar = false) (hkids : ks.map (·.1) = node.children)
    (hc : structCell node g = .ok (cell, g1)) (hk : queryKids Γ.yOf ks g1 = .ok (is, g'))
    (hx : x < Γ.nr) (hs : symKids Γ.yOf Γ.nr ks (S.clearX x) = some S') (hclr : S'.x x = none)
    (hseen : S.seen = g.seen) (hst : StLe g'.st Γ.st) (hw : node.wf = true)
    (q : QRel Γ ν S e e.hp.size) (hrun : e.state = .running) :
    ∃ e' ν', runData Γ.pre fuel Γ.st (.putStructure cell x :: is) e = .ok e' ∧
      QRel Γ ν' (S'.setX x node) e' e'.hp.size ∧ S'.seen = g'.seen ∧ Build Γ ν e ν' e' := by
  have hwk : ∀ k ∈ ks, k.1.wf = true := fun k hk =>
    Node.wf_child hw (by rw [← hkids]; exact List.mem_map_of_mem hk)
  have hlen : node.children.length = ks.length := by rw [← hkids]; simp
  obtain ⟨_, hcell⟩ := structCell_spec hc hw
  obtain ⟨hci, hcv⟩ := hcell ((queryKids_le hk hwk).trans hst) ok.interp
  have hpush : Pushable e.hp.size (e.hp.size + 1 + ks.length) cell := by
    unfold CellIs at hci
    split at hci
    · exact .cons
    · exact .int
    · obtain ⟨_, h2⟩ := hci
      simp only [Node.children] at hlen
      exact .fn (by omega)
    · obtain ⟨_, h2, h3⟩ := hci
      simp only [Node.children] at hlen
      exact .efn (by omega)
    · exact hci.elim
  have q1 := (q.lim (lim' := e.hp.size + 1 + ks.length) (by omega)).push (by omega) hpush hcv
  have hsz : (e.push cell).hp.size = e.hp.size + 1 := Hp.size_push _ _
  have q2 := q1.clearX (x := x) (cell := .str e.hp.size)
  obtain ⟨e2, ν2, r2, q3, s3, p3⟩ := queryKids_exec (fuel := fuel) ok hk hs
    (by rw [Sym.clearX_seen, hseen]; exact (structCell_ok hc).symm) hst hwk q2
    (by show (e.push cell).hp.size + _ ≤ _; omega) hrun
  have hsz2 : e2.hp.size = e.hp.size + 1 + ks.length := by
    rw [p3.size]; show (e.push cell).hp.size + _ = _; simp [hsz]
  have hlen2 : (ks.map (·.1)).length = node.children.length := by rw [hkids]
  -- all solutions
  have sem : ∀ (D : Type) (A : Alg D) (σ : Nat → D) (ρ : Name → D),
      (Mod (toIAlg A Γ.I) (Γ.H e2) σ ∧ Agree ν2 σ ρ) ↔
      (Mod (toIAlg A Γ.I) (Γ.H e) σ ∧ Agree ν σ ρ) ∧ σ e.hp.size = node.eval A ρ ∧
        argVals σ (e.hp.size + 1) node.children.length = Node.evals A ρ node.children := by
    intro D A σ ρ
    rw [p3.sem, hlen2, hkids]
    show (Mod _ (Γ.H (e.push cell)) σ ∧ _) ∧ argVals σ (e.push cell).hp.size _ = _ ↔ _
    rw [push_view, mod_push q.good.none, hsz, cellEq_iff hci]
    constructor
    · rintro ⟨⟨⟨m, hc⟩, g⟩, ha⟩
      rw [ha, Node.eval_top A ρ hv] at hc
      simp only [Option.some.injEq] at hc
      exact ⟨⟨m, g⟩, hc.symm, ha⟩
    · rintro ⟨⟨m, g⟩, hc, ha⟩
      refine ⟨⟨⟨m, ?_⟩, g⟩, ha⟩
      rw [ha, Node.eval_top A ρ hv, hc]
  have hreg : e2.regs[x]? = some (.str e.hp.size) := by
    rw [(p3.free x hclr).2]
    exact List.getElem?_set_self (by have := q1.regs; omega)
  have hri : RegIs Γ e2 ν2 (.str e.hp.size) node :=
    ⟨_, rfl, by omega, trivial, fun D A σ ρ m g => ((sem D A σ ρ).1 ⟨m, g⟩).2.1⟩
  have q4 := q3.setX hx hri
  have hself : { e2 with regs := e2.regs.set x (.str e.hp.size) } = e2 := by
    obtain ⟨hlt, hg⟩ := List.getElem?_eq_some_iff.1 hreg
    rw [← hg, List.set_getElem_self]
  rw [hself] at q4
  refine ⟨e2, ν2, ?_, by rw [hsz2]; exact q4, s3, ?_⟩
  · have hstep : stepData Γ.pre fuel Γ.st (.putStructure cell x) e =
        .ok { e.push cell with regs := (e.push cell).regs.set x (.str e.hp.size) } := by
      simp only [stepData, Exec.setReg, hsz, Nat.add_sub_cancel]
      rw [if_pos (by have := q1.regs; omega)]
    simp only [runData, hstep, ok_bind]
    rw [running_not_failed (by exact hrun)]
    exact r2
  · refine ⟨by omega, ?_, p3.νext, ?_, ?_, p3.tail, p3.state⟩
    · intro a ha
      rw [p3.old a (by show a < (e.push cell).hp.size; omega)]
      show Γ.H (e.push cell) a = _
      rw [push_view, upd_old ha]
    · intro D A σ ρ m g
      exact ((sem D A σ ρ).1 ⟨m, g⟩).1
    · intro D A σ ρ m g
      let ds := node.eval A ρ :: Node.evals A ρ node.children
      have h0 : ∀ a, a < e.hp.size → blockVal σ e.hp.size ds a = σ a := fun a ha => blockVal_old ha
      refine ⟨_, h0, (sem D A _ ρ).2 ⟨⟨mod_congr q.good h0 m, agree_congr q.νlt h0 g⟩, ?_, ?_⟩⟩
      · exact blockVal_get (i := 0) rfl
      · have hl : node.children.length = (Node.evals A ρ node.children).length := by
          simp [Node.evals_eq_map]
        rw [hl]
        refine argVals_eq_of_get fun i d hd => ?_
        rw [show e.hp.size + 1 + i = e.hp.size + (i + 1) by omega]
        exact blockVal_get (ds := ds) (i := i + 1) (by simpa [ds] using hd)

/-- One node of a goal. -/
theorem queryItem_exec {Γ : QCtx} (ok : Γ.OK) {fuel xOf} {a : AItem} {g is g'} {S S' : Sym} {ν e}
    (hk : queryItem Γ.yOf xOf a g = .ok (is, g')) (hs : symItem Γ.yOf Γ.nr a S = some S')
    (hkids : a.kids.map (·.1) = a.node.children)
    (hseen : S.seen = g.seen) (hst : StLe g'.st Γ.st) (hw : a.node.wf = true)
    (q : QRel Γ ν S e e.hp.size) (hrun : e.state = .running) :
    ∃ e' ν', runData Γ.pre fuel Γ.st is e = .ok e' ∧ QRel Γ ν' S' e' e'.hp.size ∧ S'.seen = g'.seen ∧
      Build Γ ν e ν' e' := by
  have hhas := Sym.has_eq hseen
  obtain ⟨id, node, x, ks⟩ := a
  -- structures
  have hstruct : ∀ {cell g1 is'}, node.isVar = false → structCell node (g.mark (.x x)) = .ok (cell, g1) →
      queryKids Γ.yOf ks g1 = .ok (is', g') → is = .putStructure cell x :: is' →
      (if x < Γ.nr then
        (symKids Γ.yOf Γ.nr ks ((S.mark (.x x)).clearX x)).bind fun S' =>
          if S'.x x = none then some (S'.setX x node) else none
        else none) = some S' →
      ∃ e' ν', runData Γ.pre fuel Γ.st is e = .ok e' ∧ QRel Γ ν' S' e' e'.hp.size ∧ S'.seen = g'.seen ∧
        Build Γ ν e ν' e' := by
    rintro cell g1 is' hv hc hkk rfl hs
    split at hs
    · rename_i hx
      simp only [Option.bind_eq_some_iff] at hs
      obtain ⟨S1, hs1, hs⟩ := hs
      split at hs
      · rename_i hclr
        cases hs
        exact struct_exec (S := S.mark (.x x)) ok hv hkids hc hkk hx hs1 hclr (by simp [hseen, GenSt.mark]) hst hw q.mark hrun
      · cases hs
    · cases hs
  cases node with
  | var n =>
    simp only [queryItem] at hk
    simp only [symItem] at hs
    split at hs
    · rename_i hid
      have hone : ∀ {i e'}, stepData Γ.pre fuel Γ.st i e = .ok e' → e'.state = .running →
          runData Γ.pre fuel Γ.st [i] e = .ok e' := by
        intro i e' h _
        simp [runData, h, pure, Except.pure]
      cases hy : Γ.yOf n with
      | some y =>
        simp only [hy, hhas] at hk hs
        split at hk
        · rename_i hh
          simp only [pure_ok] at hk
          cases hk
          rw [if_pos hh] at hs
          split at hs
          · rename_i hpl
            cases hs
            obtain ⟨cell, h1, h2⟩ := q.y n y hy hpl
            refine ⟨_, ν, hone (e' := { e with regs := e.regs.set id cell }) ?_ hrun, q.setX hid h2, hseen,
              Build.setRegs⟩
            simp only [stepData, h1, ok_bind, Exec.setReg]
            rw [if_pos (by have := q.regs; omega)]
          · cases hs
        · rename_i hh
          simp only [pure_ok] at hk
          cases hk
          rw [if_neg hh] at hs
          split at hs
          · cases hs
          · rename_i hpl
            cases hs
            have hval := pushBackVar_valid (i := ((g.mark (.y y)).st.pushBackVar n).1) rfl hst
            obtain ⟨p1, p2, p3⟩ := Build.new (n := n) q (q.ν_none hpl) hval
            obtain ⟨e', h1, h2, h3, h4, h5, h6⟩ := (p1.mark (r := .y y)).placeY ok (n := n) (a := e.hp.size)
              (cell := e.newRef ((g.mark (.y y)).st.pushBackVar n).1) hpl (by omega) hy rfl (hval _)
            have hri : RegIs Γ e' (ν.set n e.hp.size) (e.newRef ((g.mark (.y y)).st.pushBackVar n).1) (.var n) :=
              ⟨_, rfl, by rw [h3]; omega, hval _, den_set⟩
            refine ⟨_, ν.set n e.hp.size,
              hone (e' := { e' with regs := e'.regs.set id (e.newRef ((g.mark (.y y)).st.pushBackVar n).1) })
              ?_ ?_, ?_, by simp [hseen, GenSt.mark], ?_⟩
            · simp only [stepData, h1, ok_bind, Exec.setReg]
              rw [if_pos (by have := h2.regs; omega)]
            · exact h5.trans hrun
            · have := h2.setX hid hri
              have hsz : e'.hp.size = e.hp.size + 1 := by rw [h3]; exact p2
              show QRel _ _ _ _ e'.hp.size
              rw [hsz]; exact this
            · refine ⟨?_, ?_, p3.νext, ?_, ?_, ?_, ?_⟩
              · show _ ≤ e'.hp.size
                rw [h3]; exact p3.size
              · intro a ha
                rw [← p3.old a ha]; simp only [QCtx.H, h3]
              · have := p3.sem
                simp only [QCtx.H, h3]; exact this
              · have := p3.ext
                simp only [QCtx.H, h3]; exact this
              · exact h6
              · exact h5
      | none =>
        simp only [hy, hhas] at hk hs
        split at hk
        · rename_i hh
          simp only [pure_ok] at hk
          cases hk
          rw [if_pos hh] at hs
          split at hs
          · rename_i hpl
            cases hs
            simp only [Sym.holds, decide_eq_true_eq] at hpl
            obtain ⟨cell, h1, h2⟩ := q.x x _ hpl
            refine ⟨_, ν, hone (e' := { e with regs := e.regs.set id cell }) ?_ hrun, q.setX hid h2, hseen,
              Build.setRegs⟩
            simp only [stepData, Exec.reg, h1, orFault_some, ok_bind, Exec.setReg]
            rw [if_pos (by have := q.regs; omega)]
          · cases hs
        · rename_i hh
          simp only [pure_ok] at hk
          cases hk
          rw [if_neg hh] at hs
          split at hs
          · cases hs
          · rename_i hpl
            split at hs
            · rename_i hx
              cases hs
              have hval := pushBackVar_valid (i := ((g.mark (.x x)).st.pushBackVar n).1) rfl hst
              obtain ⟨p1, p2, p3⟩ := Build.new (n := n) q (q.ν_none hpl) hval
              generalize ((g.mark (.x x)).st.pushBackVar n).1 = v at *
              have p5 := (p1.mark (r := .x x)).place (n := n) (a := e.hp.size) hpl (by omega) hy
              have hr : RegIs Γ (e.pushRef v) (ν.set n e.hp.size) (e.newRef v) (.var n) :=
                ⟨_, rfl, by omega, hval _, den_set⟩
              refine ⟨_, ν.set n e.hp.size,
                hone (e' := { e.pushRef v with regs := ((e.pushRef v).regs.set x (e.newRef v)).set id (e.newRef v) })
                ?_ hrun, ?_, by simp [hseen, GenSt.mark], ?_⟩
              · have hl := p1.regs
                simp only [stepData, Exec.setReg]
                rw [if_pos (by omega)]
                simp only [ok_bind, List.length_set]
                rw [if_pos (by omega)]
              · have := (p5.setX hx hr).setX hid hr.setRegs
                show QRel _ _ _ _ (e.pushRef v).hp.size
                rw [p2]; exact this
              · exact p3.trans Build.setRegs
            · cases hs
    · cases hs
  | int v =>
    simp only [queryItem, bind_ok, pure_ok] at hk
    obtain ⟨⟨cell, g1⟩, hc, ⟨is', g2⟩, hk2, hk⟩ := hk
    cases hk
    exact hstruct rfl hc hk2 rfl hs
  | cons v =>
    simp only [queryItem, bind_ok, pure_ok] at hk
    obtain ⟨⟨cell, g1⟩, hc, ⟨is', g2⟩, hk2, hk⟩ := hk
    cases hk
    exact hstruct rfl hc hk2 rfl hs
  | fn v cs =>
    simp only [queryItem, bind_ok, pure_ok] at hk
    obtain ⟨⟨cell, g1⟩, hc, ⟨is', g2⟩, hk2, hk⟩ := hk
    cases hk
    exact hstruct rfl hc hk2 rfl hs
  | efn v cs =>
    simp only [queryItem] at hk
    split at hk
    · simp only [bind_ok, pure_ok] at hk
      obtain ⟨⟨cell, g1⟩, hc, ⟨is', g2⟩, hk2, hk⟩ := hk
      cases hk
      exact hstruct rfl hc hk2 rfl hs
    · cases hk

theorem queryItem_le {yOf xOf} {a : AItem} {g is g'} (hk : queryItem yOf xOf a g = .ok (is, g'))
    (hkids : a.kids.map (·.1) = a.node.children) (hw : a.node.wf = true) : StLe g.st g'.st := by
  obtain ⟨id, node, x, ks⟩ := a
  have hwk : ∀ k ∈ ks, k.1.wf = true := fun k hk =>
    Node.wf_child hw (by rw [← hkids]; exact List.mem_map_of_mem hk)
  have hstruct : ∀ {cell g1 is'}, structCell node (g.mark (.x x)) = .ok (cell, g1) →
      queryKids yOf ks g1 = .ok (is', g') → StLe g.st g'.st := by
    intro cell g1 is' hc hk
    have := (structCell_spec hc hw).1
    exact this.trans (queryKids_le hk hwk)
  cases node with
  | var n =>
    simp only [queryItem] at hk
    split at hk
    · split at hk
      · simp only [pure_ok] at hk; cases hk; exact .refl _
      · simp only [pure_ok] at hk; cases hk
        exact (pushBackVar_spec (s := g.st) (n := n) (Prod.eta _).symm).1
    · split at hk
      · simp only [pure_ok] at hk; cases hk; exact .refl _
      · simp only [pure_ok] at hk; cases hk
        exact (pushBackVar_spec (s := g.st) (n := n) (Prod.eta _).symm).1
  | int v =>
    simp only [queryItem, bind_ok, pure_ok] at hk
    obtain ⟨⟨cell, g1⟩, hc, ⟨is', g2⟩, hk2, hk⟩ := hk
    cases hk
    exact hstruct hc hk2
  | cons v =>
    simp only [queryItem, bind_ok, pure_ok] at hk
    obtain ⟨⟨cell, g1⟩, hc, ⟨is', g2⟩, hk2, hk⟩ := hk
    cases hk
    exact hstruct hc hk2
  | fn v cs =>
    simp only [queryItem, bind_ok, pure_ok] at hk
    obtain ⟨⟨cell, g1⟩, hc, ⟨is', g2⟩, hk2, hk⟩ := hk
    cases hk
    exact hstruct hc hk2
  | efn v cs =>
    simp only [queryItem] at hk
    split at hk
    · simp only [bind_ok, pure_ok] at hk
      obtain ⟨⟨cell, g1⟩, hc, ⟨is', g2⟩, hk2, hk⟩ := hk
      cases hk
      exact hstruct hc hk2
    · cases hk

theorem queryItems_le {yOf xOf} {as : List AItem} {g is g'} (hk : queryItems yOf xOf as g = .ok (is, g'))
    (hkids : ∀ a ∈ as, a.kids.map (·.1) = a.node.children) (hw : ∀ a ∈ as, a.node.wf = true) :
    StLe g.st g'.st := by
  induction as generalizing g is with
  | nil => simp only [queryItems, pure_ok] at hk; cases hk; exact .refl _
  | cons a as ih =>
    simp only [queryItems, bind_ok, pure_ok] at hk
    obtain ⟨⟨i, g1⟩, h1, ⟨is', g2⟩, h2, hk⟩ := hk
    cases hk
    exact (queryItem_le h1 (hkids a (by simp)) (hw a (by simp))).trans
      (ih h2 (fun b hb => hkids b (by simp [hb])) (fun b hb => hw b (by simp [hb])))

theorem queryItems_exec {Γ : QCtx} (ok : Γ.OK) {fuel xOf} {as : List AItem} {g is g'} {S S' : Sym} {ν e}
    (hk : queryItems Γ.yOf xOf as g = .ok (is, g')) (hs : symItems Γ.yOf Γ.nr as S = some S')
    (hkids : ∀ a ∈ as, a.kids.map (·.1) = a.node.children)
    (hseen : S.seen = g.seen) (hst : StLe g'.st Γ.st) (hw : ∀ a ∈ as, a.node.wf = true)
    (q : QRel Γ ν S e e.hp.size) (hrun : e.state = .running) :
    ∃ e' ν', runData Γ.pre fuel Γ.st is e = .ok e' ∧ QRel Γ ν' S' e' e'.hp.size ∧ S'.seen = g'.seen ∧
      Build Γ ν e ν' e' := by
  induction as generalizing g is S ν e with
  | nil =>
    simp only [queryItems, pure_ok] at hk; cases hk
    simp only [symItems] at hs; cases hs
    exact ⟨e, ν, rfl, q, hseen, .refl⟩
  | cons a as ih =>
    simp only [queryItems, bind_ok, pure_ok] at hk
    obtain ⟨⟨i, g1⟩, h1, ⟨is', g2⟩, h2, hk⟩ := hk
    cases hk
    simp only [symItems, Option.bind_eq_some_iff] at hs
    obtain ⟨S1, hs1, hs⟩ := hs
    have hk' : ∀ b ∈ as, b.kids.map (·.1) = b.node.children := fun b hb => hkids b (by simp [hb])
    have hw' : ∀ b ∈ as, b.node.wf = true := fun b hb => hw b (by simp [hb])
    obtain ⟨e1, ν1, r1, q1, s1, b1⟩ := queryItem_exec (fuel := fuel) ok h1 hs1 (hkids a (by simp)) hseen
      ((queryItems_le h2 hk' hw').trans hst) (hw a (by simp)) q hrun
    obtain ⟨e2, ν2, r2, q2, s2, b2⟩ := ih h2 hs hk' s1 hw' q1 (b1.state.trans hrun)
    refine ⟨e2, ν2, ?_, q2, s2, b1.trans b2⟩
    rw [runData_append, r1, ok_bind, running_not_failed (b1.state.trans hrun)]
    exact r2

end PBfs
