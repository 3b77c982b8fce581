import Verif.Proof.Put
import Verif.Proof.Regs
/-! # The replay succeeds for atoms that have their registers for themselves -/
namespace PBfs

/-- The variables of an atom, as found among its nodes. -/
def itemVar (ais : List AItem) (v : Name) : Prop := ∃ a ∈ ais, a.node = .var v

/-- The nodes of an atom with their registers, as far as the code that builds the atom needs them: `xOf` are the
registers of its temporary variables.  A variable may live in an argument register if it is not used any more
when that argument is built. -/
structure QRegs (yOf : Name → Option Nat) (atom : Node) (nr : Nat) (ais : List AItem) (xOf : Name → Option Nat) : Prop where
  id : ∀ (k : Nat) (a : AItem), ais[k]? = some a → a.id = k
  kidItem : ∀ a ∈ ais, ∀ c x, (c, x) ∈ a.kids →
    ∃ b ∈ ais, b.node = c ∧ b.x = x ∧ a.id < b.id ∧ (atomArgs atom).length ≤ b.id
  var : ∀ a ∈ ais, ∀ v, a.node = .var v → yOf v = none → xOf v = some a.x
  varR : ∀ v r, xOf v = some r → r < nr
  varInj : ∀ v w r, xOf v = some r → xOf w = some r → v = w
  low : ∀ v r, xOf v = some r → r < (atomArgs atom).length → ∀ a ∈ ais, a.id < (atomArgs atom).length →
    (a.node = .var v → a.id ≤ r) ∧ (∀ x, (Node.var v, x) ∈ a.kids → a.id < r)
  sReg : ∀ a ∈ ais, a.node.isVar = false → (atomArgs atom).length ≤ a.id →
    (atomArgs atom).length ≤ a.x ∧ a.x < nr ∧ ∀ v, xOf v ≠ some a.x
  sInj : ∀ a ∈ ais, ∀ b ∈ ais, a.node.isVar = false → b.node.isVar = false →
    (atomArgs atom).length ≤ a.id → (atomArgs atom).length ≤ b.id → a.x = b.x → a = b
  arg : ∀ a ∈ ais, a.node.isVar = false → a.id < (atomArgs atom).length → a.x = a.id
  nr : (atomArgs atom).length ≤ nr
  args : ∀ (i : Nat) (n : Node), (atomArgs atom)[i]? = some n → ∃ a : AItem, ais[i]? = some a ∧ a.node = n

theorem Regs.q {atom nr ais xOf} (R : Regs atom nr ais xOf) (yOf : Name → Option Nat) :
    QRegs yOf atom nr ais fun v => if yOf v = none then xOf v else none := by
  have h : ∀ {v r}, (if yOf v = none then xOf v else none) = some r → xOf v = some r := by
    intro v r h
    split at h
    · exact h
    · cases h
  exact
    { id := R.id, kidItem := R.kidItem
      var := fun a ha v hv hy => by rw [if_pos hy]; exact R.var a ha v hv
      varR := fun v r hr => (R.varR v r (h hr)).2
      varInj := fun v w r hv hw => R.varInj v w r (h hv) (h hw)
      low := fun v r hr hlt => by have := (R.varR v r (h hr)).1; omega
      sReg := fun a ha hv hl => ⟨(R.sReg a ha hv hl).1, (R.sReg a ha hv hl).2.1, fun v hv' => (R.sReg a ha hv hl).2.2 v (h hv')⟩
      sInj := R.sInj, arg := R.arg, nr := R.nr, args := R.args }

open Classical in
/-- The registers of the variables that have not been overwritten by arguments. -/
noncomputable def liveOf (n : Nat) (ais : List AItem) (xOf : Name → Option Nat) (done : AItem → Prop) (v : Name) : Option Nat :=
  if ∃ a ∈ ais, a.id < n ∧ done a ∧ xOf v = some a.id then none else xOf v

theorem liveOf_some {n ais xOf done v r} : liveOf n ais xOf done v = some r ↔
    xOf v = some r ∧ ∀ a ∈ ais, a.id < n → done a → a.id ≠ r := by
  unfold liveOf
  split
  · rename_i h
    obtain ⟨a, h1, h2, h3, h4⟩ := h
    constructor
    · intro h; cases h
    · rintro ⟨h5, h6⟩
      rw [h4] at h5; cases h5
      exact absurd rfl (h6 a h1 h2 h3)
  · rename_i h
    refine ⟨fun h5 => ⟨h5, fun a h1 h2 h3 h4 => h ⟨a, h1, h2, h3, by rw [h5, h4]⟩⟩, fun h => h.1⟩

/-- Invariant of the replay; `done` are the nodes already built. -/
structure RpInv (yOf : Name → Option Nat) (atom : Node) (ais : List AItem) (xOf : Name → Option Nat)
    (done : AItem → Prop) (S : Sym) : Prop where
  st : ∀ a ∈ ais, a.node.isVar = false → (atomArgs atom).length ≤ a.id → done a →
    S.has (.x a.x) = true ∧ S.x a.x = some a.node
  vr : ∀ v r, yOf v = none → xOf v = some r →
    (S.has (.x r) = true → S.x r = some (.var v)) ∧ (S.has (.x r) = false → v ∉ S.pl)
  vy : ∀ v y, yOf v = some y → (S.has (.y y) = true ↔ v ∈ S.pl)
  arg : ∀ a ∈ ais, a.id < (atomArgs atom).length → done a → S.x a.id = some a.node
  live : ∀ a ∈ ais, a.id < (atomArgs atom).length → done a → ∀ v, xOf v ≠ some a.id

theorem RpInv.sub {yOf atom ais xOf xOf' done S} (i : RpInv yOf atom ais xOf done S) (h : ∀ v r, xOf' v = some r → xOf v = some r) :
    RpInv yOf atom ais xOf' done S :=
  { i with
    vr := fun v r hy hr => i.vr v r hy (h v r hr)
    live := fun a ha hid hd v hv => i.live a ha hid hd v (h v _ hv) }

/-- How the replay changes the state: registers outside of `X` keep their content, variables of `V` may
get a place. -/
structure RpChg (X : Nat → Prop) (V : Name → Prop) (S S' : Sym) : Prop where
  x : ∀ r, ¬ X r → S'.x r = S.x r
  pl : ∀ v, v ∈ S'.pl → v ∈ S.pl ∨ V v
  grow : ∀ v, v ∈ S.pl → v ∈ S'.pl

theorem Sym.has_mark {S : Sym} {r r'} : (S.mark r).has r' = true ↔ r' = r ∨ S.has r' = true := by
  simp [Sym.has, Sym.mark]

theorem Sym.has_mark_ne {S : Sym} {r r'} (h : r' ≠ r) : (S.mark r).has r' = S.has r' := by
  have := @Sym.has_mark S r r'
  simp only [h, false_or] at this
  cases h1 : (S.mark r).has r' <;> cases h2 : S.has r' <;> simp_all

@[simp] theorem Sym.has_setX {S : Sym} {k n r} : (S.setX k n).has r = S.has r := rfl
@[simp] theorem Sym.has_clearX {S : Sym} {k r} : (S.clearX k).has r = S.has r := rfl
@[simp] theorem Sym.has_place {S : Sym} {n r} : (S.place n).has r = S.has r := rfl

section
variable {yOf : Name → Option Nat} {atom : Node} {nr : Nat} {ais : List AItem} {xOf : Name → Option Nat}

/-- Writing a register of no variable and no finished node. -/
theorem RpInv.setX {done S r n} (i : RpInv yOf atom ais xOf done S)
    (hv : ∀ v, xOf v ≠ some r) (hs : ∀ a ∈ ais, a.node.isVar = false → (atomArgs atom).length ≤ a.id → done a → a.x ≠ r)
    (ha : ∀ a ∈ ais, a.id < (atomArgs atom).length → done a → a.id ≠ r) : RpInv yOf atom ais xOf done (S.setX r n) where
  st a ha hva hid hd := by
    rw [Sym.has_setX, Sym.setX_ne _ _ (hs a ha hva hid hd)]
    exact i.st a ha hva hid hd
  vr v k hy hk := by
    rw [Sym.has_setX, Sym.setX_ne _ _ (show k ≠ r from fun h => hv v (h ▸ hk))]
    exact i.vr v k hy hk
  vy := i.vy
  arg a h hid hd := by
    rw [Sym.setX_ne _ _ (ha a h hid hd)]
    exact i.arg a h hid hd
  live := i.live

theorem RpInv.clearX {done S r} (i : RpInv yOf atom ais xOf done S)
    (hv : ∀ v, xOf v ≠ some r) (hs : ∀ a ∈ ais, a.node.isVar = false → (atomArgs atom).length ≤ a.id → done a → a.x ≠ r)
    (ha : ∀ a ∈ ais, a.id < (atomArgs atom).length → done a → a.id ≠ r) : RpInv yOf atom ais xOf done (S.clearX r) where
  st a ha hva hid hd := by
    rw [Sym.has_clearX, Sym.clearX_ne _ (hs a ha hva hid hd)]
    exact i.st a ha hva hid hd
  vr v k hy hk := by
    rw [Sym.has_clearX, Sym.clearX_ne _ (show k ≠ r from fun h => hv v (h ▸ hk))]
    exact i.vr v k hy hk
  vy := i.vy
  arg a h hid hd := by
    rw [Sym.clearX_ne _ (ha a h hid hd)]
    exact i.arg a h hid hd
  live := i.live

/-- Marking a register of no variable. -/
theorem RpInv.mark {done S r} (i : RpInv yOf atom ais xOf done S) (hv : ∀ v, xOf v ≠ some r) :
    RpInv yOf atom ais xOf done (S.mark (.x r)) where
  st a ha hva hid hd := by
    have := i.st a ha hva hid hd
    exact ⟨Sym.has_mark.2 (.inr this.1), this.2⟩
  vr v k hy hk := by
    rw [Sym.has_mark_ne (by intro h; cases h; exact hv v hk)]
    exact i.vr v k hy hk
  vy v y hy := by
    rw [Sym.has_mark_ne (by intro h; cases h)]
    exact i.vy v y hy
  arg := i.arg
  live := i.live

/-- The first occurrence of a temporary variable. -/
theorem RpInv.newX (R : QRegs yOf atom nr ais xOf) {xL : Name → Option Nat} (hsub : ∀ v r, xL v = some r → xOf v = some r)
    {done S v r} (i : RpInv yOf atom ais xL done S) (hy : yOf v = none) (hx : xL v = some r) :
    RpInv yOf atom ais xL done (((S.mark (.x r)).setX r (.var v)).place v) where
  st a ha hva hid hd := by
    have := i.st a ha hva hid hd
    have hne : a.x ≠ r := fun h => (R.sReg a ha hva hid).2.2 v (h ▸ hsub v r hx)
    refine ⟨Sym.has_mark.2 (.inr this.1), ?_⟩
    rw [Sym.place_x, Sym.setX_ne _ _ hne]
    exact this.2
  vr w k hw hk := by
    by_cases hwv : w = v
    · subst hwv
      rw [hx] at hk; cases hk
      refine ⟨fun _ => by simp, fun h => ?_⟩
      rw [Sym.has_place, Sym.has_setX] at h
      have := Sym.has_mark.2 (.inl rfl : SReg.x r = .x r ∨ S.has (.x r) = true)
      rw [h] at this; cases this
    · have hne : k ≠ r := fun h => hwv (R.varInj w v k (hsub w k hk) (h ▸ hsub v r hx))
      have := i.vr w k hw hk
      rw [Sym.has_place, Sym.has_setX, Sym.has_mark_ne (by intro h; cases h; exact hne rfl), Sym.place_x,
        Sym.setX_ne _ _ hne]
      refine ⟨this.1, fun h => ?_⟩
      simp only [Sym.place_pl, Sym.setX_pl, Sym.mark_pl, List.mem_cons, not_or]
      exact ⟨hwv, this.2 h⟩
  vy w y hw := by
    have hwv : w ≠ v := by intro h; subst h; rw [hw] at hy; cases hy
    rw [Sym.has_place, Sym.has_setX, Sym.has_mark_ne (by intro h; cases h)]
    simp only [Sym.place_pl, Sym.setX_pl, Sym.mark_pl, List.mem_cons, hwv, false_or]
    exact i.vy w y hw
  arg a ha hid hd := by
    have hne : a.id ≠ r := fun h => i.live a ha hid hd v (h ▸ hx)
    rw [Sym.place_x, Sym.setX_ne _ _ hne]
    exact i.arg a ha hid hd
  live := i.live

/-- The first occurrence of a permanent variable. -/
theorem RpInv.newY (yinj : ∀ n m y, yOf n = some y → yOf m = some y → n = m) {done S v y}
    (i : RpInv yOf atom ais xOf done S) (hy : yOf v = some y) :
    RpInv yOf atom ais xOf done ((S.mark (.y y)).place v) where
  st a ha hva hid hd := by
    have := i.st a ha hva hid hd
    exact ⟨Sym.has_mark.2 (.inr this.1), this.2⟩
  vr w k hw hk := by
    have hwv : w ≠ v := by intro h; subst h; rw [hw] at hy; cases hy
    have := i.vr w k hw hk
    rw [Sym.has_place, Sym.has_mark_ne (by intro h; cases h)]
    refine ⟨this.1, fun h => ?_⟩
    simp only [Sym.place_pl, Sym.mark_pl, List.mem_cons, not_or]
    exact ⟨hwv, this.2 h⟩
  vy w y' hw := by
    rw [Sym.has_place]
    simp only [Sym.place_pl, Sym.mark_pl, List.mem_cons]
    by_cases hwv : w = v
    · subst hwv
      rw [hy] at hw; cases hw
      simp [Sym.has_mark]
    · rw [Sym.has_mark_ne (by intro h; cases h; exact hwv (yinj _ _ _ hw hy))]
      simp only [hwv, false_or]
      exact i.vy w y' hw
  arg := i.arg
  live := i.live

theorem RpChg.refl {X V S} : RpChg X V S S := ⟨fun _ _ => rfl, fun _ h => .inl h, fun _ h => h⟩

theorem RpChg.trans {X V S S' S''} (h : RpChg X V S S') (h' : RpChg X V S' S'') : RpChg X V S S'' :=
  ⟨fun r hr => (h'.x r hr).trans (h.x r hr), fun v hv => (h'.pl v hv).elim (h.pl v) .inr,
    fun v hv => h'.grow v (h.grow v hv)⟩

theorem RpChg.weaken {X X' : Nat → Prop} {V V' : Name → Prop} {S S'} (h : RpChg X V S S') (hx : ∀ r, X r → X' r) (hv : ∀ v, V v → V' v) :
    RpChg X' V' S S' :=
  ⟨fun r hr => h.x r fun hr' => hr (hx r hr'), fun v hv' => (h.pl v hv').imp id (hv v), h.grow⟩

/-- One child. -/
theorem symKid_ok (R : QRegs yOf atom nr ais xOf) (yinj : ∀ n m y, yOf n = some y → yOf m = some y → n = m)
    {xL : Name → Option Nat} (hsub : ∀ v r, xL v = some r → xOf v = some r) {done S} {b : AItem} (i : RpInv yOf atom ais xL done S) (hb : b ∈ ais) (hid : (atomArgs atom).length ≤ b.id)
    (hlive : ∀ v, b.node = .var v → yOf v = none → xL v = some b.x)
    (hdone : b.node.isFn = true ∨ b.node.isEfn = true → done b)
    (hnot : b.node.isFn = false → b.node.isEfn = false → b.node.isVar = false → ¬ done b) :
    ∃ S', symKid yOf nr b.node b.x S = some S' ∧ RpInv yOf atom ais xL done S' ∧
      RpChg (fun r => r = b.x ∧ ∀ v, b.node = .var v → yOf v = none) (itemVar ais) S S' := by
  have hconst : ∀ n, n = b.node → b.node.isVar = false → b.node.isFn = false → b.node.isEfn = false →
      (if b.x < nr then some (S.setX b.x n) else none) = some (S.setX b.x n) ∧
      RpInv yOf atom ais xL done (S.setX b.x n) ∧ RpChg (fun r => r = b.x ∧ ∀ v, b.node = .var v → yOf v = none) (itemVar ais) S (S.setX b.x n) := by
    intro n hn h1 h2 h3
    obtain ⟨a1, a2, a3⟩ := R.sReg b hb h1 hid
    rw [if_pos a2]
    refine ⟨rfl, i.setX (fun v hv => a3 v (hsub v _ hv)) ?_ ?_, ?_⟩
    · intro a ha hva hida hd hax
      have := R.sInj a ha b hb hva h1 hida hid hax
      subst this
      exact hnot h2 h3 h1 hd
    · intro a ha hida hd; omega
    · refine ⟨fun r hr => Sym.setX_ne _ _ fun hr' => hr ⟨hr', fun v hv => ?_⟩, fun v h => .inl h, fun v h => h⟩
      rw [hv] at h1; simp [Node.isVar] at h1
  have hstruct : b.node.isFn = true ∨ b.node.isEfn = true → b.node.isVar = false →
      (if S.has (.x b.x) then if S.holds b.x b.node then some S else none else none) = some S := by
    intro h h1
    obtain ⟨a1, a2⟩ := i.st b hb h1 hid (hdone h)
    rw [if_pos a1, if_pos (by simp [Sym.holds, a2])]
  cases hn : b.node with
  | int v =>
    have := hconst (.int v) hn.symm (by simp [hn, Node.isVar]) (by simp [hn, Node.isFn]) (by simp [hn, Node.isEfn])
    rw [hn] at this
    exact ⟨_, this⟩
  | cons v =>
    have := hconst (.cons v) hn.symm (by simp [hn, Node.isVar]) (by simp [hn, Node.isFn]) (by simp [hn, Node.isEfn])
    rw [hn] at this
    exact ⟨_, this⟩
  | fn f cs =>
    have := hstruct (by simp [hn, Node.isFn]) (by simp [hn, Node.isVar])
    rw [hn] at this
    exact ⟨S, this, i, .refl⟩
  | efn f cs =>
    have := hstruct (by simp [hn, Node.isEfn]) (by simp [hn, Node.isVar])
    rw [hn] at this
    exact ⟨S, this, i, .refl⟩
  | var v =>
    have hiv : itemVar ais v := ⟨b, hb, hn⟩
    unfold symKid
    cases hy : yOf v with
    | some y =>
      simp only [hy]
      have hv := i.vy v y hy
      cases hh : S.has (.y y) with
      | true =>
        rw [hh] at hv
        simp only [if_true, if_pos (hv.1 rfl)]
        exact ⟨S, rfl, i, .refl⟩
      | false =>
        rw [hh] at hv
        have hnp : v ∉ S.pl := fun h => by simpa using hv.2 h
        simp only [Bool.false_eq_true, if_false, if_neg hnp]
        refine ⟨_, rfl, i.newY yinj hy, ⟨fun r _ => rfl, ?_, ?_⟩⟩
        · intro w hw
          simp only [Sym.place_pl, Sym.mark_pl, List.mem_cons] at hw
          rcases hw with rfl | hw
          · exact .inr hiv
          · exact .inl hw
        · intro w hw; simp [hw]
    | none =>
      simp only [hy]
      have hx := hlive v hn hy
      have hv := i.vr v _ hy hx
      cases hh : S.has (.x b.x) with
      | true =>
        simp only [if_true, Sym.holds, hv.1 hh, decide_true]
        exact ⟨S, rfl, i, .refl⟩
      | false =>
        simp only [Bool.false_eq_true, if_false, if_neg (hv.2 hh), if_pos (R.varR v _ (hsub v _ hx))]
        refine ⟨_, rfl, i.newX R hsub hy hx, ⟨fun r hr => ?_, ?_, ?_⟩⟩
        · rw [Sym.place_x, Sym.setX_ne _ _ fun h => hr ⟨h, fun w hw => by cases hw; exact hy⟩]; rfl
        · intro w hw
          simp only [Sym.place_pl, Sym.mark_pl, Sym.setX_pl, List.mem_cons] at hw
          rcases hw with rfl | hw
          · exact .inr hiv
          · exact .inl hw
        · intro w hw; simp [hw]

/-- All children of a node. -/
theorem symKids_ok (R : QRegs yOf atom nr ais xOf) (yinj : ∀ n m y, yOf n = some y → yOf m = some y → n = m)
    {xL : Name → Option Nat} (hsub : ∀ v r, xL v = some r → xOf v = some r) {done : AItem → Prop} {ks : List (Node × Nat)} {S}
    (hk : ∀ c x, (c, x) ∈ ks → ∃ b ∈ ais, b.node = c ∧ b.x = x ∧ (atomArgs atom).length ≤ b.id ∧
      (∀ v, c = .var v → yOf v = none → xL v = some x) ∧
      (c.isFn = true ∨ c.isEfn = true → done b) ∧ (c.isFn = false → c.isEfn = false → c.isVar = false → ¬ done b))
    (i : RpInv yOf atom ais xL done S) :
    ∃ S', symKids yOf nr ks S = some S' ∧ RpInv yOf atom ais xL done S' ∧
      RpChg (fun r => ∃ c, (c, r) ∈ ks ∧ ∀ v, c = .var v → yOf v = none) (itemVar ais) S S' := by
  induction ks generalizing S with
  | nil => exact ⟨S, rfl, i, .refl⟩
  | cons k ks ih =>
    obtain ⟨c, x⟩ := k
    obtain ⟨b, hb, rfl, rfl, h1, h0, h2, h3⟩ := hk c x (by simp)
    obtain ⟨S1, e1, i1, c1⟩ := symKid_ok R yinj hsub i hb h1 h0 h2 h3
    obtain ⟨S2, e2, i2, c2⟩ := ih (fun c x hcx => hk c x (by simp [hcx])) i1
    refine ⟨S2, by simp only [symKids, e1, Option.bind_some, e2], i2, ?_⟩
    refine (c1.weaken ?_ fun _ h => h).trans (c2.weaken ?_ fun _ h => h)
    · rintro r ⟨rfl, h⟩; exact ⟨b.node, by simp, h⟩
    · rintro r ⟨c, hc, h⟩; exact ⟨c, by simp [hc], h⟩

/-- A node that is not a variable: an argument, or a structure all of whose structures below are there. -/
theorem symItem_struct_ok (R : QRegs yOf atom nr ais xOf) (yinj : ∀ n m y, yOf n = some y → yOf m = some y → n = m)
    {done : AItem → Prop} {S} {a : AItem} (i : RpInv yOf atom ais (liveOf (atomArgs atom).length ais xOf done) done S) (ha : a ∈ ais) (hv : a.node.isVar = false)
    (hk : a.id < (atomArgs atom).length ∨ a.node.isFn = true ∨ a.node.isEfn = true)
    (hbelow : ∀ b ∈ ais, a.id < b.id → (atomArgs atom).length ≤ b.id → b.node.isFn = true ∨ b.node.isEfn = true → done b)
    (hnot : ∀ b ∈ ais, (atomArgs atom).length ≤ b.id → b.node.isFn = false → b.node.isEfn = false → ¬ done b)
    (hself : ¬ done a) (hord : ∀ c ∈ ais, c.id < (atomArgs atom).length → done c → a.id < (atomArgs atom).length ∧ c.id < a.id) :
    ∃ S', symItem yOf nr a S = some S' ∧ RpInv yOf atom ais (liveOf (atomArgs atom).length ais xOf fun b => done b ∨ b = a) (fun b => done b ∨ b = a) S' ∧
      RpChg (fun _ => True) (itemVar ais) S S' := by
  have hidx : (a.id < (atomArgs atom).length ∧ a.x = a.id) ∨ (atomArgs atom).length ≤ a.id := by
    by_cases h : a.id < (atomArgs atom).length
    · exact .inl ⟨h, R.arg a ha hv h⟩
    · exact .inr (by omega)
  have hsub : ∀ v r, liveOf (atomArgs atom).length ais xOf (fun b => done b ∨ b = a) v = some r → xOf v = some r :=
    fun v r h => (liveOf_some.1 h).1
  have hsub' : ∀ v r, liveOf (atomArgs atom).length ais xOf (fun b => done b ∨ b = a) v = some r →
      liveOf (atomArgs atom).length ais xOf done v = some r := by
    intro v r h
    obtain ⟨h1, h2⟩ := liveOf_some.1 h
    exact liveOf_some.2 ⟨h1, fun b hb hid hd => h2 b hb hid (.inl hd)⟩
  have hxv : ∀ v, liveOf (atomArgs atom).length ais xOf (fun b => done b ∨ b = a) v ≠ some a.x := by
    intro v hv'
    obtain ⟨h5, h6⟩ := liveOf_some.1 hv'
    rcases hidx with ⟨h1, h2⟩ | h
    · exact h6 a ha h1 (.inr rfl) h2.symm
    · exact (R.sReg a ha hv h).2.2 v h5
  have hxs : ∀ b ∈ ais, b.node.isVar = false → (atomArgs atom).length ≤ b.id → b ≠ a → b.x ≠ a.x := by
    intro b hb hvb hid hne hbx
    rcases hidx with ⟨h1, h2⟩ | h
    · have := (R.sReg b hb hvb hid).1; omega
    · exact hne (R.sInj b hb a ha hvb hv hid h hbx)
  have hxa : ∀ b ∈ ais, b.id < (atomArgs atom).length → b ≠ a → b.id ≠ a.x := by
    intro b hb hid hne hbx
    rcases hidx with ⟨h1, h2⟩ | h
    · obtain ⟨k, hk⟩ := List.getElem?_of_mem hb
      obtain ⟨j, hj⟩ := List.getElem?_of_mem ha
      have e1 := R.id k b hk
      have e2 := R.id j a hj
      have : k = j := by omega
      subst this
      rw [hk] at hj; cases hj; exact hne rfl
    · have := (R.sReg a ha hv h).1; omega
  have hlt : a.x < nr := by
    rcases hidx with ⟨h1, h2⟩ | h
    · have := R.nr; omega
    · exact (R.sReg a ha hv h).2.1
  have hdne : ∀ b, done b → b ≠ a := fun b hd h => hself (h ▸ hd)
  have i1 : RpInv yOf atom ais (liveOf (atomArgs atom).length ais xOf fun b => done b ∨ b = a) done ((S.mark (.x a.x)).clearX a.x) :=
    ((i.sub hsub').mark hxv).clearX hxv (fun b hb hvb hid hd => hxs b hb hvb hid (hdne b hd))
      (fun b hb hid hd => hxa b hb hid (hdne b hd))
  have hkid : ∀ b ∈ ais, ∀ {v}, (b.node, b.x) ∈ a.kids → b.node = .var v → yOf v = none →
      liveOf (atomArgs atom).length ais xOf (fun b => done b ∨ b = a) v = some b.x := by
    intro b hb v hc hbv hy
    have hxb := R.var b hb v hbv hy
    refine liveOf_some.2 ⟨hxb, fun c hc' hid hd hcx => ?_⟩
    rw [hbv] at hc
    rcases hd with hd | rfl
    · obtain ⟨o1, o2⟩ := hord c hc' hid hd
      have := (R.low v b.x hxb (by omega) a ha o1).2 _ hc
      omega
    · have := (R.low v b.x hxb (by omega) c ha hid).2 _ hc
      omega
  obtain ⟨S2, e2, i2, c2⟩ := symKids_ok R yinj hsub (ks := a.kids) (by
    intro c x hc
    obtain ⟨b, hb, rfl, rfl, h1, h2⟩ := R.kidItem a ha c x hc
    refine ⟨b, hb, rfl, rfl, h2, fun v hv hy => hkid b hb hc hv hy, fun h => hbelow b hb h1 h2 h, fun h3 h4 _ => hnot b hb h2 h3 h4⟩) i1
  have hax : S2.x a.x = none := by
    rw [c2.x, Sym.clearX_same]
    rintro ⟨c, hc, hcy⟩
    obtain ⟨b, hb, h0, h1, h2, h3⟩ := R.kidItem a ha c _ hc
    cases hbv : b.node.isVar with
    | true =>
      cases hbn : b.node <;> rw [hbn] at hbv <;> simp [Node.isVar] at hbv
      have := hkid b hb (by rw [h0, h1]; exact hc) hbn (hcy _ (h0 ▸ hbn))
      rw [h1] at this
      exact hxv _ this
    | false => exact hxs b hb hbv h3 (by rintro rfl; omega) h1
  have hmark : S2.has (.x a.x) = true := by
    -- marks are never removed
    have hm : ∀ (ks : List (Node × Nat)) (S S' : Sym), symKids yOf nr ks S = some S' → ∀ r, S.has r = true → S'.has r = true := by
      intro ks
      induction ks with
      | nil => intro S S' h r hr; simp only [symKids] at h; cases h; exact hr
      | cons k ks ih =>
        intro S S' h r hr
        obtain ⟨c, x⟩ := k
        simp only [symKids, Option.bind_eq_some_iff] at h
        obtain ⟨S1, h1, h2⟩ := h
        refine ih S1 S' h2 r ?_
        unfold symKid at h1
        repeat' split at h1
        all_goals first
          | (cases h1; done)
          | (cases h1; first | exact hr | (exact Sym.has_mark.2 (.inr hr)))
    exact hm _ _ _ e2 _ (Sym.has_mark.2 (.inl rfl))
  refine ⟨S2.setX a.x a.node, ?_, ?_, ?_⟩
  · unfold symItem
    split
    · rename_i n hn; rw [hn] at hv; simp [Node.isVar] at hv
    · rw [if_pos hlt, e2]
      simp [hax]
  · have i3 : RpInv yOf atom ais (liveOf (atomArgs atom).length ais xOf fun b => done b ∨ b = a) done (S2.setX a.x a.node) :=
      i2.setX hxv (fun b hb hvb hid hd => hxs b hb hvb hid (hdne b hd))
        (fun b hb hid hd => hxa b hb hid (hdne b hd))
    exact
      { st := fun b hb hvb hid hd => by
          rcases hd with hd | rfl
          · exact i3.st b hb hvb hid hd
          · exact ⟨hmark, by simp⟩
        vr := i3.vr
        vy := i3.vy
        arg := fun b hb hid hd => by
          rcases hd with hd | rfl
          · exact i3.arg b hb hid hd
          · rw [← R.arg b ha hv hid]; simp
        live := fun b hb hid hd v hv' => (liveOf_some.1 hv').2 b hb hid hd rfl }
  · refine ⟨fun r hr => absurd trivial hr, fun v hv' => ?_, fun v hv' => ?_⟩
    · exact c2.pl v hv'
    · exact c2.grow v hv'

/-- A variable as argument. -/
theorem symItem_var_ok (R : QRegs yOf atom nr ais xOf) (yinj : ∀ n m y, yOf n = some y → yOf m = some y → n = m)
    {done : AItem → Prop} {S} {a : AItem} {v} (i : RpInv yOf atom ais (liveOf (atomArgs atom).length ais xOf done) done S) (ha : a ∈ ais) (hn : a.node = .var v)
    (hid : a.id < (atomArgs atom).length)
    (hord : ∀ c ∈ ais, c.id < (atomArgs atom).length → done c → a.id < (atomArgs atom).length ∧ c.id < a.id) :
    ∃ S', symItem yOf nr a S = some S' ∧ RpInv yOf atom ais (liveOf (atomArgs atom).length ais xOf fun b => done b ∨ b = a) (fun b => done b ∨ b = a) S' ∧
      RpChg (fun _ => True) (itemVar ais) S S' := by
  have hlive : yOf v = none → liveOf (atomArgs atom).length ais xOf done v = some a.x := by
    intro hy
    have hxa := R.var a ha v hn hy
    refine liveOf_some.2 ⟨hxa, fun c hc hidc hd hcx => ?_⟩
    have := (R.low v a.x hxa (by omega) a ha hid).1 hn
    have := (hord c hc hidc hd).2
    omega
  have hiv : itemVar ais v := ⟨a, ha, hn⟩
  have hidlt : a.id < nr := by have := R.nr; omega
  have hfin : ∀ S', RpInv yOf atom ais (liveOf (atomArgs atom).length ais xOf done) done S' → RpInv yOf atom ais (liveOf (atomArgs atom).length ais xOf fun b => done b ∨ b = a) (fun b => done b ∨ b = a) (S'.setX a.id (.var v)) := by
    intro S' i'
    exact
      { st := fun b hb hvb hidb hd => by
          have hne : b ≠ a := by rintro rfl; rw [hn] at hvb; simp [Node.isVar] at hvb
          have hxne : b.x ≠ a.id := by have := (R.sReg b hb hvb hidb).1; omega
          rw [Sym.has_setX, Sym.setX_ne _ _ hxne]
          exact i'.st b hb hvb hidb (hd.resolve_right hne)
        vr := fun w r hw hr => by
          obtain ⟨hr1, hr2⟩ := liveOf_some.1 hr
          have hxne : r ≠ a.id := fun h => hr2 a ha hid (.inr rfl) h.symm
          rw [Sym.has_setX, Sym.setX_ne _ _ hxne]
          exact i'.vr w r hw (liveOf_some.2 ⟨hr1, fun b hb hidb hd => hr2 b hb hidb (.inl hd)⟩)
        vy := i'.vy
        arg := fun b hb hidb hd => by
          by_cases hba : b.id = a.id
          · obtain ⟨k, hk⟩ := List.getElem?_of_mem hb
            obtain ⟨j, hj⟩ := List.getElem?_of_mem ha
            have e1 := R.id k b hk
            have e2 := R.id j a hj
            have : k = j := by omega
            subst this
            rw [hk] at hj; cases hj
            simp [hn]
          · rw [Sym.setX_ne _ _ hba]
            exact i'.arg b hb hidb (hd.resolve_right fun h => hba (h ▸ rfl))
        live := fun b hb hidb hd v hv' => (liveOf_some.1 hv').2 b hb hidb hd rfl }
  unfold symItem
  rw [hn]
  simp only [if_pos hidlt]
  cases hy : yOf v with
  | some y =>
    simp only []
    have hv := i.vy v y hy
    cases hh : S.has (.y y) with
    | true =>
      rw [hh] at hv
      simp only [if_true, if_pos (hv.1 rfl)]
      exact ⟨_, rfl, hfin S i, fun r hr => absurd trivial hr, fun w hw => .inl hw, fun w hw => hw⟩
    | false =>
      rw [hh] at hv
      have hnp : v ∉ S.pl := fun h => by simpa using hv.2 h
      simp only [Bool.false_eq_true, if_false, if_neg hnp]
      refine ⟨_, rfl, hfin _ (i.newY yinj hy), fun r hr => absurd trivial hr, ?_, ?_⟩
      · intro w hw
        simp only [Sym.place_pl, Sym.mark_pl, Sym.setX_pl, List.mem_cons] at hw
        rcases hw with rfl | hw
        · exact .inr hiv
        · exact .inl hw
      · intro w hw; simp [hw]
  | none =>
    simp only []
    have hx := hlive hy
    have hv := i.vr v _ hy hx
    cases hh : S.has (.x a.x) with
    | true =>
      simp only [if_true, Sym.holds, hv.1 hh, decide_true]
      exact ⟨_, rfl, hfin S i, fun r hr => absurd trivial hr, fun w hw => .inl hw, fun w hw => hw⟩
    | false =>
      simp only [Bool.false_eq_true, if_false, if_neg (hv.2 hh), if_pos (R.varR v _ (liveOf_some.1 hx).1)]
      refine ⟨_, rfl, hfin _ (i.newX R (fun v r h => (liveOf_some.1 h).1) hy hx), fun r hr => absurd trivial hr, ?_, ?_⟩
      · intro w hw
        simp only [Sym.place_pl, Sym.mark_pl, Sym.setX_pl, List.mem_cons] at hw
        rcases hw with rfl | hw
        · exact .inr hiv
        · exact .inl hw
      · intro w hw; simp [hw]

/-- A list of nodes in a suitable order. -/
theorem symItems_ok (R : QRegs yOf atom nr ais xOf) (yinj : ∀ n m y, yOf n = some y → yOf m = some y → n = m)
    {as : List AItem} {done : AItem → Prop} {S} (i : RpInv yOf atom ais (liveOf (atomArgs atom).length ais xOf done) done S)
    (hmem : ∀ a ∈ as, a ∈ ais ∧ ¬ done a ∧
      (a.id < (atomArgs atom).length ∨ a.node.isFn = true ∨ a.node.isEfn = true))
    (hnot : ∀ b ∈ ais, (atomArgs atom).length ≤ b.id → b.node.isFn = false → b.node.isEfn = false → ¬ done b)
    (hbelow : ∀ pre a post, as = pre ++ a :: post → ∀ b ∈ ais, a.id < b.id → (atomArgs atom).length ≤ b.id →
      b.node.isFn = true ∨ b.node.isEfn = true → done b ∨ b ∈ pre) (hnd : as.Nodup)
    (hord : ∀ pre a post, as = pre ++ a :: post → ∀ c ∈ ais, c.id < (atomArgs atom).length → done c ∨ c ∈ pre →
      a.id < (atomArgs atom).length ∧ c.id < a.id) :
    ∃ S', symItems yOf nr as S = some S' ∧ RpInv yOf atom ais (liveOf (atomArgs atom).length ais xOf fun b => done b ∨ b ∈ as) (fun b => done b ∨ b ∈ as) S' ∧
      RpChg (fun _ => True) (itemVar ais) S S' := by
  induction as generalizing S done with
  | nil => exact ⟨S, rfl, by simpa using i, .refl⟩
  | cons a as ih =>
    obtain ⟨ha, hnd', hk⟩ := hmem a (by simp)
    have step : ∃ S', symItem yOf nr a S = some S' ∧ RpInv yOf atom ais (liveOf (atomArgs atom).length ais xOf fun b => done b ∨ b = a) (fun b => done b ∨ b = a) S' ∧
        RpChg (fun _ => True) (itemVar ais) S S' := by
      cases hv : a.node.isVar with
      | false =>
        refine symItem_struct_ok R yinj i ha hv hk ?_ hnot hnd' fun c hc hid hd => hord [] a as rfl c hc hid (.inl hd)
        intro b hb h1 h2 h3
        simpa using hbelow [] a as rfl b hb h1 h2 h3
      | true =>
        cases hn : a.node <;> rw [hn] at hv <;> simp [Node.isVar] at hv
        refine symItem_var_ok R yinj i ha hn ?_ fun c hc hid hd => hord [] a as rfl c hc hid (.inl hd)
        rcases hk with hk | hk
        · exact hk
        · simp [hn, Node.isFn, Node.isEfn] at hk
    obtain ⟨S1, e1, i1, c1⟩ := step
    have hndc := List.nodup_cons.1 hnd
    obtain ⟨S2, e2, i2, c2⟩ := ih i1 (by
        intro b hb
        obtain ⟨h1, h2, h3⟩ := hmem b (by simp [hb])
        refine ⟨h1, ?_, h3⟩
        rintro (h | rfl)
        · exact h2 h
        · exact hndc.1 hb)
      (by
        intro b hb h1 h2 h3
        rintro (h | rfl)
        · exact hnot b hb h1 h2 h3 h
        · rcases hk with hk | hk
          · omega
          · simp_all)
      (by
        intro pre c post hp b hb h1 h2 h3
        rcases hbelow (a :: pre) c post (by rw [hp]; rfl) b hb h1 h2 h3 with h | h
        · exact .inl (.inl h)
        · rcases List.mem_cons.1 h with h | h
          · exact .inl (.inr h)
          · exact .inr h) hndc.2
      (by
        intro pre c post hp d hd hid h
        refine hord (a :: pre) c post (by rw [hp]; rfl) d hd hid ?_
        rcases h with (h | rfl) | h
        · exact .inl h
        · exact .inr (by simp)
        · exact .inr (by simp [h]))
    refine ⟨S2, by simp only [symItems, e1, Option.bind_some, e2], ?_, c1.trans c2⟩
    have heq : (fun b => (done b ∨ b = a) ∨ b ∈ as) = fun b => done b ∨ b ∈ a :: as := by
      funext b
      simp only [List.mem_cons, or_assoc]
    rw [← heq]; exact i2

theorem flattenProgram_split {nargs : Nat} {ais : List AItem} (hid : ∀ (k : Nat) (a : AItem), ais[k]? = some a → a.id = k)
    (hlen : nargs ≤ ais.length) :
    (flattenProgram nargs ais).take nargs = ais.take nargs ∧
    (flattenProgram nargs ais).drop nargs = (ais.drop nargs).filter fun a => a.node.isFn || a.node.isEfn := by
  have h1 : (ais.take nargs).filter (·.kept nargs) = ais.take nargs := by
    rw [List.filter_eq_self]
    intro a ha
    obtain ⟨k, hk⟩ := List.getElem?_of_mem ha
    rw [List.getElem?_take] at hk
    split at hk
    · have := hid k a hk
      simp [AItem.kept]; omega
    · cases hk
  have h2 : (ais.drop nargs).filter (·.kept nargs) = (ais.drop nargs).filter fun a => a.node.isFn || a.node.isEfn := by
    apply List.filter_congr
    intro a ha
    obtain ⟨k, hk⟩ := List.getElem?_of_mem ha
    rw [List.getElem?_drop] at hk
    have := hid _ a hk
    have h : decide (a.id < nargs) = false := by simp; omega
    simp [AItem.kept, h]
  have h3 : flattenProgram nargs ais = ais.take nargs ++ (ais.drop nargs).filter fun a => a.node.isFn || a.node.isEfn := by
    unfold flattenProgram
    rw [← h2]
    conv => lhs; rw [← List.take_append_drop nargs ais, List.filter_append, h1]
  have hl : (ais.take nargs).length = nargs := by simp; omega
  rw [h3]
  constructor
  · rw [List.take_append_of_le_length (by omega), List.take_of_length_le (by omega)]
  · rw [List.drop_append_of_le_length (by omega), List.drop_of_length_le (by omega)]; rfl

theorem ids_sorted {ais : List AItem} (hid : ∀ (k : Nat) (a : AItem), ais[k]? = some a → a.id = k) :
    ais.Pairwise fun a b => a.id < b.id := by
  rw [List.pairwise_iff_getElem]
  intro i j hi hj hij
  rw [hid i _ (List.getElem?_eq_getElem hi), hid j _ (List.getElem?_eq_getElem hj)]
  exact hij

theorem nargs_le {ais : List AItem} (R : QRegs yOf atom nr ais xOf) : (atomArgs atom).length ≤ ais.length := by
  rcases Nat.eq_zero_or_pos (atomArgs atom).length with h | h
  · omega
  · have hlt : (atomArgs atom).length - 1 < (atomArgs atom).length := by omega
    obtain ⟨a, ha, _⟩ := R.args _ _ (List.getElem?_eq_getElem hlt)
    have := (List.getElem?_eq_some_iff.1 ha).1
    omega

theorem holdsArgs_iff {S : Sym} {k ns} : holdsArgs S k ns = true ↔ ∀ i n, ns[i]? = some n → S.x (k + i) = some n := by
  induction ns generalizing k with
  | nil => simp [holdsArgs]
  | cons c cs ih =>
    simp only [holdsArgs, Bool.and_eq_true, ih, Sym.holds, decide_eq_true_eq]
    constructor
    · rintro ⟨h1, h2⟩ i n hi
      cases i with
      | zero => simp only [List.getElem?_cons_zero, Option.some.injEq] at hi; subst hi; exact h1
      | succ i =>
        have := h2 i n (by simpa using hi)
        rw [show k + (i + 1) = k + 1 + i by omega]; exact this
    · intro h
      refine ⟨h 0 c rfl, fun i n hi => ?_⟩
      have := h (i + 1) n (by simpa using hi)
      rw [show k + (i + 1) = k + 1 + i by omega] at this; exact this

/-- The replay succeeds for an atom whose registers do not clash. -/
theorem symAtom_gen (R : QRegs yOf atom nr ais xOf) (yinj : ∀ n m y, yOf n = some y → yOf m = some y → n = m) {S : Sym}
    (i0 : RpInv yOf atom ais xOf (fun _ => False) S) :
    ∃ S', symAtom yOf nr atom ais S = some S' ∧
      (∀ v y, yOf v = some y → (S'.has (.y y) = true ↔ v ∈ S'.pl)) ∧
      (∀ v, v ∈ S'.pl → v ∈ S.pl ∨ itemVar ais v) ∧ (∀ v, v ∈ S.pl → v ∈ S'.pl) ∧
      (∀ v r, yOf v = none → xOf v = some r → (atomArgs atom).length ≤ r → v ∈ S'.pl → S'.x r = some (.var v)) := by
  obtain ⟨f1, f2⟩ := flattenProgram_split (ais := ais) (nargs := (atomArgs atom).length) R.id (nargs_le R)
  have hq : flattenQuery (atomArgs atom).length ais =
      ((ais.drop (atomArgs atom).length).filter fun a => a.node.isFn || a.node.isEfn).reverse ++
        ais.take (atomArgs atom).length := by
    simp only [flattenQuery, f1, f2]
  have hdrop : ∀ a, a ∈ ais.drop (atomArgs atom).length ↔ a ∈ ais ∧ (atomArgs atom).length ≤ a.id := by
    intro a
    constructor
    · intro h
      obtain ⟨k, hk⟩ := List.getElem?_of_mem h
      rw [List.getElem?_drop] at hk
      exact ⟨List.mem_of_getElem? hk, by rw [R.id _ _ hk]; omega⟩
    · rintro ⟨h, h'⟩
      obtain ⟨k, hk⟩ := List.getElem?_of_mem h
      have := R.id _ _ hk
      refine List.mem_of_getElem? (i := k - (atomArgs atom).length) ?_
      rw [List.getElem?_drop, show (atomArgs atom).length + (k - (atomArgs atom).length) = k by omega]
      exact hk
  have htake : ∀ a, a ∈ ais.take (atomArgs atom).length ↔ a ∈ ais ∧ a.id < (atomArgs atom).length := by
    intro a
    constructor
    · intro h
      obtain ⟨k, hk⟩ := List.getElem?_of_mem h
      rw [List.getElem?_take] at hk
      split at hk
      · exact ⟨List.mem_of_getElem? hk, by rw [R.id _ _ hk]; omega⟩
      · cases hk
    · rintro ⟨h, h'⟩
      obtain ⟨k, hk⟩ := List.getElem?_of_mem h
      have := R.id _ _ hk
      refine List.mem_of_getElem? (i := k) ?_
      rw [List.getElem?_take, if_pos (by omega)]
      exact hk
  have hsort := ids_sorted R.id
  have hmemq : ∀ a, a ∈ flattenQuery (atomArgs atom).length ais ↔ a ∈ ais ∧
      (a.id < (atomArgs atom).length ∨ a.node.isFn = true ∨ a.node.isEfn = true) := by
    intro a
    rw [hq, List.mem_append, List.mem_reverse, List.mem_filter, hdrop, htake]
    simp only [Bool.or_eq_true]
    constructor
    · rintro (⟨⟨h1, h2⟩, h3⟩ | ⟨h1, h2⟩)
      · exact ⟨h1, .inr h3⟩
      · exact ⟨h1, .inl h2⟩
    · rintro ⟨h1, h2⟩
      by_cases h : a.id < (atomArgs atom).length
      · exact .inr ⟨h1, h⟩
      · exact .inl ⟨⟨h1, by omega⟩, h2.resolve_left h⟩
  obtain ⟨S', e1, i1, c1⟩ := symItems_ok R yinj (as := flattenQuery (atomArgs atom).length ais)
    (i0.sub fun v r h => (liveOf_some.1 h).1)
    (fun a ha => ⟨((hmemq a).1 ha).1, fun h => h, ((hmemq a).1 ha).2⟩) (fun _ _ _ _ _ h => h)
    (by
      intro pre a post hp b hb h1 h2 h3
      right
      have hbq : b ∈ (((ais.drop (atomArgs atom).length).filter fun a => a.node.isFn || a.node.isEfn).reverse) := by
        rw [List.mem_reverse, List.mem_filter, hdrop]
        exact ⟨⟨hb, h2⟩, by simpa using h3⟩
      rw [hq] at hp
      rcases List.append_eq_append_iff.1 hp with ⟨m, hm, _⟩ | ⟨m, hm, hm'⟩
      · rw [hm]; exact List.mem_append_left _ hbq
      · cases m with
        | nil => simp only [List.append_nil] at hm; rw [← hm]; exact hbq
        | cons c m =>
          simp only [List.cons_append, List.cons.injEq] at hm'
          obtain ⟨rfl, _⟩ := hm'
          -- the structures come in decreasing order
          have hs : (((ais.drop (atomArgs atom).length).filter fun a => a.node.isFn || a.node.isEfn).reverse).Pairwise
              fun a b => b.id < a.id := by
            rw [List.pairwise_reverse]
            exact ((hsort.sublist (List.drop_sublist ..)).sublist List.filter_sublist)
          rw [hm] at hs hbq
          rcases List.mem_append.1 hbq with h | h
          · exact h
          · rcases List.mem_cons.1 h with rfl | h
            · omega
            · have := (List.pairwise_append.1 hs).2.1
              have := (List.pairwise_cons.1 this).1 b h
              omega)
    (by
      rw [hq, List.nodup_append]
      have hnd : ais.Nodup := hsort.imp fun {a b} h => by rintro rfl; omega
      refine ⟨?_, hnd.sublist (List.take_sublist ..), ?_⟩
      · rw [List.nodup_reverse]
        exact (hnd.sublist (List.drop_sublist ..)).sublist List.filter_sublist
      · intro a ha b hb hab
        subst hab
        rw [List.mem_reverse, List.mem_filter, hdrop] at ha
        rw [htake] at hb
        omega)
    (by
      intro pre a post hp c hc hid h
      have h := h.resolve_left (fun h => h)
      rw [hq] at hp
      have hnin : c ∉ ((ais.drop (atomArgs atom).length).filter fun a => a.node.isFn || a.node.isEfn).reverse := by
        rw [List.mem_reverse, List.mem_filter, hdrop]
        omega
      rcases List.append_eq_append_iff.1 hp with ⟨m, hm, hm'⟩ | ⟨m, hm, _⟩
      · -- both are arguments
        have hs := hsort.sublist (List.take_sublist (atomArgs atom).length ais)
        have hat : a ∈ ais.take (atomArgs atom).length := by rw [hm']; simp
        rw [hm] at h
        have hcm := (List.mem_append.1 h).resolve_left hnin
        rw [hm', List.pairwise_append] at hs
        exact ⟨((htake a).1 hat).2, hs.2.2 c hcm a (by simp)⟩
      · exact absurd (hm ▸ List.mem_append_left m h) hnin)
  refine ⟨S', ?_, i1.vy, c1.pl, c1.grow, ?_⟩
  rotate_left
  · intro v r hy hx hge hp
    obtain ⟨h1, h2⟩ := i1.vr v r hy (liveOf_some.2 ⟨hx, fun a _ hid _ => by omega⟩)
    cases hh : S'.has (.x r) with
    | true => exact h1 hh
    | false => exact absurd hp (h2 hh)
  unfold symAtom
  rw [e1, Option.bind_some, if_pos]
  rw [holdsArgs_iff]
  intro j n hj
  obtain ⟨a, ha, hn⟩ := R.args j n hj
  have hid := R.id j a ha
  have hlt : j < (atomArgs atom).length := (List.getElem?_eq_some_iff.1 hj).1
  have := i1.arg a (List.mem_of_getElem? ha) (by omega)
    (.inr ((hmemq a).2 ⟨List.mem_of_getElem? ha, .inl (by omega)⟩))
  rw [Nat.zero_add, ← hid, this, hn]

/-- The replay succeeds for an atom that has its registers for itself. -/
theorem symAtom_ok (R : Regs atom nr ais xOf) (yinj : ∀ n m y, yOf n = some y → yOf m = some y → n = m) {S : Sym}
    (hx : ∀ r, S.has (.x r) = false) (hy : ∀ v y, yOf v = some y → (S.has (.y y) = true ↔ v ∈ S.pl))
    (hv : ∀ v, yOf v = none → itemVar ais v → v ∉ S.pl) :
    ∃ S', symAtom yOf nr atom ais S = some S' ∧
      (∀ v y, yOf v = some y → (S'.has (.y y) = true ↔ v ∈ S'.pl)) ∧
      (∀ v, v ∈ S'.pl → v ∈ S.pl ∨ itemVar ais v) ∧ (∀ v, v ∈ S.pl → v ∈ S'.pl) ∧
      (∀ v r, yOf v = none → xOf v = some r → v ∈ S'.pl → S'.x r = some (.var v)) := by
  obtain ⟨S', h1, h2, h3, h4, h5⟩ := symAtom_gen (R.q yOf) yinj (S := S)
    { st := fun _ _ _ _ h => h.elim
      vr := fun v r h1 h2 => by
        rw [if_pos h1] at h2
        exact ⟨fun h => absurd (hx r) (by rw [h]; simp), fun _ => hv v h1 (R.varMem v r h2)⟩
      vy := hy
      arg := fun _ _ _ h => h.elim
      live := fun _ _ _ h => h.elim }
  exact ⟨S', h1, h2, h3, h4, fun v r h hr => h5 v r h (by rw [if_pos h]; exact hr) (R.varR v r hr).1⟩

end
end PBfs
