import Verif.Model.Machine
import Verif.Proof.Heap
/-! # Meaning of heaps

A heap is read as a system of equations between its addresses; `Mod B H σ` says that the assignment
`σ` of values to addresses solves it.  `B` is any interpretation of constants, integers and functors.
-/
namespace PBfs

/-- An interpretation of the symbols, as they appear in heap cells. -/
structure IAlg (D : Type) where
  cons : Int → D
  int : Int → D
  fn : Int → List D → D
  efn : Nat → List D → D

/-- The values of the `n` addresses from `a` on. -/
def argVals {D} (σ : Nat → D) (a : Nat) : Nat → List D
  | 0 => []
  | n + 1 => σ a :: argVals σ (a + 1) n

/-- The equation that the cell `c` at address `a` stands for. -/
def CellEq {D} (B : IAlg D) (σ : Nat → D) (a : Nat) : Cell → Prop
  | .cons i => σ a = B.cons i
  | .int v => σ a = B.int v
  | .ref b _ => σ a = σ b
  | .str b => σ a = σ b
  | .fn f n => σ a = B.fn f (argVals σ (a + 1) n)
  | .efn f n => σ a = B.efn f (argVals σ (a + 1) n)

/-- `σ` solves all equations of the heap. -/
def Mod {D} (B : IAlg D) (H : HV) (σ : Nat → D) : Prop := ∀ a c, H a = some c → CellEq B σ a c

/-- Different cells are interpreted by different values, for the cells that may occur. -/
structure Free {D} (B : IAlg D) (V : Cell → Prop) : Prop where
  cons_inj : ∀ {i j}, V (.cons i) → V (.cons j) → B.cons i = B.cons j → i = j
  int_inj : ∀ {v w}, B.int v = B.int w → v = w
  fn_inj : ∀ {f g n m as bs}, V (.fn f n) → V (.fn g m) → as.length = n → bs.length = m →
    B.fn f as = B.fn g bs → f = g ∧ as = bs
  efn_inj : ∀ {f g n m as bs}, V (.efn f n) → V (.efn g m) → as.length = n → bs.length = m →
    B.efn f as = B.efn g bs → f = g ∧ as = bs
  cons_int : ∀ {i v}, B.cons i ≠ B.int v
  cons_fn : ∀ {i f as}, B.cons i ≠ B.fn f as
  cons_efn : ∀ {i f as}, B.cons i ≠ B.efn f as
  int_fn : ∀ {v f as}, B.int v ≠ B.fn f as
  int_efn : ∀ {v f as}, B.int v ≠ B.efn f as
  fn_efn : ∀ {f as g bs}, B.fn f as ≠ B.efn g bs

/-- What is used about the set of admissible cells. -/
structure VLaws (V : Cell → Prop) : Prop where
  ref : ∀ a b v, V (.ref a v) → V (.ref b v)
  str : ∀ a, V (.str a)
  fn : ∀ f n m, V (.fn f n) → V (.fn f m) → n = m
  efn : ∀ f n m, V (.efn f n) → V (.efn f m) → n = m

@[simp] theorem argVals_length {D} (σ : Nat → D) (a n) : (argVals σ a n).length = n := by
  induction n generalizing a with
  | zero => rfl
  | succ n ih => simp [argVals, ih]

theorem argVals_congr {D} {σ τ : Nat → D} {a b n} (h : ∀ i, i < n → σ (a + i) = τ (b + i)) :
    argVals σ a n = argVals τ b n := by
  induction n generalizing a b with
  | zero => rfl
  | succ n ih =>
    have h0 := h 0 (by omega)
    simp only [Nat.add_zero] at h0
    rw [argVals, argVals, h0, ih]
    intro i hi
    have := h (i + 1) (by omega)
    rw [show a + 1 + i = a + (i + 1) by omega, show b + 1 + i = b + (i + 1) by omega, this]

theorem argVals_inj {D} {σ τ : Nat → D} {a b n} (h : argVals σ a n = argVals τ b n) :
    ∀ i, i < n → σ (a + i) = τ (b + i) := by
  induction n generalizing a b with
  | zero => intro i hi; omega
  | succ n ih =>
    simp only [argVals, List.cons.injEq] at h
    intro i hi
    rcases i with _ | i
    · simpa using h.1
    · have := ih h.2 i (by omega)
      rw [show a + (i + 1) = a + 1 + i by omega, show b + (i + 1) = b + 1 + i by omega, this]

theorem argVals_iff {D} {σ τ : Nat → D} {a b n} :
    argVals σ a n = argVals τ b n ↔ ∀ i, i < n → σ (a + i) = τ (b + i) :=
  ⟨argVals_inj, argVals_congr⟩

/-- The stack of `unify` as a list of equations. -/
def PairsEq {D} (σ : Nat → D) : List Nat → Prop
  | a :: b :: l => σ a = σ b ∧ PairsEq σ l
  | _ => True

theorem pairsEq_pushArgs {D} (σ : Nat → D) (d1 d2 k pdl) :
    PairsEq σ (pushArgs d1 d2 k pdl) ↔
      (∀ i, i < k → σ (d1 + 1 + i) = σ (d2 + 1 + i)) ∧ PairsEq σ pdl := by
  induction k with
  | zero => simp [pushArgs]
  | succ k ih =>
    simp only [pushArgs, PairsEq, ih]
    constructor
    · rintro ⟨h1, h2, h3⟩
      refine ⟨fun i hi => ?_, h3⟩
      by_cases hik : i = k
      · subst hik
        rw [show d1 + 1 + i = d1 + i + 1 by omega, show d2 + 1 + i = d2 + i + 1 by omega, h1]
      · exact h2 i (by omega)
    · rintro ⟨h1, h2⟩
      refine ⟨?_, fun i hi => h1 i (by omega), h2⟩
      have := h1 k (by omega)
      rw [show d1 + k + 1 = d1 + 1 + k by omega, show d2 + k + 1 = d2 + 1 + k by omega, this]

theorem Mod.deref {D} {B : IAlg D} {H σ a d} (m : Mod B H σ) (h : DerefTo H a d) : σ a = σ d := by
  obtain ⟨n, h⟩ := h
  induction h with
  | val => rfl
  | self => rfl
  | ref h1 _ _ ih => exact (m _ _ h1).trans ih
  | str h1 _ _ ih => exact (m _ _ h1).trans ih

/-- Solutions after pushing a cell. -/
theorem mod_push {D} {B : IAlg D} {H : HV} {σ sz c} (hsz : H sz = none) :
    Mod B (H.upd sz c) σ ↔ Mod B H σ ∧ CellEq B σ sz c := by
  constructor
  · intro m
    refine ⟨fun a c' h => m a c' ?_, m sz c (HV.upd_same ..)⟩
    rw [HV.upd_ne, h]
    rintro rfl; simp_all
  · rintro ⟨m, hc⟩ a c' h
    unfold HV.upd at h
    split at h
    · cases h; subst_vars; exact hc
    · exact m a c' h

/-- Solutions after binding an unbound variable. -/
theorem mod_bind {D} {B : IAlg D} {H : HV} {σ d t v w} (hd : H d = some (.ref d v)) :
    Mod B (H.upd d (.ref t w)) σ ↔ Mod B H σ ∧ σ d = σ t := by
  constructor
  · intro m
    refine ⟨fun a c' h => ?_, m d (.ref t w) (HV.upd_same ..)⟩
    by_cases ha : a = d
    · subst ha; rw [hd] at h; cases h; exact rfl
    · exact m a c' (by rw [HV.upd_ne _ _ ha, h])
  · rintro ⟨m, hc⟩ a c' h
    unfold HV.upd at h
    split at h
    · cases h; subst_vars; exact hc
    · exact m a c' h

/-- `H'` arises from `H` by binding unbound variables. -/
def BindExt (H H' : HV) : Prop :=
  ∀ a, H' a = H a ∨ ∃ v t, H a = some (.ref a v) ∧ H' a = some (.ref t v)

theorem BindExt.refl (H : HV) : BindExt H H := fun _ => .inl rfl

theorem BindExt.trans {H H' H'' : HV} (h : BindExt H H') (h' : BindExt H' H'') : BindExt H H'' := by
  intro a
  rcases h a with h1 | ⟨v, t, h1, h2⟩
  · rcases h' a with h3 | ⟨v', t', h3, h4⟩
    · exact .inl (h3.trans h1)
    · exact .inr ⟨v', t', h1 ▸ h3, h4⟩
  · rcases h' a with h3 | ⟨v', t', h3, h4⟩
    · exact .inr ⟨v, t, h1, h3.trans h2⟩
    · rw [h2] at h3; cases h3
      exact .inr ⟨v, t', h1, h4⟩

theorem BindExt.upd {H : HV} {d t v} (h : H d = some (.ref d v)) : BindExt H (H.upd d (.ref t v)) := by
  intro a
  by_cases ha : a = d
  · subst ha; exact .inr ⟨v, t, h, HV.upd_same ..⟩
  · exact .inl (HV.upd_ne _ _ ha)

theorem Hp.bind_eq {pre : Nat → Option Cell} {h : Hp} {d t v} (hd : h.at? pre d = some (.ref d v)) :
    h.bind pre d t = .ok (h.write d (.ref t v)) := by
  simp [Hp.bind, hd]

/-- One solved step of `unify`, in terms of views. -/
theorem bind_step {V : Cell → Prop} {pre : Nat → Option Cell} {h : Hp} {lim d t v} (VL : VLaws V)
    (g : Good V (h.at? pre) h.size lim) (hd : h.at? pre d = some (.ref d v))
    (ht : DerefTo (h.at? pre) t t) (htd : t ≠ d) :
    ∃ h', h.bind pre d t = .ok h' ∧ h'.size = h.size ∧ h'.start = h.start ∧
      h'.at? pre = HV.upd (h.at? pre) d (.ref t v) ∧
      Good V (h'.at? pre) h'.size lim := by
  have hw := Hp.at_write pre h d (.ref t v) (g.lt hd)
  refine ⟨_, Hp.bind_eq hd, by simp, by simp, hw, ?_⟩
  rw [hw, Hp.size_write]
  exact g.bind hd ht htd (VL.ref _ _ _ (g.valid _ _ hd))

theorem isRef_iff {c : Cell} : c.isRef = true ↔ ∃ a v, c = .ref a v := by
  cases c <;> simp [Cell.isRef]

/-- The result of the unification loop: the new heap is well-formed and its solutions are exactly the
solutions of the old heap that satisfy all equations on the stack; failure means there are none. -/
structure UnifyPost (V : Cell → Prop) (pre : Nat → Option Cell) (h : Hp) (pdl : List Nat)
    (r : UnifyRes) : Prop where
  size : r.hp.size = h.size
  start : r.hp.start = h.start
  good : Good V (r.hp.at? pre) h.size h.size
  ext : BindExt (h.at? pre) (r.hp.at? pre)
  sound : r.ok = true → ∀ {D} (B : IAlg D) σ, Mod B (r.hp.at? pre) σ → Mod B (h.at? pre) σ ∧ PairsEq σ pdl
  complete : ∀ {D} (B : IAlg D) σ, Free B V → Mod B (h.at? pre) σ → PairsEq σ pdl →
    r.ok = true ∧ Mod B (r.hp.at? pre) σ

theorem mem_pushArgs {d1 d2 k pdl x} (h : x ∈ pushArgs d1 d2 k pdl) :
    x ∈ pdl ∨ (∃ i, i < k ∧ (x = d1 + 1 + i ∨ x = d2 + 1 + i)) := by
  induction k with
  | zero => exact .inl h
  | succ k ih =>
    simp only [pushArgs, List.mem_cons] at h
    rcases h with rfl | rfl | h
    · exact .inr ⟨k, by omega, .inr (by omega)⟩
    · exact .inr ⟨k, by omega, .inl (by omega)⟩
    · rcases ih h with h | ⟨i, hi, h⟩
      · exact .inl h
      · exact .inr ⟨i, by omega, h⟩

theorem pushArgs_even {d1 d2 k pdl} (h : pdl.length % 2 = 0) : (pushArgs d1 d2 k pdl).length % 2 = 0 := by
  induction k with
  | zero => exact h
  | succ k ih => simp only [pushArgs, List.length_cons]; omega

variable {V : Cell → Prop} {pre : Nat → Option Cell}

/-- All outcomes of the unification loop on a well-formed heap. -/
theorem unifyLoop_spec (VL : VLaws V) : ∀ (n : Nat) (h : Hp) (pdl : List Nat),
    Good V (h.at? pre) h.size h.size → (∀ x ∈ pdl, x < h.size) → pdl.length % 2 = 0 →
    (∃ r, unifyLoop pre n h pdl = .ok r ∧ UnifyPost V pre h pdl r) ∨
      unifyLoop pre n h pdl = .error .hang := by
  intro n
  induction n with
  | zero =>
    intro h pdl g hlt hev
    match pdl with
    | [] => exact .inl ⟨⟨h, true⟩, by simp [unifyLoop],
        rfl, rfl, g, .refl _, fun _ _ _ _ m => ⟨m, trivial⟩, fun _ _ _ m _ => ⟨rfl, m⟩⟩
    | [x] => simp at hev
    | a :: b :: pdl => right; simp [unifyLoop]
  | succ n ih =>
    intro h pdl g hlt hev
    match pdl with
    | [] => exact .inl ⟨⟨h, true⟩, by simp [unifyLoop],
        rfl, rfl, g, .refl _, fun _ _ _ _ m => ⟨m, trivial⟩, fun _ _ _ m _ => ⟨rfl, m⟩⟩
    | [x] => simp at hev
    | a :: b :: pdl =>
      have hlt' : ∀ x ∈ pdl, x < h.size := fun x hx => hlt x (by simp [hx])
      have hev' : pdl.length % 2 = 0 := by simp only [List.length_cons] at hev; omega
      obtain ⟨d1, e1, hd1⟩ := deref_ok g (hlt a (by simp))
      obtain ⟨d2, e2, hd2⟩ := deref_ok g (hlt b (by simp))
      rw [unifyLoop]
      simp only [e1, e2, ok_bind]
      -- what a recursive call on the rest gives
      have fin : ∀ (h1 : Hp) (pdl1 : List Nat), h1.size = h.size → h1.start = h.start →
          Good V (h1.at? pre) h.size h.size → BindExt (h.at? pre) (h1.at? pre) →
          (∀ x ∈ pdl1, x < h.size) → pdl1.length % 2 = 0 →
          (∀ {D} (B : IAlg D) σ, Mod B (h1.at? pre) σ → PairsEq σ pdl1 →
            Mod B (h.at? pre) σ ∧ PairsEq σ (a :: b :: pdl)) →
          (∀ {D} (B : IAlg D) σ, Free B V → Mod B (h.at? pre) σ → PairsEq σ (a :: b :: pdl) →
            Mod B (h1.at? pre) σ ∧ PairsEq σ pdl1) →
          (∃ r, unifyLoop pre n h1 pdl1 = .ok r ∧ UnifyPost V pre h (a :: b :: pdl) r) ∨
            unifyLoop pre n h1 pdl1 = .error .hang := by
        intro h1 pdl1 hs1 hst1 g1 x1 l1 ev1 s1 c1
        rcases ih h1 pdl1 (by rw [hs1]; exact g1) (by rw [hs1]; exact l1) ev1 with ⟨r, hr, p⟩ | hr
        · refine .inl ⟨r, hr, ⟨by rw [p.size, hs1], by rw [p.start, hst1], by rw [← hs1]; exact p.good,
            x1.trans p.ext, ?_, ?_⟩⟩
          · intro hok D B σ m
            have := p.sound hok B σ m
            exact s1 B σ this.1 this.2
          · intro D B σ fr m pe
            have := c1 B σ fr m pe
            exact p.complete B σ fr this.1 this.2
        · exact .inr hr
      -- failing immediately
      have bad : (∀ {D} (B : IAlg D) σ, Free B V → Mod B (h.at? pre) σ → σ d1 = σ d2 → False) →
          (∃ r, (Except.ok ⟨h, false⟩ : R UnifyRes) = .ok r ∧ UnifyPost V pre h (a :: b :: pdl) r) ∨
            (Except.ok ⟨h, false⟩ : R UnifyRes) = .error .hang := by
        intro hb
        refine .inl ⟨_, rfl, rfl, rfl, g, .refl _, by simp, ?_⟩
        intro D B σ fr m pe
        exact (hb B σ fr m (by rw [← m.deref hd1, ← m.deref hd2]; exact pe.1)).elim
      by_cases hdd : d1 = d2
      · simp only [hdd, if_true]
        refine fin h pdl rfl rfl g (.refl _) hlt' hev' ?_ ?_
        · intro D B σ m pe
          exact ⟨m, by rw [m.deref hd1, m.deref hd2, hdd], pe⟩
        · intro D B σ _ m pe
          exact ⟨m, pe.2⟩
      · simp only [hdd, if_false]
        obtain ⟨c1, hc1⟩ := g.get (hd1.lt g)
        obtain ⟨c2, hc2⟩ := g.get (hd2.lt g)
        simp only [hc1, hc2, orFault_some, ok_bind]
        by_cases hr1 : c1.isRef = true
        · simp only [hr1, if_true]
          obtain ⟨x, v, rfl⟩ := isRef_iff.1 hr1
          have hx : x = d1 := by
            rcases hd1.end_cell.2 with ⟨v', hv'⟩ | ⟨c, hc, hp⟩
            · rw [hc1] at hv'; cases hv'; rfl
            · rw [hc1] at hc; cases hc; simp [Cell.isPtr] at hp
          subst hx
          obtain ⟨h', hb, hs', hst', hv', g'⟩ := bind_step VL g hc1 hd2.end_cell.1 (Ne.symm hdd)
          simp only [hb, ok_bind]
          refine fin h' pdl hs' hst' (by rw [← hs']; simpa [hs'] using g') ?_ hlt' hev' ?_ ?_
          · rw [hv']; exact .upd hc1
          · intro D B σ m pe
            rw [hv', mod_bind hc1] at m
            exact ⟨m.1, by rw [m.1.deref hd1, m.1.deref hd2, m.2], pe⟩
          · intro D B σ _ m pe
            rw [hv', mod_bind hc1]
            exact ⟨⟨m, by rw [← m.deref hd1, ← m.deref hd2]; exact pe.1⟩, pe.2⟩
        · have hr1' : c1.isRef = false := by simpa using hr1
          simp only [hr1', Bool.false_eq_true, if_false]
          by_cases hr2 : c2.isRef = true
          · simp only [hr2, if_true]
            obtain ⟨x, v, rfl⟩ := isRef_iff.1 hr2
            have hx : x = d2 := by
              rcases hd2.end_cell.2 with ⟨v', hv'⟩ | ⟨c, hc, hp⟩
              · rw [hc2] at hv'; cases hv'; rfl
              · rw [hc2] at hc; cases hc; simp [Cell.isPtr] at hp
            subst hx
            obtain ⟨h', hb, hs', hst', hv', g'⟩ := bind_step VL g hc2 hd1.end_cell.1 hdd
            simp only [hb, ok_bind]
            refine fin h' pdl hs' hst' (by rw [← hs']; simpa [hs'] using g') ?_ hlt' hev' ?_ ?_
            · rw [hv']; exact .upd hc2
            · intro D B σ m pe
              rw [hv', mod_bind hc2] at m
              exact ⟨m.1, by rw [m.1.deref hd1, m.1.deref hd2, m.2], pe⟩
            · intro D B σ _ m pe
              rw [hv', mod_bind hc2]
              exact ⟨⟨m, by rw [← m.deref hd1, ← m.deref hd2]; exact pe.1.symm⟩, pe.2⟩
          · have hr2' : c2.isRef = false := by simpa using hr2
            simp only [hr2', Bool.false_eq_true, if_false]
            have np1 : ∀ x, c1 ≠ .str x := by
              rintro x rfl
              rcases hd1.end_cell.2 with ⟨v', hv'⟩ | ⟨c, hc, hp⟩
              · rw [hc1] at hv'; cases hv'
              · rw [hc1] at hc; cases hc; simp [Cell.isPtr] at hp
            have np2 : ∀ x, c2 ≠ .str x := by
              rintro x rfl
              rcases hd2.end_cell.2 with ⟨v', hv'⟩ | ⟨c, hc, hp⟩
              · rw [hc2] at hv'; cases hv'
              · rw [hc2] at hc; cases hc; simp [Cell.isPtr] at hp
            cases c1 with
            | ref => simp [Cell.isRef] at hr1'
            | str x => exact absurd rfl (np1 x)
            | cons i =>
              cases c2 with
              | ref => simp [Cell.isRef] at hr2'
              | str x => exact absurd rfl (np2 x)
              | cons j =>
                by_cases hij : i = j
                · subst hij
                  simp only [if_true]
                  refine fin h pdl rfl rfl g (.refl _) hlt' hev' ?_ ?_
                  · intro D B σ m pe
                    refine ⟨m, ?_, pe⟩
                    rw [m.deref hd1, m.deref hd2, m _ _ hc1, m _ _ hc2]
                  · intro D B σ _ m pe
                    exact ⟨m, pe.2⟩
                · simp only [hij, if_false]
                  refine bad fun B σ fr m e => hij ?_
                  have e1 := m _ _ hc1
                  have e2 := m _ _ hc2
                  exact fr.cons_inj (g.valid _ _ hc1) (g.valid _ _ hc2) (by rw [← e1, ← e2, e])
              | int => exact bad fun B σ fr m e => fr.cons_int ((m _ _ hc1).symm.trans (e.trans (m _ _ hc2)))
              | fn => exact bad fun B σ fr m e => fr.cons_fn ((m _ _ hc1).symm.trans (e.trans (m _ _ hc2)))
              | efn => exact bad fun B σ fr m e => fr.cons_efn ((m _ _ hc1).symm.trans (e.trans (m _ _ hc2)))
            | int i =>
              cases c2 with
              | ref => simp [Cell.isRef] at hr2'
              | str x => exact absurd rfl (np2 x)
              | int j =>
                by_cases hij : i = j
                · subst hij
                  simp only [if_true]
                  refine fin h pdl rfl rfl g (.refl _) hlt' hev' ?_ ?_
                  · intro D B σ m pe
                    refine ⟨m, ?_, pe⟩
                    rw [m.deref hd1, m.deref hd2, m _ _ hc1, m _ _ hc2]
                  · intro D B σ _ m pe
                    exact ⟨m, pe.2⟩
                · simp only [hij, if_false]
                  refine bad fun B σ fr m e => hij ?_
                  have e1 := m _ _ hc1
                  have e2 := m _ _ hc2
                  exact fr.int_inj (by rw [← e1, ← e2, e])
              | cons => exact bad fun B σ fr m e => fr.cons_int ((m _ _ hc2).symm.trans (e.symm.trans (m _ _ hc1)))
              | fn => exact bad fun B σ fr m e => fr.int_fn ((m _ _ hc1).symm.trans (e.trans (m _ _ hc2)))
              | efn => exact bad fun B σ fr m e => fr.int_efn ((m _ _ hc1).symm.trans (e.trans (m _ _ hc2)))
            | fn f k =>
              cases c2 with
              | ref => simp [Cell.isRef] at hr2'
              | str x => exact absurd rfl (np2 x)
              | fn f' k' =>
                by_cases hij : f = f'
                · subst hij
                  simp only [if_true]
                  have hkk : k = k' := VL.fn _ _ _ (g.valid _ _ hc1) (g.valid _ _ hc2)
                  subst hkk
                  have b1 := g.fnArgs _ _ _ hc1
                  have b2 := g.fnArgs _ _ _ hc2
                  refine fin h (pushArgs d1 d2 k pdl) rfl rfl g (.refl _) ?_ (pushArgs_even hev') ?_ ?_
                  · intro x hx
                    rcases mem_pushArgs hx with hx | ⟨i, hi, rfl | rfl⟩
                    · exact hlt' x hx
                    · omega
                    · omega
                  · intro D B σ m pe
                    rw [pairsEq_pushArgs] at pe
                    refine ⟨m, ?_, pe.2⟩
                    rw [m.deref hd1, m.deref hd2, m _ _ hc1, m _ _ hc2, argVals_congr pe.1]
                  · intro D B σ fr m pe
                    refine ⟨m, ?_⟩
                    rw [pairsEq_pushArgs]
                    refine ⟨?_, pe.2⟩
                    have e1 := m _ _ hc1
                    have e2 := m _ _ hc2
                    have := fr.fn_inj (g.valid _ _ hc1) (g.valid _ _ hc2) (argVals_length ..)
                      (argVals_length ..)
                      (e1.symm.trans (((m.deref hd1).symm.trans (pe.1.trans (m.deref hd2))).trans e2))
                    exact argVals_inj this.2
                · simp only [hij, if_false]
                  refine bad fun B σ fr m e => hij ?_
                  have e1 := m _ _ hc1
                  have e2 := m _ _ hc2
                  exact (fr.fn_inj (g.valid _ _ hc1) (g.valid _ _ hc2) (argVals_length ..)
                    (argVals_length ..) (e1.symm.trans (e.trans e2))).1
              | cons => exact bad fun B σ fr m e => fr.cons_fn ((m _ _ hc2).symm.trans (e.symm.trans (m _ _ hc1)))
              | int => exact bad fun B σ fr m e => fr.int_fn ((m _ _ hc2).symm.trans (e.symm.trans (m _ _ hc1)))
              | efn => exact bad fun B σ fr m e => fr.fn_efn ((m _ _ hc1).symm.trans (e.trans (m _ _ hc2)))
            | efn f k =>
              cases c2 with
              | ref => simp [Cell.isRef] at hr2'
              | str x => exact absurd rfl (np2 x)
              | efn f' k' =>
                by_cases hij : f = f'
                · subst hij
                  simp only [if_true]
                  have hkk : k = k' := VL.efn _ _ _ (g.valid _ _ hc1) (g.valid _ _ hc2)
                  subst hkk
                  have b1 := g.efnArgs _ _ _ hc1
                  have b2 := g.efnArgs _ _ _ hc2
                  refine fin h (pushArgs d1 d2 k pdl) rfl rfl g (.refl _) ?_ (pushArgs_even hev') ?_ ?_
                  · intro x hx
                    rcases mem_pushArgs hx with hx | ⟨i, hi, rfl | rfl⟩
                    · exact hlt' x hx
                    · omega
                    · omega
                  · intro D B σ m pe
                    rw [pairsEq_pushArgs] at pe
                    refine ⟨m, ?_, pe.2⟩
                    rw [m.deref hd1, m.deref hd2, m _ _ hc1, m _ _ hc2, argVals_congr pe.1]
                  · intro D B σ fr m pe
                    refine ⟨m, ?_⟩
                    rw [pairsEq_pushArgs]
                    refine ⟨?_, pe.2⟩
                    have e1 := m _ _ hc1
                    have e2 := m _ _ hc2
                    have := fr.efn_inj (g.valid _ _ hc1) (g.valid _ _ hc2) (argVals_length ..)
                      (argVals_length ..)
                      (e1.symm.trans (((m.deref hd1).symm.trans (pe.1.trans (m.deref hd2))).trans e2))
                    exact argVals_inj this.2
                · simp only [hij, if_false]
                  refine bad fun B σ fr m e => hij ?_
                  have e1 := m _ _ hc1
                  have e2 := m _ _ hc2
                  exact (fr.efn_inj (g.valid _ _ hc1) (g.valid _ _ hc2) (argVals_length ..)
                    (argVals_length ..) (e1.symm.trans (e.trans e2))).1
              | cons => exact bad fun B σ fr m e => fr.cons_efn ((m _ _ hc2).symm.trans (e.symm.trans (m _ _ hc1)))
              | int => exact bad fun B σ fr m e => fr.int_efn ((m _ _ hc2).symm.trans (e.symm.trans (m _ _ hc1)))
              | fn => exact bad fun B σ fr m e => fr.fn_efn ((m _ _ hc2).symm.trans (e.symm.trans (m _ _ hc1)))

/-- Outcomes of `unify`. -/
theorem unify_spec (VL : VLaws V) {n : Nat} {h : Hp} {a b : Nat}
    (g : Good V (h.at? pre) h.size h.size) (ha : a < h.size) (hb : b < h.size) :
    (∃ r, unify pre n h a b = .ok r ∧ UnifyPost V pre h [a, b] r) ∨ unify pre n h a b = .error .hang :=
  unifyLoop_spec VL n h [a, b] g (by simp [ha, hb]) (by simp)

end PBfs
