import Verif.Spec.Terms
import Verif.Proof.Sem
import Verif.Model.Machine
/-! # Terms in heaps and structural comparison -/
namespace PBfs

theorem Reads.of_derefIn {H : HV} {n a d t} (h : DerefIn H n a d) : Reads H a t ↔ Reads H d t := by
  induction h with
  | val => rfl
  | self => rfl
  | ref h1 h2 _ ih =>
    rw [← ih]
    constructor
    · intro r
      cases r with
      | ref h => rw [h1] at h; cases h; assumption
      | var h => rw [h1] at h; cases h; exact absurd rfl h2
      | str h => rw [h1] at h; cases h
      | cons h => rw [h1] at h; cases h
      | int h => rw [h1] at h; cases h
      | fn h => rw [h1] at h; cases h
      | efn h => rw [h1] at h; cases h
    · exact .ref h1 h2
  | str h1 h2 _ ih =>
    rw [← ih]
    constructor
    · intro r
      cases r with
      | ref h => rw [h1] at h; cases h
      | var h => rw [h1] at h; cases h
      | str h => rw [h1] at h; cases h; assumption
      | cons h => rw [h1] at h; cases h
      | int h => rw [h1] at h; cases h
      | fn h => rw [h1] at h; cases h
      | efn h => rw [h1] at h; cases h
    · exact .str h1

theorem Reads.deref {H : HV} {a d t} (h : DerefTo H a d) : Reads H a t ↔ Reads H d t := by
  obtain ⟨n, h⟩ := h
  exact of_derefIn h

theorem list_ext_of {α} {l l' : List α} (hl : l.length = l'.length) (h : ∀ (i : Nat) x y, l[i]? = some x → l'[i]? = some y → x = y) : l = l' := by
  refine List.ext_getElem? fun i => ?_
  cases h1 : l[i]? with
  | none => rw [List.getElem?_eq_none_iff] at h1; rw [List.getElem?_eq_none (by omega)]
  | some x =>
    have := (List.getElem?_eq_some_iff.1 h1).1
    cases h2 : l'[i]? with
    | none => rw [List.getElem?_eq_none_iff] at h2; omega
    | some y => rw [h i x y h1 h2]

/-- An address stands for at most one term. -/
theorem Reads.det {H : HV} {a s t} (h : Reads H a s) (h' : Reads H a t) : s = t := by
  induction h generalizing t with
  | ref h1 h2 _ ih =>
    cases h' with
    | ref h => rw [h1] at h; cases h; apply ih; assumption
    | var h => rw [h1] at h; cases h; exact absurd rfl h2
    | _ h => rw [h1] at h; cases h
  | str h1 _ ih =>
    cases h' with
    | str h => rw [h1] at h; cases h; apply ih; assumption
    | _ h => rw [h1] at h; cases h
  | var h1 =>
    cases h' with
    | var h => rfl
    | ref h h2 => rw [h1] at h; cases h; exact absurd rfl h2
    | _ h => rw [h1] at h; cases h
  | cons h1 =>
    cases h' with
    | cons h => rw [h1] at h; cases h; rfl
    | _ h => rw [h1] at h; cases h
  | int h1 =>
    cases h' with
    | int h => rw [h1] at h; cases h; rfl
    | _ h => rw [h1] at h; cases h
  | fn h1 h2 _ ih =>
    cases h' with
    | fn h l r =>
      rw [h1] at h; cases h
      rw [list_ext_of (h2.trans l.symm) fun i x y hx hy => ih i x hx (r i y hy)]
    | _ h => rw [h1] at h; cases h
  | efn h1 h2 _ ih =>
    cases h' with
    | efn h l r =>
      rw [h1] at h; cases h
      rw [list_ext_of (h2.trans l.symm) fun i x y hx hy => ih i x hx (r i y hy)]
    | _ h => rw [h1] at h; cases h

mutual
def OTerm.depth : OTerm → Nat
  | .fn _ ts => OTerm.depths ts + 1
  | .efn _ ts => OTerm.depths ts + 1
  | _ => 0
def OTerm.depths : List OTerm → Nat
  | [] => 0
  | t :: ts => max t.depth (OTerm.depths ts)
end

theorem OTerm.depth_le {ts : List OTerm} {i : Nat} {t} (h : ts[i]? = some t) : t.depth ≤ OTerm.depths ts := by
  induction ts generalizing i with
  | nil => simp at h
  | cons s ts ih =>
    cases i with
    | zero => simp at h; subst h; simp only [OTerm.depths]; omega
    | succ i => have := ih (i := i) (by simpa using h); simp only [OTerm.depths]; omega

section
variable {V : Cell → Prop} {pre : Nat → Option Cell} {h : Hp}

theorem functorEquals_ok {eq : Nat → Nat → R Bool} {l r : Nat} : ∀ {k i : Nat} {b},
    functorEquals eq l r i k = .ok b → ∃ m ≤ k, (∀ j, j < m → eq (l + 1 + (i + j)) (r + 1 + (i + j)) = .ok true) ∧
      (if b then m = k else m < k ∧ eq (l + 1 + (i + m)) (r + 1 + (i + m)) = .ok false) := by
  intro k
  induction k with
  | zero =>
    intro i b hb
    simp only [functorEquals, pure_ok] at hb
    subst hb
    exact ⟨0, Nat.le_refl _, by intro j hj; omega, by simp⟩
  | succ k ih =>
    intro i b hb
    simp only [functorEquals, bind_ok] at hb
    obtain ⟨c, hc, hb⟩ := hb
    cases c with
    | false =>
      simp only [Bool.false_eq_true, if_false, pure_ok] at hb
      subst hb
      exact ⟨0, by omega, by intro j hj; omega, by simp only [Bool.false_eq_true, if_false]; exact ⟨by omega, hc⟩⟩
    | true =>
      simp only [if_true] at hb
      obtain ⟨m, h1, h2, h3⟩ := ih hb
      refine ⟨m + 1, by omega, ?_, ?_⟩
      · intro j hj
        cases j with
        | zero => exact hc
        | succ j => have := h2 j (by omega); rwa [show i + (j + 1) = i + 1 + j by omega]
      · cases b with
        | true => simp only [if_true] at h3 ⊢; omega
        | false =>
          simp only [Bool.false_eq_true, if_false] at h3 ⊢
          refine ⟨by omega, ?_⟩
          rw [show i + (m + 1) = i + 1 + m by omega]; exact h3.2

theorem functorEquals_total {eq : Nat → Nat → R Bool} {l r : Nat} : ∀ {k i : Nat},
    (∀ j, j < k → (∃ b, eq (l + 1 + (i + j)) (r + 1 + (i + j)) = .ok b) ∨ eq (l + 1 + (i + j)) (r + 1 + (i + j)) = .error .hang) →
    (∃ b, functorEquals eq l r i k = .ok b) ∨ functorEquals eq l r i k = .error .hang := by
  intro k
  induction k with
  | zero => intro i _; exact .inl ⟨true, rfl⟩
  | succ k ih =>
    intro i hj
    simp only [functorEquals]
    rcases hj 0 (by omega) with ⟨b, hb⟩ | hb
    · simp only [Nat.add_zero] at hb
      rw [hb]
      simp only [ok_bind]
      split
      · exact ih fun j hj' => by have := hj (j + 1) (by omega); rwa [show i + (j + 1) = i + 1 + j by omega] at this
      · exact .inl ⟨false, rfl⟩
    · simp only [Nat.add_zero] at hb
      rw [hb]; exact .inr rfl

theorem functorEquals_done {eq : Nat → Nat → R Bool} {l r : Nat} : ∀ {k i : Nat},
    (∀ j, j < k → ∃ b, eq (l + 1 + (i + j)) (r + 1 + (i + j)) = .ok b) →
    ∃ b, functorEquals eq l r i k = .ok b := by
  intro k
  induction k with
  | zero => intro i _; exact ⟨true, rfl⟩
  | succ k ih =>
    intro i hj
    simp only [functorEquals]
    obtain ⟨b, hb⟩ := hj 0 (by omega)
    simp only [Nat.add_zero] at hb
    rw [hb]
    simp only [ok_bind]
    split
    · exact ih fun j hj' => by have := hj (j + 1) (by omega); rwa [show i + (j + 1) = i + 1 + j by omega] at this
    · exact ⟨false, rfl⟩

/-- The comparison after following the chains. -/
theorem heapRegEquals_deref {lim} (g : Good V (h.at? pre) h.size lim) {n a b} (ha : a < h.size) (hb : b < h.size) :
    ∃ d1 d2 c1 c2, DerefTo (h.at? pre) a d1 ∧ DerefTo (h.at? pre) b d2 ∧ h.at? pre d1 = some c1 ∧ h.at? pre d2 = some c2 ∧
      heapRegEquals pre h (n + 1) a b =
        (if c1 ≠ c2 then pure false
        else match c1 with
          | .ref _ _ => pure (d1 == d2)
          | .fn _ k => functorEquals (heapRegEquals pre h n) d1 d2 0 k
          | .efn _ k => functorEquals (heapRegEquals pre h n) d1 d2 0 k
          | _ => pure true) := by
  obtain ⟨d1, e1, t1⟩ := deref_ok g ha
  obtain ⟨d2, e2, t2⟩ := deref_ok g hb
  obtain ⟨c1, h1⟩ := g.get (t1.lt g)
  obtain ⟨c2, h2⟩ := g.get (t2.lt g)
  refine ⟨d1, d2, c1, c2, t1, t2, h1, h2, ?_⟩
  rw [heapRegEquals]
  simp only [e1, e2, h1, h2, orFault_some, ok_bind]
  split
  · rfl
  · cases c1 <;> rfl

/-- The only possible fault is an endless recursion. -/
theorem heapRegEquals_total (g : Good V (h.at? pre) h.size h.size) : ∀ n {a b}, a < h.size → b < h.size →
    (∃ r, heapRegEquals pre h n a b = .ok r) ∨ heapRegEquals pre h n a b = .error .hang := by
  intro n
  induction n with
  | zero => intro a b _ _; exact .inr rfl
  | succ n ih =>
    intro a b ha hb
    obtain ⟨d1, d2, c1, c2, t1, t2, h1, h2, e⟩ := heapRegEquals_deref g (n := n) ha hb
    rw [e]
    split
    · exact .inl ⟨_, rfl⟩
    · rename_i hc
      have hc : c1 = c2 := by simpa using hc
      subst hc
      split
      · exact .inl ⟨_, rfl⟩
      · have l1 := g.fnArgs _ _ _ h1
        have l2 := g.fnArgs _ _ _ h2
        exact functorEquals_total fun j hj => ih (by omega) (by omega)
      · have l1 := g.efnArgs _ _ _ h1
        have l2 := g.efnArgs _ _ _ h2
        exact functorEquals_total fun j hj => ih (by omega) (by omega)
      · exact .inl ⟨_, rfl⟩

theorem exists_list {α} {P : Nat → α → Prop} : ∀ {k : Nat}, (∀ j, j < k → ∃ x, P j x) →
    ∃ l : List α, l.length = k ∧ ∀ (i : Nat) x, l[i]? = some x → P i x := by
  intro k
  induction k with
  | zero => intro _; exact ⟨[], rfl, by simp⟩
  | succ k ih =>
    intro h
    obtain ⟨l, h1, h2⟩ := ih fun j hj => h j (by omega)
    obtain ⟨x, hx⟩ := h k (by omega)
    refine ⟨l ++ [x], by simp [h1], ?_⟩
    intro i y hy
    by_cases hi : i < k
    · rw [List.getElem?_append_left (by omega)] at hy; exact h2 i y hy
    · rw [List.getElem?_append_right (by omega), List.getElem?_singleton] at hy
      split at hy
      · cases hy
        have : i = k := by omega
        subst this; exact hx
      · cases hy

/-- Comparison is structural identity. -/
theorem heapRegEquals_iff (g : Good V (h.at? pre) h.size h.size) : ∀ n {a b r}, a < h.size → b < h.size →
    heapRegEquals pre h n a b = .ok r → (r = true ↔ ∃ t, Reads (h.at? pre) a t ∧ Reads (h.at? pre) b t) := by
  intro n
  induction n with
  | zero => intro a b r _ _ h; cases h
  | succ n ih =>
    intro a b r ha hb hr
    obtain ⟨d1, d2, c1, c2, t1, t2, h1, h2, e⟩ := heapRegEquals_deref g (n := n) ha hb
    rw [e] at hr
    have red : (∃ t, Reads (h.at? pre) a t ∧ Reads (h.at? pre) b t) ↔ ∃ t, Reads (h.at? pre) d1 t ∧ Reads (h.at? pre) d2 t := by
      constructor <;> rintro ⟨t, x, y⟩
      · exact ⟨t, (Reads.deref t1).1 x, (Reads.deref t2).1 y⟩
      · exact ⟨t, (Reads.deref t1).2 x, (Reads.deref t2).2 y⟩
    rw [red]
    have e1 := t1.end_cell.2
    have e2 := t2.end_cell.2
    rw [h1] at e1
    rw [h2] at e2
    have args : ∀ {k} (mk : List OTerm → OTerm), (∀ ts ts', mk ts = mk ts' → ts = ts') →
        (∀ t, Reads (h.at? pre) d1 t ↔ ∃ ts, t = mk ts ∧ ts.length = k ∧ ∀ (i : Nat) s, ts[i]? = some s → Reads (h.at? pre) (d1 + 1 + i) s) →
        (∀ t, Reads (h.at? pre) d2 t ↔ ∃ ts, t = mk ts ∧ ts.length = k ∧ ∀ (i : Nat) s, ts[i]? = some s → Reads (h.at? pre) (d2 + 1 + i) s) →
        d1 + k < h.size → d2 + k < h.size → functorEquals (heapRegEquals pre h n) d1 d2 0 k = .ok r →
        (r = true ↔ ∃ t, Reads (h.at? pre) d1 t ∧ Reads (h.at? pre) d2 t) := by
      intro k mk inj q1 q2 l1 l2 hr
      obtain ⟨m, hm, m1, m2⟩ := functorEquals_ok hr
      cases r with
      | true =>
        simp only [if_true] at m2
        subst m2
        obtain ⟨ts, s1, s2⟩ := exists_list (k := m) (P := fun j t => Reads (h.at? pre) (d1 + 1 + j) t ∧ Reads (h.at? pre) (d2 + 1 + j) t)
          fun j hj => (ih (by omega) (by omega) (by have := m1 j hj; simpa using this)).1 rfl
        refine ⟨fun _ => ⟨mk ts, (q1 _).2 ⟨ts, rfl, s1, fun i s hs => (s2 i s hs).1⟩, (q2 _).2 ⟨ts, rfl, s1, fun i s hs => (s2 i s hs).2⟩⟩, fun _ => rfl⟩
      | false =>
        simp only [Bool.false_eq_true, if_false] at m2
        refine ⟨by simp, ?_⟩
        rintro ⟨t, x, y⟩
        obtain ⟨ts, rfl, x1, x2⟩ := (q1 _).1 x
        obtain ⟨ts', e, y1, y2⟩ := (q2 _).1 y
        cases inj _ _ e
        obtain ⟨s, hs⟩ : ∃ s, ts[m]? = some s := ⟨_, List.getElem?_eq_getElem (by omega)⟩
        have := (ih (a := d1 + 1 + m) (b := d2 + 1 + m) (by omega) (by omega) (by simpa using m2.2)).2 ⟨s, x2 m s hs, y2 m s hs⟩
        cases this
    split at hr
    · rename_i hne
      simp only [pure_ok] at hr
      subst hr
      refine ⟨by simp, ?_⟩
      rintro ⟨t, x, y⟩
      exfalso
      rcases e1 with ⟨v, e1⟩ | ⟨c, e1, p1⟩
      · cases e1
        rcases e2 with ⟨w, e2⟩ | ⟨c, e2, p2⟩
        · cases e2
          have := (Reads.var h1).det x
          have := (Reads.var h2).det y
          subst this
          cases ‹OTerm.var d1 = _›
          rw [h1] at h2; cases h2; exact hne rfl
        · cases e2
          have := (Reads.var h1).det x
          subst this
          cases y with
          | ref h' => rw [h2] at h'; cases h'; cases p2
          | var h' => rw [h2] at h'; cases h'; cases p2
          | str h' => rw [h2] at h'; cases h'; cases p2
      · cases e1
        cases x with
        | ref h' => rw [h1] at h'; cases h'; cases p1
        | var h' => rw [h1] at h'; cases h'; cases p1
        | str h' => rw [h1] at h'; cases h'; cases p1
        | cons h' =>
          rw [h1] at h'; cases h'
          cases y with
          | cons h' => rw [h2] at h'; cases h'; exact hne rfl
          | ref h' h'' => rcases e2 with ⟨v, e2⟩ | ⟨c, e2, p2⟩ <;> (cases e2; rw [h2] at h'; cases h'); exact h'' rfl; cases p2
          | str h' => rcases e2 with ⟨v, e2⟩ | ⟨c, e2, p2⟩ <;> (cases e2; rw [h2] at h'; cases h'); cases p2
        | int h' =>
          rw [h1] at h'; cases h'
          cases y with
          | int h' => rw [h2] at h'; cases h'; exact hne rfl
          | ref h' h'' => rcases e2 with ⟨v, e2⟩ | ⟨c, e2, p2⟩ <;> (cases e2; rw [h2] at h'; cases h'); exact h'' rfl; cases p2
          | str h' => rcases e2 with ⟨v, e2⟩ | ⟨c, e2, p2⟩ <;> (cases e2; rw [h2] at h'; cases h'); cases p2
        | fn h' l =>
          rw [h1] at h'; cases h'
          cases y with
          | fn h' l' => rw [h2] at h'; cases h'; rw [l] at l'; subst l'; exact hne rfl
          | ref h' h'' => rcases e2 with ⟨v, e2⟩ | ⟨c, e2, p2⟩ <;> (cases e2; rw [h2] at h'; cases h'); exact h'' rfl; cases p2
          | str h' => rcases e2 with ⟨v, e2⟩ | ⟨c, e2, p2⟩ <;> (cases e2; rw [h2] at h'; cases h'); cases p2
        | efn h' l =>
          rw [h1] at h'; cases h'
          cases y with
          | efn h' l' => rw [h2] at h'; cases h'; rw [l] at l'; subst l'; exact hne rfl
          | ref h' h'' => rcases e2 with ⟨v, e2⟩ | ⟨c, e2, p2⟩ <;> (cases e2; rw [h2] at h'; cases h'); exact h'' rfl; cases p2
          | str h' => rcases e2 with ⟨v, e2⟩ | ⟨c, e2, p2⟩ <;> (cases e2; rw [h2] at h'; cases h'); cases p2
    · rename_i hc
      have hc : c1 = c2 := by simpa using hc
      subst hc
      cases c1 with
      | ref x v =>
        simp only [pure_ok] at hr
        subst hr
        rcases e1 with ⟨w, e1⟩ | ⟨c, e1, p1⟩
        · cases e1
          rcases e2 with ⟨w, e2⟩ | ⟨c, e2, p1⟩
          · cases e2
            exact ⟨fun _ => ⟨_, .var h1, .var h1⟩, fun _ => by simp⟩
          · cases e2; cases p1
        · cases e1; cases p1
      | str x =>
        rcases e1 with ⟨w, e1⟩ | ⟨c, e1, p1⟩
        · cases e1
        · cases e1; cases p1
      | cons i =>
        simp only [pure_ok] at hr; subst hr
        exact ⟨fun _ => ⟨_, .cons h1, .cons h2⟩, fun _ => rfl⟩
      | int i =>
        simp only [pure_ok] at hr; subst hr
        exact ⟨fun _ => ⟨_, .int h1, .int h2⟩, fun _ => rfl⟩
      | fn f k =>
        have q : ∀ d, h.at? pre d = some (.fn f k) → ∀ t, Reads (h.at? pre) d t ↔ ∃ ts, t = .fn f ts ∧ ts.length = k ∧ ∀ (i : Nat) s, ts[i]? = some s → Reads (h.at? pre) (d + 1 + i) s := by
          intro d hd t
          constructor
          · intro x
            cases x with
            | fn h' l r => rw [hd] at h'; cases h'; exact ⟨_, rfl, l, r⟩
            | _ h' => rw [hd] at h'; cases h'
          · rintro ⟨ts, rfl, l, r⟩; exact .fn hd l r
        exact args (.fn f) (fun _ _ e => by cases e; rfl) (q _ h1) (q _ h2) (g.fnArgs _ _ _ h1) (g.fnArgs _ _ _ h2) hr
      | efn f k =>
        have q : ∀ d, h.at? pre d = some (.efn f k) → ∀ t, Reads (h.at? pre) d t ↔ ∃ ts, t = .efn f ts ∧ ts.length = k ∧ ∀ (i : Nat) s, ts[i]? = some s → Reads (h.at? pre) (d + 1 + i) s := by
          intro d hd t
          constructor
          · intro x
            cases x with
            | efn h' l r => rw [hd] at h'; cases h'; exact ⟨_, rfl, l, r⟩
            | _ h' => rw [hd] at h'; cases h'
          · rintro ⟨ts, rfl, l, r⟩; exact .efn hd l r
        exact args (.efn f) (fun _ _ e => by cases e; rfl) (q _ h1) (q _ h2) (g.efnArgs _ _ _ h1) (g.efnArgs _ _ _ h2) hr

/-- Finite terms can be compared. -/
theorem heapRegEquals_finite (g : Good V (h.at? pre) h.size h.size) : ∀ n {a b s}, a < h.size → b < h.size →
    Reads (h.at? pre) a s → s.depth < n → ∃ r, heapRegEquals pre h n a b = .ok r := by
  intro n
  induction n with
  | zero => intro a b s _ _ _ h; omega
  | succ n ih =>
    intro a b s ha hb hs hd
    obtain ⟨d1, d2, c1, c2, t1, t2, h1, h2, e⟩ := heapRegEquals_deref g (n := n) ha hb
    rw [e]
    rw [Reads.deref t1] at hs
    split
    · exact ⟨_, rfl⟩
    · rename_i hc
      have hc : c1 = c2 := by simpa using hc
      subst hc
      cases c1 with
      | ref x v => exact ⟨_, rfl⟩
      | str x => exact ⟨_, rfl⟩
      | cons i => exact ⟨_, rfl⟩
      | int i => exact ⟨_, rfl⟩
      | fn f k =>
        cases hs with
        | @fn _ _ _ ts h' l r =>
          rw [h1] at h'; cases h'
          have l1 := g.fnArgs _ _ _ h1
          have l2 := g.fnArgs _ _ _ h2
          refine functorEquals_done fun j hj => ?_
          obtain ⟨t, ht⟩ : ∃ s, ts[j]? = some s := ⟨_, List.getElem?_eq_getElem (by omega)⟩
          have := OTerm.depth_le ht
          simp only [OTerm.depth] at hd
          exact ih (by omega) (by omega) (by simpa using r j t ht) (by omega)
        | _ h' => rw [h1] at h'; cases h'
      | efn f k =>
        cases hs with
        | @efn _ _ _ ts h' l r =>
          rw [h1] at h'; cases h'
          have l1 := g.efnArgs _ _ _ h1
          have l2 := g.efnArgs _ _ _ h2
          refine functorEquals_done fun j hj => ?_
          obtain ⟨t, ht⟩ : ∃ s, ts[j]? = some s := ⟨_, List.getElem?_eq_getElem (by omega)⟩
          have := OTerm.depth_le ht
          simp only [OTerm.depth] at hd
          exact ih (by omega) (by omega) (by simpa using r j t ht) (by omega)
        | _ h' => rw [h1] at h'; cases h'

/-- The same if the second term is finite. -/
theorem heapRegEquals_finite_right (g : Good V (h.at? pre) h.size h.size) : ∀ n {a b s}, a < h.size → b < h.size →
    Reads (h.at? pre) b s → s.depth < n → ∃ r, heapRegEquals pre h n a b = .ok r := by
  intro n
  induction n with
  | zero => intro a b s _ _ _ h; omega
  | succ n ih =>
    intro a b s ha hb hs hd
    obtain ⟨d1, d2, c1, c2, t1, t2, h1, h2, e⟩ := heapRegEquals_deref g (n := n) ha hb
    rw [e]
    rw [Reads.deref t2] at hs
    split
    · exact ⟨_, rfl⟩
    · rename_i hc
      have hc : c1 = c2 := by simpa using hc
      subst hc
      cases c1 with
      | ref x v => exact ⟨_, rfl⟩
      | str x => exact ⟨_, rfl⟩
      | cons i => exact ⟨_, rfl⟩
      | int i => exact ⟨_, rfl⟩
      | fn f k =>
        cases hs with
        | @fn _ _ _ ts h' l r =>
          rw [h2] at h'; cases h'
          have l1 := g.fnArgs _ _ _ h1
          have l2 := g.fnArgs _ _ _ h2
          refine functorEquals_done fun j hj => ?_
          obtain ⟨t, ht⟩ : ∃ s, ts[j]? = some s := ⟨_, List.getElem?_eq_getElem (by omega)⟩
          have := OTerm.depth_le ht
          simp only [OTerm.depth] at hd
          exact ih (by omega) (by omega) (by simpa using r j t ht) (by omega)
        | _ h' => rw [h2] at h'; cases h'
      | efn f k =>
        cases hs with
        | @efn _ _ _ ts h' l r =>
          rw [h2] at h'; cases h'
          have l1 := g.efnArgs _ _ _ h1
          have l2 := g.efnArgs _ _ _ h2
          refine functorEquals_done fun j hj => ?_
          obtain ⟨t, ht⟩ : ∃ s, ts[j]? = some s := ⟨_, List.getElem?_eq_getElem (by omega)⟩
          have := OTerm.depth_le ht
          simp only [OTerm.depth] at hd
          exact ih (by omega) (by omega) (by simpa using r j t ht) (by omega)
        | _ h' => rw [h2] at h'; cases h'

end

/-- Addresses of the same term have the same value. -/
theorem Reads.value {D} {B : IAlg D} {H : HV} {σ : Nat → D} (m : Mod B H σ) {a t} (h : Reads H a t) :
    ∀ {b}, Reads H b t → σ a = σ b := by
  have key : ∀ {k : Nat} {ts ts' : List OTerm} {a b}, ts.length = k →
      (∀ (i : Nat) t, ts[i]? = some t → ∀ {b}, Reads H b t → σ (a + 1 + i) = σ b) →
      (∀ (i : Nat) t, ts[i]? = some t → Reads H (b + 1 + i) t) → argVals σ (a + 1) k = argVals σ (b + 1) k := by
    intro k ts ts' a b l ih r
    refine argVals_congr fun i hi => ?_
    obtain ⟨t, ht⟩ : ∃ s, ts[i]? = some s := ⟨_, List.getElem?_eq_getElem (by omega)⟩
    exact ih i t ht (r i t ht)
  have flip : ∀ {b t}, Reads H b t → ∃ d, σ b = σ d ∧ Reads H d t ∧ (∀ x v, H d = some (.ref x v) → x = d) ∧ ∀ x, H d ≠ some (.str x) := by
    intro b t r
    induction r with
    | ref h1 _ _ ih => obtain ⟨d, e1, e2⟩ := ih; exact ⟨d, (m _ _ h1).trans e1, e2⟩
    | str h1 _ ih => obtain ⟨d, e1, e2⟩ := ih; exact ⟨d, (m _ _ h1).trans e1, e2⟩
    | var h1 => exact ⟨_, rfl, .var h1, fun x v h => by rw [h1] at h; cases h; rfl, fun x h => by rw [h1] at h; cases h⟩
    | cons h1 => exact ⟨_, rfl, .cons h1, (fun x v h => by rw [h1] at h; cases h), fun x h => by rw [h1] at h; cases h⟩
    | int h1 => exact ⟨_, rfl, .int h1, (fun x v h => by rw [h1] at h; cases h), fun x h => by rw [h1] at h; cases h⟩
    | fn h1 l r => exact ⟨_, rfl, .fn h1 l r, (fun x v h => by rw [h1] at h; cases h), fun x h => by rw [h1] at h; cases h⟩
    | efn h1 l r => exact ⟨_, rfl, .efn h1 l r, (fun x v h => by rw [h1] at h; cases h), fun x h => by rw [h1] at h; cases h⟩
  induction h with
  | ref h1 _ _ ih => intro b hb; exact (m _ _ h1).trans (ih hb)
  | str h1 _ ih => intro b hb; exact (m _ _ h1).trans (ih hb)
  | var h1 =>
    intro b hb
    obtain ⟨d, e, r, e1, e2⟩ := flip hb
    rw [e]
    cases r with
    | var => rfl
    | ref h h' => exact absurd (e1 _ _ h) h'
    | str h => exact absurd h (e2 _)
  | cons h1 =>
    intro b hb
    obtain ⟨d, e, r, e1, e2⟩ := flip hb
    rw [e]
    cases r with
    | cons h => exact (m _ _ h1).trans (m _ _ h).symm
    | ref h h' => exact absurd (e1 _ _ h) h'
    | str h => exact absurd h (e2 _)
  | int h1 =>
    intro b hb
    obtain ⟨d, e, r, e1, e2⟩ := flip hb
    rw [e]
    cases r with
    | int h => exact (m _ _ h1).trans (m _ _ h).symm
    | ref h h' => exact absurd (e1 _ _ h) h'
    | str h => exact absurd h (e2 _)
  | fn h1 l _ ih =>
    intro b hb
    obtain ⟨d, e, r, e1, e2⟩ := flip hb
    rw [e]
    cases r with
    | fn h l' r =>
      subst l
      rw [← l'] at h
      rw [m _ _ h1, m _ _ h, key (ts' := []) rfl ih r]
    | ref h h' => exact absurd (e1 _ _ h) h'
    | str h => exact absurd h (e2 _)
  | efn h1 l _ ih =>
    intro b hb
    obtain ⟨d, e, r, e1, e2⟩ := flip hb
    rw [e]
    cases r with
    | efn h l' r =>
      subst l
      rw [← l'] at h
      rw [m _ _ h1, m _ _ h, key (ts' := []) rfl ih r]
    | ref h h' => exact absurd (e1 _ _ h) h'
    | str h => exact absurd h (e2 _)

end PBfs
