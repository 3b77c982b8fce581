import Verif.Model.Heap
import Verif.Proof.Util
import Mathlib.Data.Fintype.Card
import Mathlib.Logic.Function.Basic
/-! # Views of the layered heap, dereferencing, well-formed heaps -/
namespace PBfs

/-- What an executor sees of the heap: a cell for every address. -/
abbrev HV := Nat → Option Cell

/-- A view with one cell changed. -/
def HV.upd (H : HV) (a : Nat) (c : Cell) : HV := fun b => if b = a then some c else H b

@[simp] theorem HV.upd_same (H : HV) (a c) : (H.upd a c) a = some c := by simp [HV.upd]
theorem HV.upd_ne (H : HV) {a b : Nat} (c) (h : b ≠ a) : (H.upd a c) b = H b := by simp [HV.upd, h]

namespace Hp
variable (pre : Nat → Option Cell)

@[simp] theorem size_push (h : Hp) (c) : (h.push c).size = h.size + 1 := by
  simp [push, size]; omega

@[simp] theorem start_push (h : Hp) (c) : (h.push c).start = h.start := rfl

@[simp] theorem size_write (h : Hp) (i c) : (h.write i c).size = h.size := by
  unfold write size; split <;> simp

@[simp] theorem start_write (h : Hp) (i c) : (h.write i c).start = h.start := by
  unfold write; split <;> rfl

theorem at_push (h : Hp) (c) : (h.push c).at? pre = HV.upd (h.at? pre) h.size c := by
  funext a
  by_cases hs : h.start ≤ a
  · simp only [at?, push, hs, if_true, HV.upd, size]
    by_cases ha : a = h.start + h.own.length
    · subst ha; simp
    · rw [if_neg ha]
      by_cases hlt : a - h.start < h.own.length
      · rw [List.getElem?_append_left hlt]
      · rw [List.getElem?_eq_none (by simp; omega), List.getElem?_eq_none (by omega)]
  · have : a ≠ h.size := by unfold size; omega
    simp [at?, push, hs, HV.upd, this]

theorem at_write (h : Hp) (i c) (hi : i < h.size) :
    (h.write i c).at? pre = HV.upd (h.at? pre) i c := by
  funext a
  unfold write HV.upd at?
  by_cases hs : h.start ≤ i
  · simp only [hs, if_true]
    by_cases ha : a = i
    · subst ha
      simp only [hs, if_true]
      rw [List.getElem?_set_self (by simp [size] at hi; omega)]
    · simp only [ha, if_false]
      by_cases hsa : h.start ≤ a
      · simp only [hsa, if_true]
        rw [List.getElem?_set_ne (by omega)]
      · simp [hsa]
  · simp only [hs, if_false]
    by_cases ha : a = i
    · subst ha
      simp [hs]
    · by_cases hsa : h.start ≤ a
      · simp [hsa, ha]
      · have hb : (a == i) = false := by simpa using ha
        simp [hsa, ha, List.lookup_cons, hb]

theorem at_lt_size {h : Hp} {a c} (ha : h.start ≤ a)
    (hc : h.at? pre a = some c) : a < h.size := by
  simp only [at?, ha, if_true] at hc
  have := (List.getElem?_eq_some_iff.1 hc).1
  unfold size; omega

end Hp

/-- The cell is no pointer (a dereferencing loop stops at it). -/
def Cell.isPtr : Cell → Bool
  | .ref _ _ => true
  | .str _ => true
  | _ => false

/-- Dereferencing `a` leads in `n` steps to `d`: a cell that is no pointer or an unbound variable. -/
inductive DerefIn (H : HV) : Nat → Nat → Nat → Prop
  | val {a c} : H a = some c → c.isPtr = false → DerefIn H 0 a a
  | self {a v} : H a = some (.ref a v) → DerefIn H 0 a a
  | ref {n a b v d} : H a = some (.ref b v) → b ≠ a → DerefIn H n b d → DerefIn H (n + 1) a d
  | str {n a b d} : H a = some (.str b) → b ≠ a → DerefIn H n b d → DerefIn H (n + 1) a d

/-- Dereferencing `a` leads to `d`. -/
def DerefTo (H : HV) (a d : Nat) : Prop := ∃ n, DerefIn H n a d

theorem DerefIn.det {H : HV} {n m a d e} (h : DerefIn H n a d) (h' : DerefIn H m a e) :
    n = m ∧ d = e := by
  induction h generalizing m with
  | val h1 h2 =>
    cases h' with
    | val => exact ⟨rfl, rfl⟩
    | self => exact ⟨rfl, rfl⟩
    | ref g1 => rw [h1] at g1; cases g1; simp [Cell.isPtr] at h2
    | str g1 => rw [h1] at g1; cases g1; simp [Cell.isPtr] at h2
  | self h1 => cases h' <;> simp_all [Cell.isPtr]
  | ref h1 h2 h3 ih =>
    cases h' with
    | val g1 g2 => simp_all [Cell.isPtr]
    | self g1 => simp_all
    | ref g1 g2 g3 => 
      rw [h1] at g1; cases g1
      have := ih g3; simp_all
    | str g1 => simp_all
  | str h1 h2 h3 ih =>
    cases h' with
    | val g1 g2 => simp_all [Cell.isPtr]
    | self g1 => simp_all
    | str g1 g2 g3 => 
      rw [h1] at g1; cases g1
      have := ih g3; simp_all
    | ref g1 => simp_all

theorem DerefTo.det {H : HV} {a d e} (h : DerefTo H a d) (h' : DerefTo H a e) : d = e := by
  obtain ⟨n, h⟩ := h
  obtain ⟨m, h'⟩ := h'
  exact (h.det h').2

/-- The addresses visited. -/
inductive Chain (H : HV) : Nat → Nat → List Nat → Prop
  | last {a d} : DerefIn H 0 a d → Chain H a d [a]
  | ref {a b v d l} : H a = some (.ref b v) → b ≠ a → Chain H b d l → Chain H a d (a :: l)
  | str {a b d l} : H a = some (.str b) → b ≠ a → Chain H b d l → Chain H a d (a :: l)

theorem DerefIn.chain {H : HV} {n a d} (h : DerefIn H n a d) :
    ∃ l, Chain H a d l ∧ l.length = n + 1 ∧
      (∀ b ∈ l, ∃ m, m ≤ n ∧ DerefIn H m b d) ∧ l.Nodup ∧ (∀ b ∈ l, (H b).isSome) := by
  induction h with
  | val h1 h2 => 
    exact ⟨_, .last (.val h1 h2), rfl, by simpa using .val h1 h2, by simp, by simp [h1]⟩
  | self h1 => exact ⟨_, .last (.self h1), rfl, by simpa using .self h1, by simp, by simp [h1]⟩
  | @ref n a b v d h1 h2 h3 ih =>
    obtain ⟨l, hc, hl, hm, hn, hs⟩ := ih
    refine ⟨_, .ref h1 h2 hc, by simp [hl], ?_, ?_, ?_⟩
    · intro x hx
      simp only [List.mem_cons] at hx
      rcases hx with rfl | hx
      · exact ⟨n + 1, by omega, .ref h1 h2 h3⟩
      · obtain ⟨m, hm', hd⟩ := hm x hx
        exact ⟨m, by omega, hd⟩
    · rw [List.nodup_cons]
      refine ⟨fun hmem => ?_, hn⟩
      obtain ⟨m, hm', hd⟩ := hm _ hmem
      have := (hd.det (.ref h1 h2 h3)).1
      omega
    · intro x hx
      simp only [List.mem_cons] at hx
      rcases hx with rfl | hx
      · simp [h1]
      · exact hs x hx
  | @str n a b d h1 h2 h3 ih =>
    obtain ⟨l, hc, hl, hm, hn, hs⟩ := ih
    refine ⟨_, .str h1 h2 hc, by simp [hl], ?_, ?_, ?_⟩
    · intro x hx
      simp only [List.mem_cons] at hx
      rcases hx with rfl | hx
      · exact ⟨n + 1, by omega, .str h1 h2 h3⟩
      · obtain ⟨m, hm', hd⟩ := hm x hx
        exact ⟨m, by omega, hd⟩
    · rw [List.nodup_cons]
      refine ⟨fun hmem => ?_, hn⟩
      obtain ⟨m, hm', hd⟩ := hm _ hmem
      have := (hd.det (.str h1 h2 h3)).1
      omega
    · intro x hx
      simp only [List.mem_cons] at hx
      rcases hx with rfl | hx
      · simp [h1]
      · exact hs x hx

/-- A list of distinct numbers below `n` has at most `n` elements. -/
theorem nodup_length_le {l : List Nat} {n : Nat} (hn : l.Nodup) (hl : ∀ x ∈ l, x < n) :
    l.length ≤ n := by
  have h := List.Nodup.length_le_card (α := Fin n)
    (l := l.attach.map fun x => ⟨x.1, hl x.1 x.2⟩) (by
      rw [List.nodup_map_iff_inj_on (by simpa using hn)]
      intro x _ y _ h
      simpa [Subtype.ext_iff] using h)
  simpa using h

/-- Chains in a heap of size `n` are shorter than `n`. -/
theorem DerefIn.lt_size {H : HV} {n a d sz} (h : DerefIn H n a d)
    (hdom : ∀ a, (H a).isSome → a < sz) : n < sz := by
  obtain ⟨l, _, hl, _, hn, hs⟩ := h.chain
  have := nodup_length_le hn (fun x hx => hdom x (hs x hx))
  omega

theorem derefN_of_derefIn {pre : Nat → Option Cell} {h : Hp} {n a d} (hd : DerefIn (h.at? pre) n a d) :
    ∀ k, n < k → derefN pre h k a = .ok d := by
  induction hd with
  | val h1 h2 =>
    rename_i a c
    intro k hk
    obtain ⟨k, rfl⟩ : ∃ k', k = k' + 1 := ⟨k - 1, by omega⟩
    rw [derefN, h1]
    cases c <;> simp_all [Cell.isPtr]
  | self h1 =>
    intro k hk
    obtain ⟨k, rfl⟩ : ∃ k', k = k' + 1 := ⟨k - 1, by omega⟩
    rw [derefN, h1]
    simp
  | ref h1 h2 h3 ih =>
    intro k hk
    obtain ⟨k, rfl⟩ : ∃ k', k = k' + 1 := ⟨k - 1, by omega⟩
    rw [derefN, h1]
    simp only [h2, if_false]
    exact ih k (by omega)
  | str h1 h2 h3 ih =>
    intro k hk
    obtain ⟨k, rfl⟩ : ∃ k', k = k' + 1 := ⟨k - 1, by omega⟩
    rw [derefN, h1]
    simp only [h2, if_false]
    exact ih k (by omega)

/-- A view with `sz` cells, all pointers inside, no endless chains; structures may extend up to `lim`
(`lim = sz` when nothing is under construction).  `V` restricts the cells that may occur. -/
structure Good (V : Cell → Prop) (H : HV) (sz lim : Nat) : Prop where
  dom : ∀ a, (H a).isSome ↔ a < sz
  ends : ∀ a, a < sz → ∃ d, DerefTo H a d
  fnArgs : ∀ a f n, H a = some (.fn f n) → a + n < lim
  efnArgs : ∀ a f n, H a = some (.efn f n) → a + n < lim
  valid : ∀ a c, H a = some c → V c
  le : sz ≤ lim

theorem Good.lt {V H sz lim} (g : Good V H sz lim) {a c} (h : H a = some c) : a < sz :=
  (g.dom a).1 (by simp [h])

theorem Good.get {V H sz lim} (g : Good V H sz lim) {a} (h : a < sz) : ∃ c, H a = some c :=
  Option.isSome_iff_exists.1 ((g.dom a).2 h)

/-- The end of a chain is a cell that is no pointer, or an unbound variable. -/
theorem DerefIn.end_cell {H : HV} {n a d} (h : DerefIn H n a d) :
    DerefIn H 0 d d ∧ ((∃ v, H d = some (.ref d v)) ∨ ∃ c, H d = some c ∧ c.isPtr = false) := by
  induction h with
  | val h1 h2 => exact ⟨.val h1 h2, .inr ⟨_, h1, h2⟩⟩
  | self h1 => exact ⟨.self h1, .inl ⟨_, h1⟩⟩
  | ref _ _ _ ih => exact ih
  | str _ _ _ ih => exact ih

theorem DerefTo.end_cell {H : HV} {a d} (h : DerefTo H a d) :
    DerefTo H d d ∧ ((∃ v, H d = some (.ref d v)) ∨ ∃ c, H d = some c ∧ c.isPtr = false) := by
  obtain ⟨n, h⟩ := h
  exact ⟨⟨0, h.end_cell.1⟩, h.end_cell.2⟩

/-- `deref` computes the end of the chain. -/
theorem deref_eq {V pre h lim a d} (g : Good V (h.at? pre) h.size lim) (hd : DerefTo (h.at? pre) a d) :
    deref pre h a = .ok d := by
  obtain ⟨n, hd⟩ := hd
  exact derefN_of_derefIn hd _ (by have := hd.lt_size (fun a ha => (g.dom a).1 ha); omega)

theorem deref_ok {V pre h lim a} (g : Good V (h.at? pre) h.size lim) (ha : a < h.size) :
    ∃ d, deref pre h a = .ok d ∧ DerefTo (h.at? pre) a d := by
  obtain ⟨d, hd⟩ := g.ends a ha
  exact ⟨d, deref_eq g hd, hd⟩

theorem derefN_sound {pre : Nat → Option Cell} {h : Hp} {k a d} (hd : derefN pre h k a = .ok d) :
    DerefTo (h.at? pre) a d ∨ ((h.at? pre) d = some (.str d)) := by
  induction k generalizing a with
  | zero => simp [derefN] at hd
  | succ k ih =>
    rw [derefN] at hd
    split at hd
    · simp at hd
    · rename_i b v hb
      split at hd
      · rename_i hba
        cases hd; subst hba
        exact .inl ⟨0, .self hb⟩
      · rename_i hba
        rcases ih hd with ⟨n, hn⟩ | h'
        · exact .inl ⟨n + 1, .ref hb hba hn⟩
        · exact .inr h'
    · rename_i b hb
      split at hd
      · rename_i hba
        cases hd; subst hba
        exact .inr hb
      · rename_i hba
        rcases ih hd with ⟨n, hn⟩ | h'
        · exact .inl ⟨n + 1, .str hb hba hn⟩
        · exact .inr h'
    · rename_i c hc1 hc2 hc
      cases hd
      refine .inl ⟨0, .val hc ?_⟩
      cases c <;> simp_all [Cell.isPtr]

theorem DerefTo.lt {V H sz lim} (g : Good V H sz lim) {a d} (h : DerefTo H a d) : d < sz := by
  rcases h.end_cell.2 with ⟨v, hv⟩ | ⟨c, hc, _⟩
  · exact g.lt hv
  · exact g.lt hc

/-- Pointers stay inside. -/
theorem Good.ref_lt {V H sz lim} (g : Good V H sz lim) {a b v} (h : H a = some (.ref b v)) : b < sz := by
  obtain ⟨d, n, hd⟩ := g.ends a (g.lt h)
  cases hd with
  | val h1 h2 => simp_all [Cell.isPtr]
  | self h1 => rw [h] at h1; cases h1; exact g.lt h
  | ref h1 h2 h3 =>
    rw [h] at h1; cases h1
    cases h3 with
    | val h1 h2 => exact g.lt h1
    | self h1 => exact g.lt h1
    | ref h1 => exact g.lt h1
    | str h1 => exact g.lt h1
  | str h1 => simp_all

theorem Good.str_lt {V H sz lim} (g : Good V H sz lim) {a b} (h : H a = some (.str b)) : b < sz := by
  obtain ⟨d, n, hd⟩ := g.ends a (g.lt h)
  cases hd with
  | val h1 h2 => simp_all [Cell.isPtr]
  | self h1 => simp_all
  | ref h1 h2 h3 => simp_all
  | str h1 h2 h3 =>
    rw [h] at h1; cases h1
    cases h3 with
    | val h1 h2 => exact g.lt h1
    | self h1 => exact g.lt h1
    | ref h1 => exact g.lt h1
    | str h1 => exact g.lt h1

/-- Chains survive when a cell beyond the heap is added. -/
theorem DerefIn.push {H : HV} {n a d sz c} (h : DerefIn H n a d) (hsz : H sz = none) :
    DerefIn (H.upd sz c) n a d := by
  have ne : ∀ {a : Nat} {c' : Cell}, H a = some c' → a ≠ sz := by
    intro a c' h e; subst e; simp_all
  induction h with
  | val h1 h2 => exact .val (by rw [HV.upd_ne _ _ (ne h1), h1]) h2
  | self h1 => exact .self (by rw [HV.upd_ne _ _ (ne h1), h1])
  | ref h1 h2 _ ih => exact .ref (by rw [HV.upd_ne _ _ (ne h1), h1]) h2 ih
  | str h1 h2 _ ih => exact .str (by rw [HV.upd_ne _ _ (ne h1), h1]) h2 ih

theorem DerefTo.push {H : HV} {a d sz c} (h : DerefTo H a d) (hsz : H sz = none) :
    DerefTo (H.upd sz c) a d := by
  obtain ⟨n, h⟩ := h
  exact ⟨n, h.push hsz⟩

/-- What may be pushed at address `sz`. -/
inductive Pushable (sz lim : Nat) : Cell → Prop
  | cons {i} : Pushable sz lim (.cons i)
  | int {v} : Pushable sz lim (.int v)
  | new {v} : Pushable sz lim (.ref sz v)
  | ref {a v} : a < sz → Pushable sz lim (.ref a v)
  | str {a} : a < sz → Pushable sz lim (.str a)
  | fn {f n} : sz + n < lim → Pushable sz lim (.fn f n)
  | efn {f n} : sz + n < lim → Pushable sz lim (.efn f n)

theorem Good.none {V H sz lim} (g : Good V H sz lim) : H sz = none := by
  by_contra h
  have := (g.dom sz).1 (Option.isSome_iff_ne_none.2 h)
  omega

theorem Good.push {V H sz lim c lim'} (g : Good V H sz lim) (hc : Pushable sz lim' c) (hv : V c)
    (hlim : lim ≤ lim') (hsz : sz < lim') : Good V (H.upd sz c) (sz + 1) lim' where
  dom a := by
    unfold HV.upd
    split
    · simp; omega
    · rw [g.dom]; omega
  ends a ha := by
    by_cases h : a = sz
    · subst h
      cases hc with
      | cons => exact ⟨_, 0, .val (HV.upd_same ..) rfl⟩
      | int => exact ⟨_, 0, .val (HV.upd_same ..) rfl⟩
      | fn => exact ⟨_, 0, .val (HV.upd_same ..) rfl⟩
      | efn => exact ⟨_, 0, .val (HV.upd_same ..) rfl⟩
      | new => exact ⟨_, 0, .self (HV.upd_same ..)⟩
      | ref hb =>
        obtain ⟨d, n, hd⟩ := g.ends _ hb
        exact ⟨d, n + 1, .ref (HV.upd_same ..) (by omega) (hd.push g.none)⟩
      | str hb =>
        obtain ⟨d, n, hd⟩ := g.ends _ hb
        exact ⟨d, n + 1, .str (HV.upd_same ..) (by omega) (hd.push g.none)⟩
    · obtain ⟨d, hd⟩ := g.ends a (by omega)
      exact ⟨d, hd.push g.none⟩
  fnArgs a f n h := by
    unfold HV.upd at h
    split at h
    · cases h; subst_vars; cases hc; assumption
    · have := g.fnArgs a f n h; omega
  efnArgs a f n h := by
    unfold HV.upd at h
    split at h
    · cases h; subst_vars; cases hc; assumption
    · have := g.efnArgs a f n h; omega
  valid a c h := by
    unfold HV.upd at h
    split at h
    · cases h; exact hv
    · exact g.valid a c h
  le := by omega

theorem Good.mono {V H sz lim lim'} (g : Good V H sz lim) (h : lim ≤ lim') : Good V H sz lim' :=
  { g with
    fnArgs := fun a f n h' => by have := g.fnArgs a f n h'; omega
    efnArgs := fun a f n h' => by have := g.efnArgs a f n h'; omega
    le := by have := g.le; omega }

/-- Chains after binding the unbound variable `d` to `t`. -/
theorem DerefIn.bind {H : HV} {n a e d t v w} (h : DerefIn H n a e) (hd : H d = some (.ref d v))
    (ht : DerefTo H t t) (htd : t ≠ d) :
    DerefTo (H.upd d (.ref t w)) a (if e = d then t else e) := by
  have htt : DerefIn (H.upd d (.ref t w)) 0 t t := by
    rcases ht.end_cell.2 with ⟨v', hv⟩ | ⟨c, hc, hp⟩
    · exact .self (by rw [HV.upd_ne _ _ htd, hv])
    · exact .val (by rw [HV.upd_ne _ _ htd, hc]) hp
  have key : ∀ {a : Nat}, a ≠ d → (H.upd d (.ref t w)) a = H a := fun ha => HV.upd_ne _ _ ha
  induction h with
  | val h1 h2 =>
    rename_i a c
    have : a ≠ d := by rintro rfl; rw [hd] at h1; cases h1; simp [Cell.isPtr] at h2
    rw [if_neg this]
    exact ⟨0, .val (by rw [key this, h1]) h2⟩
  | self h1 =>
    rename_i a v'
    by_cases ha : a = d
    · subst ha
      rw [if_pos rfl]
      exact ⟨1, .ref (HV.upd_same ..) htd htt⟩
    · rw [if_neg ha]
      exact ⟨0, .self (by rw [key ha, h1])⟩
  | ref h1 h2 h3 ih =>
    rename_i n a b v' e
    by_cases ha : a = d
    · subst ha; rw [hd] at h1; cases h1; exact absurd rfl h2
    · obtain ⟨m, hm⟩ := ih
      exact ⟨m + 1, .ref (by rw [key ha, h1]) h2 hm⟩
  | str h1 h2 h3 ih =>
    rename_i n a b e
    by_cases ha : a = d
    · subst ha; simp_all
    · obtain ⟨m, hm⟩ := ih
      exact ⟨m + 1, .str (by rw [key ha, h1]) h2 hm⟩

theorem Good.bind {V H sz lim d t v} (g : Good V H sz lim) (hd : H d = some (.ref d v))
    (ht : DerefTo H t t) (htd : t ≠ d) (hV : V (.ref t v)) :
    Good V (H.upd d (.ref t v)) sz lim where
  dom a := by
    unfold HV.upd
    split
    · subst_vars; simp [g.lt hd]
    · exact g.dom a
  ends a ha := by
    obtain ⟨e, n, he⟩ := g.ends a ha
    exact ⟨_, he.bind hd ht htd⟩
  fnArgs a f n h := by
    unfold HV.upd at h
    split at h
    · simp at h
    · exact g.fnArgs a f n h
  efnArgs a f n h := by
    unfold HV.upd at h
    split at h
    · simp at h
    · exact g.efnArgs a f n h
  valid a c h := by
    unfold HV.upd at h
    split at h
    · cases h; exact hV
    · exact g.valid a c h
  le := g.le

end PBfs
