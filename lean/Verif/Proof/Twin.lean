import Verif.Proof.Grow
import Verif.Proof.Den
/-!
# Two interpreters that differ only in numbering

Functors, variables and permanent registers get numbers which depend on everything loaded before and on the order of
hash maps.  Two states that are equal up to these numbers behave alike.  (The error messages of `is` look up the heap at a functor number: `Cmp`.)
-/
namespace PBfs

def isFV : FV := ⟨n!"is", 2⟩

/-- How two interpreters are compared: which predicates may be called, whether `is` may read outside the heap on one
side only, and whether all numbers of functors and variables agree. -/
structure Cmp where
  calls : FV → Prop
  lax : Prop
  ex : Prop
  ok : calls isFV → lax ∨ ex

/-- Two storages whose numbers can be translated. -/
structure Twin (M : Cmp) (st st' : Storage) : Prop where
  nodup : st.functors.Nodup
  nodup' : st'.functors.Nodup
  small : ¬ M.ex → st.functors.length ≤ 32768
  small' : ¬ M.ex → st'.functors.length ≤ 32768
  vars : ¬ M.ex → st.vars.length ≤ 32768
  vars' : ¬ M.ex → st'.vars.length ≤ 32768
  zero : st.functors[0]? = st'.functors[0]?
  same : M.ex → st = st'

/-- Numbers of the same functor; 0 is what uninitialised registers contain. -/
def FIdx (M : Cmp) (st st' : Storage) (i j : Int) : Prop :=
  (∃ f, st.functorAt i = some f ∧ st'.functorAt j = some f) ∨ (i = 0 ∧ j = 0) ∨ (M.ex ∧ i = j)

/-- Numbers of variables with the same name. -/
def VIdx (M : Cmp) (st st' : Storage) (v w : Int) : Prop := (∃ n, st.varAt v = some n ∧ st'.varAt w = some n) ∨ (M.ex ∧ v = w)

theorem functorAt_zero (st : Storage) : st.functorAt 0 = st.functors[0]? := rfl

theorem FIdx.same {st st' : Storage} (T : Twin M st st') {i j} (h : FIdx M st st' i j) : st.functorAt i = st'.functorAt j := by
  rcases h with ⟨f, h1, h2⟩ | ⟨rfl, rfl⟩ | ⟨he, rfl⟩
  · rw [h1, h2]
  · exact T.zero
  · rw [T.same he]

theorem VIdx.same {st st' : Storage} (T : Twin M st st') {i j} (h : VIdx M st st' i j) : st.varAt i = st'.varAt j := by
  rcases h with ⟨f, h1, h2⟩ | ⟨he, rfl⟩
  · rw [h1, h2]
  · rw [T.same he]

theorem functorAt_inj {st : Storage} (hn : st.functors.Nodup) {i j f} (hi : st.functorAt i = some f) (hj : st.functorAt j = some f) : i = j := by
  unfold Storage.functorAt at hi hj
  split at hi
  · split at hj
    · obtain ⟨a, ha⟩ := List.getElem?_eq_some_iff.1 hi
      obtain ⟨b, hb⟩ := List.getElem?_eq_some_iff.1 hj
      have := (List.Nodup.getElem_inj_iff hn (hi := a) (hj := b)).1 (ha.trans hb.symm)
      omega
    · cases hj
  · cases hi

theorem FIdx.exact {st st' : Storage} {i j} (T : Twin M st st') (he : M.ex) (h : FIdx M st st' i j) : i = j := by
  have hs := T.same he
  rcases h with ⟨f, h1, h2⟩ | ⟨rfl, rfl⟩ | ⟨_, rfl⟩
  · rw [← hs] at h2
    exact functorAt_inj T.nodup h1 h2
  · rfl
  · rfl

theorem FIdx.inj {st st' : Storage} (T : Twin M st st') {i j i' j'} (h : FIdx M st st' i j) (h' : FIdx M st st' i' j') : i = i' ↔ j = j' := by
  by_cases he : M.ex
  · rw [h.exact T he, h'.exact T he]
  rcases h with ⟨f, h1, h2⟩ | ⟨rfl, rfl⟩ | ⟨he', rfl⟩ <;> rcases h' with ⟨g, h3, h4⟩ | ⟨rfl, rfl⟩ | ⟨he'', rfl⟩
  case inr.inr.inl => exact absurd he' he
  case inr.inr.inr.inl => exact absurd he' he
  case inr.inr.inr.inr => exact absurd he' he
  case inl.inr.inr => exact absurd he'' he
  case inr.inl.inr.inr => exact absurd he'' he
  · constructor
    · rintro rfl
      rw [h1] at h3; cases h3
      exact functorAt_inj T.nodup' h2 h4
    · rintro rfl
      rw [h2] at h4; cases h4
      exact functorAt_inj T.nodup h1 h3
  · constructor
    · rintro rfl
      rw [functorAt_zero, T.zero, ← functorAt_zero] at h1
      exact functorAt_inj T.nodup' h2 h1
    · rintro rfl
      rw [functorAt_zero, ← T.zero, ← functorAt_zero] at h2
      exact functorAt_inj T.nodup h1 h2
  · constructor
    · rintro rfl
      rw [functorAt_zero, T.zero, ← functorAt_zero] at h3
      exact functorAt_inj T.nodup' h3 h4
    · rintro rfl
      rw [functorAt_zero, ← T.zero, ← functorAt_zero] at h4
      exact functorAt_inj T.nodup h4 h3
  · simp

/-- Cells that mean the same. -/
inductive CellRel (M : Cmp) (st st' : Storage) : Cell → Cell → Prop
  | cons {i j} : FIdx M st st' i j → CellRel M st st' (.cons i) (.cons j)
  | int (v) : CellRel M st st' (.int v) (.int v)
  | ref {v w} (a) : VIdx M st st' v w → CellRel M st st' (.ref a v) (.ref a w)
  | fn {i j} (n) : FIdx M st st' i j → CellRel M st st' (.fn i n) (.fn j n)
  | efn (f n) : CellRel M st st' (.efn f n) (.efn f n)
  | str (a) : CellRel M st st' (.str a) (.str a)

theorem CellRel.zero {st st'} : CellRel M st st' Cell.zero Cell.zero := .cons (.inr (.inl ⟨rfl, rfl⟩))

/-- Equality of related cells, except variables. -/
theorem CellRel.eq_iff {st st'} (T : Twin M st st') {c c' d d'} (h : CellRel M st st' c c') (h' : CellRel M st st' d d') (hr : d.isRef = false) :
    c = d ↔ c' = d' := by
  cases h with
  | cons h1 =>
    cases h' with
    | cons h2 => simp only [Cell.cons.injEq]; exact h1.inj T h2
    | _ => simp
  | fn n h1 =>
    cases h' with
    | fn m h2 => simp only [Cell.fn.injEq, h1.inj T h2]
    | _ => simp
  | _ =>
    cases h' with
    | ref => cases hr
    | _ => simp

theorem CellRel.isRef {st st' c c'} (h : CellRel M st st' c c') : c'.isRef = c.isRef := by cases h <;> rfl
theorem CellRel.ptr {st st' c c'} (h : CellRel M st st' c c') : c'.ptr = c.ptr := by cases h <;> rfl

/-- Both missing, or both there and related. -/
def ORel {α β} (P : α → β → Prop) : Option α → Option β → Prop
  | some a, some b => P a b
  | none, none => True
  | _, _ => False

/-- Two computations with the same outcome. -/
def Sim {α β} (M : Cmp) (P : α → β → Prop) : R α → R β → Prop
  | .ok a, .ok b => P a b
  | .error e, .error f => e = f ∨ M.lax ∧ (e = .memory ∨ f = .memory)
  | .error e, .ok _ => M.lax ∧ e = .memory
  | .ok _, .error f => M.lax ∧ f = .memory

section
variable {M : Cmp}

theorem Sim.bind {α β γ δ} {P : α → β → Prop} {Q : γ → δ → Prop} {x : R α} {y : R β} {k : α → R γ} {l : β → R δ}
    (h : Sim M P x y) (hk : ∀ a b, P a b → Sim M Q (k a) (l b)) : Sim M Q (x >>= k) (y >>= l) := by
  cases x with
  | ok a =>
    cases y with
    | ok b => exact hk a b h
    | error f =>
      show Sim M Q (k a) (.error f)
      cases hka : k a with
      | ok _ => exact h
      | error e => exact .inr ⟨h.1, .inr h.2⟩
  | error e =>
    cases y with
    | ok b =>
      show Sim M Q (.error e) (l b)
      cases hlb : l b with
      | ok _ => exact h
      | error f => exact .inr ⟨h.1, .inl h.2⟩
    | error f => exact h

theorem Sim.bind' {α β γ δ} {P : α → β → Prop} {Q : γ → δ → Prop} {x : R α} {y : R β} {k : α → R γ} {l : β → R δ}
    (h : Sim M P x y) (hk : ∀ a b, x = .ok a → y = .ok b → P a b → Sim M Q (k a) (l b)) : Sim M Q (x >>= k) (y >>= l) := by
  have : Sim M (fun a b => x = .ok a ∧ y = .ok b ∧ P a b) x y := by
    cases x <;> cases y <;> first | exact ⟨rfl, rfl, h⟩ | exact h
  exact this.bind fun a b h => hk a b h.1 h.2.1 h.2.2

theorem Sim.mono {α β} {P Q : α → β → Prop} {x : R α} {y : R β} (h : Sim M P x y) (hk : ∀ a b, P a b → Q a b) : Sim M Q x y := by
  cases x <;> cases y <;> first | exact h | exact hk _ _ h

theorem Sim.ok {α β} {P : α → β → Prop} {a : α} {b : β} (h : P a b) : Sim M P (.ok a) (.ok b) := h
theorem Sim.pure {α β} {P : α → β → Prop} {a : α} {b : β} (h : P a b) : Sim M P (Pure.pure a) (Pure.pure b) := h
theorem Sim.err {α β} {P : α → β → Prop} (e) : Sim M P (.error e) (.error e) := .inl rfl

theorem Sim.refl {α} (x : R α) : Sim M Eq x x := by
  cases x with
  | ok _ => exact rfl
  | error _ => exact .inl rfl

theorem Sim.orFault {α β} {P : α → β → Prop} {x : Option α} {y : Option β} (h : ORel P x y) : Sim M P (orFault x) (orFault y) := by
  cases x <;> cases y <;> first | exact h | exact h.elim | exact .inl rfl

theorem Sim.ite {α β} {P : α → β → Prop} {p q : Prop} [Decidable p] [Decidable q] {x x' : R α} {y y' : R β} (hpq : p ↔ q)
    (h : Sim M P x y) (h' : Sim M P x' y') : Sim M P (if p then x else x') (if q then y else y') := by
  by_cases hp : p
  · rw [if_pos hp, if_pos (hpq.1 hp)]; exact h
  · rw [if_neg hp, if_neg fun hq => hp (hpq.2 hq)]; exact h'

theorem forall₂_get {α β} {P : α → β → Prop} {l : List α} {l' : List β} (h : List.Forall₂ P l l') (i : Nat) : ORel P l[i]? l'[i]? := by
  induction h generalizing i with
  | nil => simp [ORel]
  | cons hab _ ih =>
    cases i with
    | zero => simpa [ORel] using hab
    | succ i => simpa using ih i

theorem forall₂_len {α β} {P : α → β → Prop} {l : List α} {l' : List β} (h : List.Forall₂ P l l') : l.length = l'.length := by
  induction h with
  | nil => rfl
  | cons _ _ ih => simp [ih]

theorem forall₂_set {α β} {P : α → β → Prop} {l : List α} {l' : List β} (h : List.Forall₂ P l l') {i a b} (hab : P a b) :
    List.Forall₂ P (l.set i a) (l'.set i b) := by
  induction h generalizing i with
  | nil => exact .nil
  | cons h0 hr ih =>
    cases i with
    | zero => exact .cons hab hr
    | succ i => exact .cons h0 ih

theorem forall₂_app {α β} {P : α → β → Prop} {l l2 : List α} {l' l2' : List β} (h : List.Forall₂ P l l') (h2 : List.Forall₂ P l2 l2') :
    List.Forall₂ P (l ++ l2) (l' ++ l2') := by
  induction h with
  | nil => exact h2
  | cons h0 _ ih => exact .cons h0 ih

/-! ## Heaps -/

structure HpRel (M : Cmp) (st st' : Storage) (h h' : Hp) : Prop where
  start : h.start = h'.start
  changes : List.Forall₂ (fun p q => p.1 = q.1 ∧ CellRel M st st' p.2 q.2) h.changes h'.changes
  own : List.Forall₂ (CellRel M st st') h.own h'.own

def PreRel (M : Cmp) (st st' : Storage) (pre pre' : Nat → Option Cell) : Prop := ∀ a, ORel (CellRel M st st') (pre a) (pre' a)

variable {st st' : Storage} {pre pre' : Nat → Option Cell}

theorem lookup_rel {l l' : List (Nat × Cell)} (h : List.Forall₂ (fun p q => p.1 = q.1 ∧ CellRel M st st' p.2 q.2) l l') (i : Nat) :
    ORel (CellRel M st st') (l.lookup i) (l'.lookup i) := by
  induction h with
  | nil => trivial
  | @cons a b _ _ hab _ ih =>
    obtain ⟨a1, a2⟩ := a
    obtain ⟨b1, b2⟩ := b
    obtain ⟨h1, h2⟩ := hab
    simp only at h1 h2
    subst h1
    rw [List.lookup_cons, List.lookup_cons]
    split
    · exact h2
    · exact ih

theorem HpRel.size {h h' : Hp} (hr : HpRel M st st' h h') : h.size = h'.size := by
  unfold Hp.size
  rw [hr.start, forall₂_len hr.own]

theorem HpRel.at? (hp : PreRel M st st' pre pre') {h h' : Hp} (hr : HpRel M st st' h h') (i : Nat) :
    ORel (CellRel M st st') (h.at? pre i) (h'.at? pre' i) := by
  unfold Hp.at?
  rw [← hr.start]
  split
  · exact forall₂_get hr.own _
  · have := lookup_rel hr.changes i
    cases h1 : h.changes.lookup i <;> cases h2 : h'.changes.lookup i <;> rw [h1, h2] at this
    · exact hp i
    · exact this.elim
    · exact this.elim
    · exact this

theorem HpRel.push {h h' : Hp} (hr : HpRel M st st' h h') {c c'} (hc : CellRel M st st' c c') : HpRel M st st' (h.push c) (h'.push c') :=
  ⟨hr.start, hr.changes, forall₂_app hr.own (.cons hc .nil)⟩

theorem HpRel.write {h h' : Hp} (hr : HpRel M st st' h h') {i c c'} (hc : CellRel M st st' c c') : HpRel M st st' (h.write i c) (h'.write i c') := by
  unfold Hp.write
  by_cases hs : h.start ≤ i
  · rw [if_pos hs, if_pos (hr.start ▸ hs)]
    refine ⟨hr.start, hr.changes, ?_⟩
    show List.Forall₂ _ (h.own.set (i - h.start) c) (h'.own.set (i - h'.start) c')
    rw [← hr.start]
    exact forall₂_set hr.own hc
  · rw [if_neg hs, if_neg (hr.start ▸ hs)]
    exact ⟨hr.start, .cons ⟨rfl, hc⟩ hr.changes, hr.own⟩

theorem HpRel.bind (hp : PreRel M st st' pre pre') {h h' : Hp} (hr : HpRel M st st' h h') (i t : Nat) :
    Sim M (HpRel M st st') (h.bind pre i t) (h'.bind pre' i t) := by
  unfold Hp.bind
  have := hr.at? hp i
  cases h1 : h.at? pre i <;> cases h2 : h'.at? pre' i <;> rw [h1, h2] at this
  · exact .err _
  · exact this.elim
  · exact this.elim
  · cases this with
    | ref a hv => exact hr.write (.ref t hv)
    | _ => exact .err _

theorem derefN_sim (hp : PreRel M st st' pre pre') {h h' : Hp} (hr : HpRel M st st' h h') (n a : Nat) :
    Sim M Eq (derefN pre h n a) (derefN pre' h' n a) := by
  induction n generalizing a with
  | zero => exact .err _
  | succ n ih =>
    unfold derefN
    have := hr.at? hp a
    cases h1 : h.at? pre a <;> cases h2 : h'.at? pre' a <;> rw [h1, h2] at this
    · exact .err _
    · exact this.elim
    · exact this.elim
    · cases this with
      | ref b hv => simp only; split; exact rfl; exact ih b
      | str b => simp only; split; exact rfl; exact ih b
      | _ => exact rfl

theorem deref_sim (hp : PreRel M st st' pre pre') {h h' : Hp} (hr : HpRel M st st' h h') (a : Nat) :
    Sim M Eq (deref pre h a) (deref pre' h' a) := by
  unfold deref
  rw [← hr.size]
  exact derefN_sim hp hr _ _

def UnRel (M : Cmp) (st st' : Storage) (r r' : UnifyRes) : Prop := HpRel M st st' r.hp r'.hp ∧ r.ok = r'.ok

theorem unifyLoop_sim (T : Twin M st st') (hp : PreRel M st st' pre pre') (n : Nat) : ∀ {h h' : Hp} (pdl), HpRel M st st' h h' →
    Sim M (UnRel M st st') (unifyLoop pre n h pdl) (unifyLoop pre' n h' pdl) := by
  induction n with
  | zero =>
    intro h h' pdl hr
    match pdl with
    | [] => exact ⟨hr, rfl⟩
    | [_] => exact .err _
    | _ :: _ :: _ => exact .err _
  | succ n ih =>
    intro h h' pdl hr
    match pdl with
    | [] => exact ⟨hr, rfl⟩
    | [_] => exact .err _
    | a :: b :: pdl =>
      unfold unifyLoop
      refine (deref_sim hp hr a).bind ?_
      rintro d1 _ rfl
      refine (deref_sim hp hr b).bind ?_
      rintro d2 _ rfl
      split
      · exact ih _ hr
      refine (Sim.orFault (hr.at? hp d1)).bind fun r1 r1' h1 => ?_
      refine (Sim.orFault (hr.at? hp d2)).bind fun r2 r2' h2 => ?_
      rw [h1.isRef, h2.isRef]
      split
      · exact (hr.bind hp d1 d2).bind fun _ _ hr' => ih _ hr'
      split
      · exact (hr.bind hp d2 d1).bind fun _ _ hr' => ih _ hr'
      rename_i hn1 hn2
      cases h1 with
      | cons h1 =>
        cases h2 with
        | cons h2 => exact Sim.ite (h1.inj T h2) (ih _ hr) ⟨hr, rfl⟩
        | _ => exact ⟨hr, rfl⟩
      | int v =>
        cases h2 with
        | int w => exact Sim.ite Iff.rfl (ih _ hr) ⟨hr, rfl⟩
        | _ => exact ⟨hr, rfl⟩
      | fn k h1 =>
        cases h2 with
        | fn k' h2 => exact Sim.ite (h1.inj T h2) (ih _ hr) ⟨hr, rfl⟩
        | _ => exact ⟨hr, rfl⟩
      | efn f k =>
        cases h2 with
        | efn g k' => exact Sim.ite Iff.rfl (ih _ hr) ⟨hr, rfl⟩
        | _ => exact ⟨hr, rfl⟩
      | ref => exact absurd rfl hn1
      | str a =>
        cases h2 with
        | str => exact .err _
        | _ => exact ⟨hr, rfl⟩

end
end PBfs
