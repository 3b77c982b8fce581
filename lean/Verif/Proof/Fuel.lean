import Verif.Proof.UnifyTerm
import Verif.Proof.Util
import Verif.Spec.History
/-! # The bounds on loops only matter by being too small -/
namespace PBfs

/-- `y` is at least as defined as `x`: they are equal unless `x` ran out of iterations. -/
def RLe {α} (x y : R α) : Prop := x ≠ .error .hang → y = x

theorem RLe.refl {α} (x : R α) : RLe x x := fun _ => rfl

theorem RLe.bind {α β} {x y : R α} {f g : α → R β} (h : RLe x y) (hf : ∀ a, RLe (f a) (g a)) : RLe (x >>= f) (y >>= g) := by
  intro hne
  cases x with
  | error e =>
    have : y = .error e := h (by rintro ⟨⟩; exact hne rfl)
    rw [this]; rfl
  | ok a =>
    have : y = .ok a := h (by simp)
    rw [this]
    exact hf a hne

theorem RLe.bind' {α β} {x : R α} {f g : α → R β} (hf : ∀ a, RLe (f a) (g a)) : RLe (x >>= f) (x >>= g) := (RLe.refl x).bind hf

theorem RLe.ite {α} {c : Prop} [Decidable c] {x y x' y' : R α} (h1 : RLe x x') (h2 : RLe y y') :
    RLe (if c then x else y) (if c then x' else y') := by
  split
  · exact h1
  · exact h2

section
variable {pre : Nat → Option Cell} {n m : Nat} (hnm : n ≤ m)
include hnm

theorem unify_fuel {h : Hp} {a b : Nat} : RLe (unify pre n h a b) (unify pre m h a b) :=
  fun hne => unifyLoop_mono n m h [a, b] hnm hne

theorem execUnify_fuel {e : Exec} {a b : Nat} : RLe (e.unify pre n a b) (e.unify pre m a b) :=
  (unify_fuel hnm).bind fun _ => .refl _

theorem unifyVal_fuel {r : Cell} {e : Exec} : RLe (unifyVal pre n r e) (unifyVal pre m r e) := by
  unfold unifyVal
  refine RLe.bind ?_ fun _ => .refl _
  split
  · exact RLe.bind' fun _ => execUnify_fuel hnm
  · exact .refl _
end

theorem functorEquals_fuel {f g : Nat → Nat → R Bool} (h : ∀ a b, RLe (f a b) (g a b)) {l r : Nat} :
    ∀ {k i}, RLe (functorEquals f l r i k) (functorEquals g l r i k) := by
  intro k
  induction k with
  | zero => intro i; exact .refl _
  | succ k ih =>
    intro i
    unfold functorEquals
    exact (h _ _).bind fun b => RLe.ite ih (.refl _)

theorem heapRegEquals_fuel {pre : Nat → Option Cell} {h : Hp} : ∀ {n m : Nat}, n ≤ m → ∀ a b,
    RLe (heapRegEquals pre h n a b) (heapRegEquals pre h m a b) := by
  intro n
  induction n with
  | zero => intro m _ a b hne; exact absurd rfl hne
  | succ n ih =>
    intro m hm a b
    obtain ⟨m, rfl⟩ : ∃ k, m = k + 1 := ⟨m - 1, by omega⟩
    unfold heapRegEquals
    refine RLe.bind' fun l => RLe.bind' fun r => RLe.bind' fun cl => RLe.bind' fun cr => RLe.ite (.refl _) ?_
    cases cl with
    | fn => exact functorEquals_fuel (ih (by omega))
    | efn => exact functorEquals_fuel (ih (by omega))
    | _ => exact .refl _

theorem evalArith_fuel {pre : Nat → Option Cell} {st : Storage} {h : Hp} : ∀ {n m : Nat}, n ≤ m → ∀ a,
    RLe (evalArith pre st h n a) (evalArith pre st h m a) := by
  intro n
  induction n with
  | zero => intro m _ a hne; exact absurd rfl hne
  | succ n ih =>
    intro m hm a
    obtain ⟨m, rfl⟩ : ∃ k, m = k + 1 := ⟨m - 1, by omega⟩
    unfold evalArith
    refine RLe.bind' fun d => RLe.bind' fun c => RLe.bind' fun err => ?_
    cases err with
    | some => exact .refl _
    | none =>
      cases c with
      | efn f k =>
        refine (ih (by omega) _).bind fun l => ?_
        cases l with
        | inl => exact .refl _
        | inr l =>
          refine (ih (by omega) _).bind fun r => ?_
          cases r with
          | inl => exact .refl _
          | inr r => exact .refl _
      | _ => exact .refl _

theorem stepData_fuel {pre : Nat → Option Cell} {st : Storage} {n m : Nat} (hnm : n ≤ m) (i : Instr) (e : Exec) :
    RLe (stepData pre n st i e) (stepData pre m st i e) := by
  cases i with
  | unifyValue x => exact RLe.bind' fun _ => unifyVal_fuel hnm
  | unifyPermValue x => exact RLe.bind' fun _ => unifyVal_fuel hnm
  | getValue x a => exact RLe.bind' fun _ => RLe.bind' fun _ => RLe.bind' fun _ => RLe.bind' fun _ => execUnify_fuel hnm
  | getPermValue x a => exact RLe.bind' fun _ => RLe.bind' fun _ => RLe.bind' fun _ => RLe.bind' fun _ => execUnify_fuel hnm
  | builtin b l r =>
    cases b with
    | is =>
      exact RLe.bind' fun _ => RLe.bind' fun _ => (evalArith_fuel hnm _).bind fun _ => .refl _
    | eq =>
      exact RLe.bind' fun _ => RLe.bind' fun _ => RLe.bind' fun _ => RLe.bind' fun _ => (heapRegEquals_fuel hnm _ _).bind fun _ => .refl _
    | neq =>
      refine RLe.bind ?_ fun _ => .refl _
      exact RLe.bind' fun _ => RLe.bind' fun _ => RLe.bind' fun _ => RLe.bind' fun _ => (heapRegEquals_fuel hnm _ _).bind fun _ => .refl _
  | _ => exact .refl _

theorem renderArgs_fuel {f g : Nat → R Name} (h : ∀ a, RLe (f a) (g a)) {d : Nat} : ∀ {k i}, RLe (renderArgs f d i k) (renderArgs g d i k) := by
  intro k
  induction k with
  | zero => intro i; exact h _
  | succ k ih =>
    intro i
    unfold renderArgs
    exact (h _).bind fun s => ih.bind fun _ => .refl _

theorem stringRep_fuel {pre : Nat → Option Cell} {h : Hp} {st : Storage} {subs : List (Name × Nat)} : ∀ {n m : Nat}, n ≤ m → ∀ b a,
    RLe (stringRep pre h st subs n b a) (stringRep pre h st subs m b a) := by
  intro n
  induction n with
  | zero => intro m _ b a hne; exact absurd rfl hne
  | succ n ih =>
    intro m hm b a
    obtain ⟨m, rfl⟩ : ∃ k, m = k + 1 := ⟨m - 1, by omega⟩
    have ih' := fun b a => ih (show n ≤ m by omega) b a
    unfold stringRep
    refine RLe.bind' fun d => RLe.bind' fun c => ?_
    cases c with
    | fn i k =>
      refine RLe.bind' fun f => RLe.ite (.refl _) (RLe.ite (.refl _) (RLe.ite ?_ ?_))
      · exact (ih' _ _).bind fun hd => RLe.bind' fun r => RLe.bind' fun rest => (ih' _ _).bind fun _ => .refl _
      · refine RLe.bind ?_ fun _ => .refl _
        split
        · exact ih' _ _
        · exact renderArgs_fuel fun a => ih' _ a
    | efn f k => exact (ih' _ _).bind fun l => (ih' _ _).bind fun _ => .refl _
    | _ => exact .refl _

theorem renderSubs_fuel {f g : Nat → R Name} (h : ∀ a, RLe (f a) (g a)) : ∀ {L acc}, RLe (Org.renderSubs f L acc) (Org.renderSubs g L acc) := by
  intro L
  induction L with
  | nil => intro acc; exact .refl _
  | cons p L ih =>
    intro acc
    obtain ⟨v, a⟩ := p
    unfold Org.renderSubs
    exact RLe.ite ih ((h a).bind fun _ => ih)

namespace Org

theorem answer_fuel {n m : Nat} (hnm : n ≤ m) (o : Org) (id : Nat) : RLe (o.answer n id) (o.answer m id) := by
  unfold answer
  refine RLe.bind' fun e => ?_
  split
  · exact .refl _
  · exact RLe.bind' fun subs => renderSubs_fuel fun a => stringRep_fuel hnm _ _

theorem instr_fuel {n m : Nat} (hnm : n ≤ m) (o : Org) (id : Nat) (i : Instr) : RLe (o.instr n id i) (o.instr m id i) := by
  unfold instr
  refine RLe.bind' fun e => ?_
  cases i with
  | call f => exact .refl _
  | proceed => exact .refl _
  | deallocate => exact .refl _
  | _ => exact (stepData_fuel hnm _ _).bind fun _ => .refl _

theorem instrs_fuel {n m : Nat} (hnm : n ≤ m) (id : Nat) : ∀ (is : List Instr) (o : Org), RLe (instrs n id is o) (instrs m id is o) := by
  intro is
  induction is with
  | nil => intro o; exact .refl _
  | cons i is ih =>
    intro o
    unfold instrs
    exact (instr_fuel hnm o id i).bind fun o1 => RLe.bind' fun e => RLe.ite (.refl _) (ih o1)

theorem turnOf_fuel {n m : Nat} (hnm : n ≤ m) (o : Org) (id : Nat) : RLe (o.turnOf n id) (o.turnOf m id) := by
  unfold turnOf
  refine RLe.bind' fun e => ?_
  split
  · exact .refl _
  · refine RLe.bind' fun a => (instrs_fuel hnm id _ _).bind fun o1 => RLe.bind' fun e1 => ?_
    split
    · exact .refl _
    · exact (answer_fuel hnm o1 id).bind fun _ => .refl _
    · exact .refl _

/-- More iterations allowed in the inner loops do not change the outcome of a turn. -/
theorem turn_fuel {n m : Nat} (hnm : n ≤ m) (o : Org) : RLe (o.turn n) (o.turn m) := by
  unfold turn
  split
  · exact .refl _
  · exact turnOf_fuel hnm _ _

theorem iterate_fuel {n m : Nat} (hnm : n ≤ m) : ∀ (k : Nat) (o : Org), RLe (o.iterate n k) (o.iterate m k) := by
  intro k
  induction k with
  | zero => intro o; exact .refl _
  | succ k ih =>
    intro o
    unfold iterate
    split
    · exact .refl _
    · exact (turn_fuel hnm o).bind fun r => (ih r.1).bind fun _ => .refl _

end Org
end PBfs
