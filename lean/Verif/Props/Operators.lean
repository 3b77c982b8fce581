import Verif.Props.Predicates
/-! # C14 with the operators by name -/
namespace PBfs

/-- What `+`, `-`, `*` and `//` stand for in mathematics. -/
inductive Operator : Name → Int → Int → Int → Prop
  | add {x y} : Operator n!"+" x y (x + y)
  | sub {x y} : Operator n!"-" x y (x - y)
  | mul {x y} : Operator n!"*" x y (x * y)
  | div {x y} : y ≠ 0 → Operator n!"//" x y (x.tdiv y)

/-- The expression has the value `v`, where the operators are known by their names: `f` is the number that the compiler writes for the operator `n` of the text
(`arithIndex`), and what is shown for it in answers is `n` again.  All intermediate values fit in 32 bits. -/
inductive OTerm.Named : OTerm → Int → Prop
  | int {v} : Int32 v → Named (.int v) v
  | op {n f l r x y v} : Named l x → Named r y → arithIndex n = some f ∨ arithNames.getD f [] = n → Operator n x y v → Int32 v → Named (.efn f [l, r]) v

/-- The numbers of the operators. -/
theorem C14_operators {n f} : arithIndex n = some f ↔
    n = n!"^" ∧ f = 0 ∨ n = n!"+" ∧ f = 1 ∨ n = n!"-" ∧ f = 2 ∨ n = n!"*" ∧ f = 3 ∨ n = n!"//" ∧ f = 4 := by
  constructor
  · intro h
    simp only [arithIndex, arithNames, indexOf?, Option.map_none] at h
    repeat' split at h
    all_goals simp_all
  · rintro (⟨rfl, rfl⟩ | ⟨rfl, rfl⟩ | ⟨rfl, rfl⟩ | ⟨rfl, rfl⟩ | ⟨rfl, rfl⟩) <;> rfl

theorem operator_number {n f x y v} (h : arithIndex n = some f ∨ arithNames.getD f [] = n) (ho : Operator n x y v) : arithIndex n = some f := by
  rcases h with h | h
  · exact h
  · match f, h with
    | 0, h => subst h; cases ho
    | 1, h => subst h; rfl
    | 2, h => subst h; rfl
    | 3, h => subst h; rfl
    | 4, h => subst h; rfl
    | f + 5, h =>
      have : arithNames.getD (f + 5) [] = [] := rfl
      rw [this] at h
      subst h
      cases ho

theorem OTerm.Named.value {t : OTerm} {v} (h : t.Named v) : t.Value (fun _ _ _ => False) v := by
  induction h with
  | int h => exact .int h
  | op _ _ hn ho hi ih1 ih2 =>
    have hn := C14_operators.1 (operator_number hn ho)
    cases ho with
    | add => obtain rfl := by simpa using hn
             exact .add ih1 ih2 hi
    | sub => obtain rfl := by simpa using hn
             exact .sub ih1 ih2 hi
    | mul => obtain rfl := by simpa using hn
             exact .mul ih1 ih2 hi
    | div h0 => obtain rfl := by simpa using hn
                exact .div ih1 ih2 h0 hi

/-- **C14 by name**: a call `X is E`, where the operators of `E` are known by their names, compares the value of `E` with its first argument, or gives it to it. -/
theorem C14_by_name {o : Org} {ord p} (hs : Serves o ord p) : ∃ n ds, o.Code ⟨n!"is", 2⟩ n ds ∧
    ∀ {st pre fuel e x y t v s}, TwoArgs st pre e 0 1 x y → Reads (e.hp.at? pre) y t → t.Named v → t.depth < fuel →
      Reads (e.hp.at? pre) x s → (∀ d, s = .var d → d < e.hp.start) →
      ∃ regs e', callRun pre fuel st n ds e = .ok e' ∧ IsDone pre { e with regs := regs } x s v e' := by
  obtain ⟨n, ds, h1, h2⟩ := C14_predicate hs
  exact ⟨n, ds, h1, fun T hy hv => h2 T hy hv.value⟩

/-- This is not empty: `(7 - 2) * 3` has the value 15. -/
example : OTerm.Named (.efn 3 [.efn 2 [.int 7, .int 2], .int 3]) 15 :=
  .op (n := n!"*") (.op (n := n!"-") (.int (by unfold Int32; omega)) (.int (by unfold Int32; omega)) (.inl (by decide)) .sub (by unfold Int32; omega)) (.int (by unfold Int32; omega)) (.inr (by decide)) .mul (by unfold Int32; omega)

end PBfs
