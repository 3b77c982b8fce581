import Verif.Model.Basic
/-! # Small general lemmas -/
namespace PBfs

theorem bind_ok {ε α β} {x : Except ε α} {f : α → Except ε β} {b : β} :
    (x >>= f) = .ok b ↔ ∃ a, x = .ok a ∧ f a = .ok b := by
  cases x <;> simp [bind, Except.bind]

theorem bind_err {ε α β} {x : Except ε α} {f : α → Except ε β} {e : ε} :
    (x >>= f) = .error e ↔ x = .error e ∨ ∃ a, x = .ok a ∧ f a = .error e := by
  cases x <;> simp [bind, Except.bind]

theorem pure_ok {ε α} {a b : α} : (pure a : Except ε α) = .ok b ↔ a = b := by
  simp [pure, Except.pure]

theorem pure_err {ε α} {a : α} {e : ε} : (pure a : Except ε α) = .error e ↔ False := by
  simp [pure, Except.pure]

@[simp] theorem ok_bind {ε α β} (a : α) (f : α → Except ε β) : (Except.ok a >>= f) = f a := rfl
@[simp] theorem error_bind {ε α β} (e : ε) (f : α → Except ε β) :
    (Except.error e >>= f) = Except.error e := rfl

theorem orFault_ok {α} {o : Option α} {a : α} : orFault o = .ok a ↔ o = some a := by
  cases o <;> simp [orFault]

@[simp] theorem orFault_some {α} (a : α) : orFault (some a) = .ok a := rfl
@[simp] theorem orFault_none {α} : orFault (none : Option α) = .error .memory := rfl

theorem orFault_err {α} {o : Option α} {e : Fault} : orFault o = .error e ↔ o = none ∧ e = .memory := by
  cases o <;> simp [orFault, eq_comm]

end PBfs
