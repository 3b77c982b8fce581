import Verif.Spec.Resolution
/-! # Expressions whose evaluation is not defined -/
namespace PBfs

/-- An operation of the evaluation, which proceeds from left to right, has a result that is no number of 32 bits. -/
inductive TooBig {D} (A : Alg D) : D → Prop
  | left {f l r} : TooBig A l → TooBig A (A.efn f [l, r])
  | right {f l r a} : Evals A l a → TooBig A r → TooBig A (A.efn f [l, r])
  | op {f l r a b} : Evals A l a → Evals A r b → f ∈ arithNames → (f = n!"//" → b ≠ 0) →
      (∀ v, ArithSpec f a b v → v < -2147483648 ∨ 2147483647 < v) → TooBig A (A.efn f [l, r])

/-- What may be undefined in a call of `is`, for all instances of the expression: a result is too big; or it is not arithmetic, which is
an error the report of which looks up a functor in a wrong place. -/
inductive Undefined : Fault → ITree → Prop
  | overflow {d} : TooBig itreeAlg d → Undefined .overflow d
  | message {d} : Outcome itreeAlg d (.inl .notArithmetic) → Undefined .memory d

end PBfs
