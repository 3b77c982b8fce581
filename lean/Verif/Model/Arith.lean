import Verif.Model.Basic
/-!
# Arithmetic

`double` and `float` are modelled by rounding exact values to 53 resp. 24 significant bits (round to
nearest, ties to even); exponent ranges play no role for the values that occur.
-/
namespace PBfs

/-- `a / b` rounded to the nearest natural number, ties to even. -/
def roundDiv (a b : Nat) : Nat :=
  let q := a / b
  let r := a % b
  if 2 * r < b then q
  else if b < 2 * r then q + 1
  else if q % 2 = 0 then q else q + 1

/-- A natural number rounded to `p` significant bits. -/
def roundNat (p a : Nat) : Nat :=
  if a < 2 ^ p then a
  else
    let e := Nat.log2 a + 1 - p
    roundDiv a (2 ^ e) * 2 ^ e

/-- An integer rounded to `p` significant bits. -/
def roundInt (p : Nat) (z : Int) : Int :=
  if 0 ≤ z then (roundNat p z.natAbs : Int) else -(roundNat p z.natAbs : Int)

/-- `(int) value` (expr_evaluator.cpp:54-57) for an integral `value`: undefined outside the range of
`int`. -/
def toInt32 (z : Int) : R Int :=
  if -2147483648 ≤ z ∧ z ≤ 2147483647 then .ok z else .error .overflow

/-- Scale `e` such that `a * 2^e / b` has (at least) 53 bits. -/
def quotScale (a b : Nat) : Nat := 53 + Nat.log2 b - Nat.log2 a

/-- The quotient of two (positive) numbers rounded to a `double`, then truncated: `a * 2^e / b` is
rounded to an integer of at least 53 bits, after that to 53 bits if it has more, and the binary point
is moved back.  Rounding twice is avoided: the scale is chosen so that exactly 53 bits remain. -/
def quotTrunc (a b : Nat) : Nat :=
  if a = 0 then 0
  else
    let e := quotScale a b
    -- a * 2^e / b lies in (2^52, 2^54); one bit less if it is not below 2^53
    let e' := if a * 2 ^ e < 2 ^ 53 * b then e else e - 1
    roundDiv (a * 2 ^ e') b / 2 ^ e'

/-- `std::divides<double>` on two `int`s followed by `(int)`
(arith_functor.cpp:33, expr_evaluator.cpp:51-57); `b ≠ 0`. -/
def divInt (a b : Int) : Int :=
  let q := (quotTrunc a.natAbs b.natAbs : Int)
  if (0 ≤ a) = (0 ≤ b) then q else -q

/-- `wam::arithmetic::pow` (include/.../arith_functor.h, arith_functor.cpp:29): `std::pow` on
`float`s.  Assumption: `powf` is correctly rounded.  Exponents beyond 2^10 of a base with absolute
value at least 2 give infinity, whose conversion to `int` is undefined, as are `0^negative` and every
result out of range. -/
def powInt (b e : Int) : R Int :=
  let b' := roundInt 24 b
  let e' := roundInt 24 e
  if 0 ≤ e' then
    if b' = 0 then .ok (if e' = 0 then 1 else 0)
    else if b' = 1 then .ok 1
    else if b' = -1 then .ok (if e' % 2 = 0 then 1 else -1)
    else if 1024 < e' then .error .overflow
    else toInt32 (roundInt 24 (b' ^ e'.toNat))
  else
    if b' = 0 then .error .overflow
    else if b' = 1 then .ok 1
    else if b' = -1 then .ok (if e' % 2 = 0 then 1 else -1)
    else .ok 0

/-- The binary functions (arith_functor.cpp:28-34) on two `int`s with the conversion of the result
back to `int` (expr_evaluator.cpp:50-57).  The divisor of `//` is not 0 here. -/
def arithOp (f : Nat) (a b : Int) : R Int :=
  match f with
  | 0 => powInt a b
  | 1 => toInt32 (roundInt 53 (a + b))
  | 2 => toInt32 (roundInt 53 (a - b))
  | 3 => toInt32 (roundInt 53 (a * b))
  | 4 => toInt32 (divInt a b)
  | _ => .error .memory

end PBfs
