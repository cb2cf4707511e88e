/-!
Single precision numbers (`f32`), as far as the code uses them: integers and decimal fractions converted to `f32`, products and quotients.

Every result is rounded to the nearest number with 24 significant bits, ties to even; `Props.single_of_nat` and `Props.single_quotient` compare this with a definition that does not say how to compute it.
Only positive numbers are represented.  The range of the exponent is not limited: numbers outside 2 ^ (-126) .. 2 ^ 127 can only come from the text of an instance file, where the result is truncated to 0 or to `usize::MAX`
with or without this limit.
-/
set_option autoImplicit false

namespace Verif.F32

/-- `x / y` rounded to an integer, ties to even -/
def roundDiv (x y : Nat) : Nat :=
  let q := x / y
  let r := x % y
  if 2 * r < y then q else if y < 2 * r then q + 1 else if q % 2 = 0 then q else q + 1

/-- `x as f32` for a positive integer: 24 significant bits -/
def f32 (x : Nat) : Nat :=
  if x < 2 ^ 24 then x else
  let e := x.log2 - 23
  roundDiv x (2 ^ e) * 2 ^ e

/-- `a / b` in single precision, for positive numbers.  The value is `m * 2 ^ (e - 128)` with `2 ^ 23 ≤ m ≤ 2 ^ 24`; it is represented by `e * 2 ^ 23 + m`: the two ways of writing a power of two
agree, and numbers compare as their representations do. -/
def f32Div (a b : Nat) : Nat :=
  let e := (a * 2 ^ 128 / b).log2 - 23
  e * 2 ^ 23 + roundDiv (a * 2 ^ 128) (b * 2 ^ e)

/-- The number `m * 2 ^ e` such that a representation stands for `m * 2 ^ e / 2 ^ 128` -/
def scaled (r : Nat) : Nat := (r % 2 ^ 23 + 2 ^ 23) * 2 ^ (r / 2 ^ 23 - 1)

/-- `OrderedFloat((c as f32) / (l as f32))`: -∞ < numbers < ∞ < NaN -/
def ratio (c l : Int) : Nat × Int :=
  if l = 0 then (if c = 0 then (3, 0) else if 0 < c then (2, 0) else (0, 0))
  else if c = 0 then (1, 0)
  else if (0 < c) = (0 < l) then (1, f32Div (f32 c.natAbs) (f32 l.natAbs))
  else (1, -(f32Div (f32 c.natAbs) (f32 l.natAbs) : Int))

end Verif.F32
