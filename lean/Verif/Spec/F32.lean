import Verif.Model.F32
import Mathlib.Data.Rat.Defs
import Mathlib.Algebra.Order.Field.Rat
import Mathlib.Algebra.Order.Group.Abs
import Mathlib.Data.Rat.Cast.Order
/-!
What rounding to single precision means, without saying how to compute it.  As in the model, the range of the exponent is not limited.
-/
set_option autoImplicit false

namespace Verif.F32

/-- A number with at most 24 significant bits -/
def IsSingle (q : ℚ) : Prop := ∃ m e : ℤ, |m| < 2 ^ 24 ∧ q = m * 2 ^ e

/-- `q` is the single precision number nearest to `x`.  If there are two, `q` is the one whose last significant bit is 0. -/
structure IsNearest (x q : ℚ) : Prop where
  single : IsSingle q
  nearest : ∀ y, IsSingle y → |x - q| ≤ |x - y|
  even : ∀ y, IsSingle y → y ≠ q → |x - y| = |x - q| → ∃ m e : ℤ, 2 ^ 23 ≤ |m| ∧ |m| < 2 ^ 24 ∧ m % 2 = 0 ∧ q = m * 2 ^ e

/-- The number that a representation (`Model/F32.lean`) stands for -/
def value (r : Nat) : ℚ := scaled r / 2 ^ 128

end Verif.F32
