import Verif.Spec.Text
import Mathlib.Algebra.Order.Field.Rat
import Mathlib.Algebra.Order.Group.Abs
import Mathlib.Data.Rat.Cast.Order
/-! What a table looks like, independently of how it is printed. -/
set_option autoImplicit false

namespace Verif.Text

/-- The text of a cell: no column separator in it, no white space around it -/
structure CellText (w : List Char) : Prop where
  sep : '|' ∉ w
  first : ∀ c, w.head? = some c → isWs c = false
  last : ∀ c, w.getLast? = some c → isWs c = false

/-- A line of a table: texts with white space around them, separated by `|` -/
inductive Cells : List Char → List (List Char) → Prop
  | last {a w b : List Char} (ha : Blank a) (hw : CellText w) (hb : Blank b) : Cells (a ++ w ++ b) [w]
  | cons {a w b l : List Char} {ws : List (List Char)} (ha : Blank a) (hw : CellText w) (hb : Blank b) (h : Cells l ws) : Cells (a ++ w ++ b ++ '|' :: l) (w :: ws)

/-- Two lines of a table have their separators at the same places. -/
def LinedUp (l h : List Char) : Prop := ∀ i : Nat, l[i]? = some '|' ↔ h[i]? = some '|'

/-- The text `w` is the number `q ≥ 0` rounded to `k` digits after the point. -/
def Rounded (k : Nat) (w : List Char) (q : ℚ) : Prop := ∃ n, Decimal w n k ∧ |(n : ℚ) / 10 ^ k - q| ≤ 1 / (2 * 10 ^ k)

end Verif.Text
