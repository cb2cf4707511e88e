import Mathlib.Data.List.Forall2
/-! The cells of a square matrix that is filled from rows of any length. -/
set_option autoImplicit false

namespace Verif.Files

/-- The cells are numbered row by row.  Row `i` of the file is written from the first cell of row `i` on, as far as it goes; `v` is what is left in cell `p`: later rows have not overwritten it. -/
def Lies {α : Type} (n : Nat) (rows : List (List α)) (p : Nat) (v : α) : Prop :=
  ∃ i r, rows[i]? = some r ∧ n * i ≤ p ∧ r[p - n * i]? = some v ∧ ∀ j r', i < j → rows[j]? = some r' → n * j ≤ p → r'[p - n * j]? = none

/-- The matrix `m` is what is left in the cells, and `default` (zero) where nothing was written. -/
def Sheet {α : Type} [Inhabited α] (n : Nat) (rows : List (List α)) (m : Nat → Nat → α) : Prop :=
  ∀ a b, a < n → b < n → Lies n rows (n * a + b) (m a b) ∨ ((∀ v, ¬ Lies n rows (n * a + b) v) ∧ m a b = default)

/-- No row goes beyond the last cell. -/
def Inside {α : Type} (n : Nat) (rows : List (List α)) : Prop := ∀ i r, rows[i]? = some r → n * i + r.length ≤ n * n

end Verif.Files
