import Verif.Model.Matrix
/-! Specification vocabulary for matrices: row/column ranges and histories of writes. -/
set_option autoImplicit false

namespace Verif.Spec

/-- `(i, j)` is a legal (row, column) index of a matrix with `n` rows and `m` columns. -/
def InRange (n m : Nat) (idx : Nat × Nat) : Prop := idx.1 < n ∧ idx.2 < m

/-- One write. -/
structure Write (T : Type) where
  idx : Nat × Nat
  val : T

/-- A history of writes; `none` as soon as one of them panics. -/
def runWrites {T : Type} (a : Matrix T) : List (Write T) → Option (Matrix T)
  | [] => some a
  | w :: ws => (a.assign w.idx w.val).bind (runWrites · ws)

/-- The value the cell should hold: the last write to it, else the initial item. -/
def lastWritten {T : Type} (item : T) (idx : Nat × Nat) (ws : List (Write T)) : T :=
  ((ws.filter (fun w => w.idx = idx)).getLast?.map (·.val)).getD item

end Verif.Spec
