import Verif.Model.Matrix
import Verif.Model.Print
/-!
How the matrix of the example psp is printed (`examples/psp/utils.rs:99-123`).  `Debug` and `Display` differ in the way a cell is written; here `sh` stands for either.
-/
set_option autoImplicit false

namespace Verif.Matrix
variable {T : Type}

/-- `examples/psp/utils.rs:102-108, 115-121`: the cells from the `i`-th on, and the end of the line. -/
def cells (m : Nat) (sh : T → List Char) : Nat → List T → List Char
  | _, [] => ['\n']
  | i, v :: l => (if i % m = 0 then ['\n'] else []) ++ (' ' :: Print.padLeft 5 (sh v)) ++ cells m sh (i + 1) l

/-- `examples/psp/utils.rs:101-109, 114-122`; `none`: `i % 0` panics. -/
def fmt (sh : T → List Char) (a : Matrix T) : Option (List Char) :=
  if a.m = 0 ∧ a.data ≠ [] then none else some (cells a.m sh 0 a.data)

end Verif.Matrix
