/-!
Model of the 2D matrix of `src/utils.rs`, and of what its copy in `examples/psp/utils.rs` has in addition: assertions that are checked in debug builds only, rows and columns.
-/
set_option autoImplicit false

namespace Verif

/-- `src/utils.rs:177-184` -/
structure Matrix (T : Type) where
  n : Nat
  m : Nat
  data : List T

namespace Matrix
variable {T : Type}

/-- `src/utils.rs:193-195` `new_default(m, n, item)`; `new` (`187-189`) is the same with `T::default()`. -/
def newDefault (m n : Nat) (item : T) : Matrix T := { m := m, n := n, data := List.replicate (m * n) item }

/-- `src/utils.rs:187-189` -/
def new [Inhabited T] (m n : Nat) : Matrix T := newDefault m n default

/-- `src/utils.rs:199-201` -/
def pos (a : Matrix T) (idx : Nat × Nat) : Nat := a.m * idx.1 + idx.2

/-- `src/utils.rs:208-211`: `none` is the out-of-bounds panic. -/
def index (a : Matrix T) (idx : Nat × Nat) : Option T := a.data[a.pos idx]?

/-- `src/utils.rs:215-218`, used as `a[idx] = v`: `none` is the out-of-bounds panic. -/
def assign (a : Matrix T) (idx : Nat × Nat) (v : T) : Option (Matrix T) :=
  if a.pos idx < a.data.length then some { a with data := a.data.set (a.pos idx) v } else none

/-- `examples/psp/utils.rs:29-35`: here the number of rows comes first. -/
def newRows [Inhabited T] (n m : Nat) : Matrix T := { n := n, m := m, data := List.replicate (m * n) default }

/-- `examples/psp/utils.rs:70-79`; `debug`: whether assertions are checked.  `none`: the assertion fails. -/
def posIn (debug : Bool) (a : Matrix T) (idx : Nat × Nat) : Option Nat :=
  if debug && !(decide (idx.1 < a.n) && decide (idx.2 < a.m)) then none else some (a.pos idx)

/-- `examples/psp/utils.rs:85-88`; `none` is a panic. -/
def indexIn (debug : Bool) (a : Matrix T) (idx : Nat × Nat) : Option T := (posIn debug a idx).bind fun k => a.data[k]?

/-- `examples/psp/utils.rs:93-96`, used as `a[idx] = v`; `none` is a panic. -/
def assignIn (debug : Bool) (a : Matrix T) (idx : Nat × Nat) (v : T) : Option (Matrix T) :=
  (posIn debug a idx).bind fun k => if k < a.data.length then some { a with data := a.data.set k v } else none

/-- `examples/psp/utils.rs:38-42` (`row_mut`, 44-48, takes the same cells); `none` is a panic. -/
def row (debug : Bool) (a : Matrix T) (i : Nat) : Option (List T) :=
  (posIn debug a (i, 0)).bind fun s =>
    (posIn debug a (i, a.m)).bind fun e =>
      if s ≤ e ∧ e ≤ a.data.length then some ((a.data.drop s).take (e - s)) else none

/-- `examples/psp/utils.rs:49-51`, all items of the iterator; `none` is a panic. -/
def col (debug : Bool) (a : Matrix T) (i : Nat) : Option (List T) := (List.range a.n).mapM fun r => indexIn debug a (r, i)

/-- `examples/psp/utils.rs:53-56`: the offsets of the references handed out; they are not compared with the length of the vector. -/
def colMut (debug : Bool) (a : Matrix T) (i : Nat) : Option (List Nat) := (List.range a.n).mapM fun r => posIn debug a (r, i)

end Matrix
end Verif
