import Verif.Model.Names
/-!
Model of the basic types of `src/prelude.rs`.  `isize` values are `Int`; the places where the code saturates are
modelled with explicit saturation (see `Verif/Basic/ISize.lean`).
-/
set_option autoImplicit false

namespace Verif

/-- `src/prelude.rs:12-16`; a `Variable` (`src/prelude.rs:3-10`) is its index. -/
structure Decision where
  var : Nat
  value : Int
deriving DecidableEq, Repr, Inhabited

/-- `src/prelude.rs:160-166`; `Arc` is dropped (states are immutable). -/
structure SubProblem (σ : Type) where
  state : σ
  value : Int
  path : List Decision
  ub : Int
deriving DecidableEq, Repr, Inhabited

end Verif
