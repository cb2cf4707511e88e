import Verif.Model.NodeFlags
/-!
Specification of node flags that does not mention bits: a node carries six independent switches.
-/
set_option autoImplicit false

namespace Verif.Spec

/-- The six switches a node carries. -/
inductive Switch | exact | relaxed | marked | cutset | deleted | barrier
deriving DecidableEq, Repr

/-- Abstract flags: the position of every switch. -/
abbrev Switches := Switch → Bool

/-- Setting one switch. -/
def Switches.set (σ : Switches) (s : Switch) (b : Bool) : Switches :=
  fun t => if t = s then b else σ t

/-- One call of a setter of the API. -/
structure SetOp where
  which : Switch
  value : Bool

open NodeFlags in
/-- The API setter for a switch. -/
def apply (f : NodeFlags) (op : SetOp) : NodeFlags :=
  match op.which with
  | .exact => f.setExact op.value
  | .relaxed => f.setRelaxed op.value
  | .marked => f.setMarked op.value
  | .cutset => f.setCutset op.value
  | .deleted => f.setDeleted op.value
  | .barrier => f.setPrunedByBarrier op.value

/-- The six switches as a client observes them.  The raw exact switch is only visible through
`test(F_EXACT)`; the others have a dedicated query. -/
def observe (f : NodeFlags) : Switches
  | .exact => f.test NodeFlags.F_EXACT
  | .relaxed => f.isRelaxed
  | .marked => f.isMarked
  | .cutset => f.isCutset
  | .deleted => f.isDeleted
  | .barrier => f.isPrunedByBarrier

end Verif.Spec
