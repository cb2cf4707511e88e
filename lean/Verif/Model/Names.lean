/-!
Model of the option enums of `src/prelude.rs` and `src/xputils.rs` with their `FromStr` and `Display`.
-/
set_option autoImplicit false

namespace Verif

/-- `src/prelude.rs:128-133` -/
inductive CompilationType | exact | relaxed | restricted
deriving DecidableEq, Repr

/-- `src/prelude.rs:135-139` -/
inductive CutsetType | lastExactLayer | frontier
deriving DecidableEq, Repr

/-- `src/xputils.rs:42-45` -/
inductive SolverType | parallel | barrier
deriving DecidableEq, Repr

/-- `src/prelude.rs:143-149`; `none` is `Err(_)`. -/
def CutsetType.fromStr (s : String) : Option CutsetType :=
  if s = "lel" then some .lastExactLayer
  else if s = "frontier" then some .frontier
  else none

/-- `src/prelude.rs:152-157` -/
def CutsetType.fmt : CutsetType → String
  | .lastExactLayer => "lel"
  | .frontier => "frontier"

/-- `src/prelude.rs:207-214` -/
def CompilationType.fromStr (s : String) : Option CompilationType :=
  if s = "exact" then some .exact
  else if s = "relaxed" then some .relaxed
  else if s = "restricted" then some .restricted
  else none

/-- `src/prelude.rs:217-223` -/
def CompilationType.fmt : CompilationType → String
  | .exact => "exact"
  | .relaxed => "relaxed"
  | .restricted => "restricted"

/-- `src/xputils.rs:49-55` -/
def SolverType.fromStr (s : String) : Option SolverType :=
  if s = "parallel" then some .parallel
  else if s = "barrier" then some .barrier
  else none

/-- `src/xputils.rs:58-63` -/
def SolverType.fmt : SolverType → String
  | .parallel => "parallel"
  | .barrier => "barrier"

end Verif
