import Verif.Model.Names
/-! C05: names of options round-trip and nothing else is accepted. -/
set_option autoImplicit false

namespace Verif.Props
open Verif

/-- C05 for `CutsetType`: a string is parsed to a value iff it is the printed form of that value. -/
theorem cutsetType_roundtrip (s : String) (c : CutsetType) :
    CutsetType.fromStr s = some c ↔ s = c.fmt := by
  unfold CutsetType.fromStr
  cases c <;> simp only [CutsetType.fmt] <;> repeat' split
  all_goals simp_all

/-- C05 for `CompilationType`. -/
theorem compilationType_roundtrip (s : String) (c : CompilationType) :
    CompilationType.fromStr s = some c ↔ s = c.fmt := by
  unfold CompilationType.fromStr
  cases c <;> simp only [CompilationType.fmt] <;> repeat' split
  all_goals simp_all

/-- C05 for `SolverType`. -/
theorem solverType_roundtrip (s : String) (c : SolverType) :
    SolverType.fromStr s = some c ↔ s = c.fmt := by
  unfold SolverType.fromStr
  cases c <;> simp only [SolverType.fmt] <;> repeat' split
  all_goals simp_all

example : CutsetType.fromStr "lel" = some .lastExactLayer := by decide
example : SolverType.fromStr "Barrier" = none := by decide

end Verif.Props
