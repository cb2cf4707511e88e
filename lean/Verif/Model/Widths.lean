import Verif.Model.Psp
/-!
Model of the width heuristics of the library (`src/heuristics/mod.rs`).  The programs do not use them; their own are next to the problems (`Srflp.width`, `Psp.width`, `Tsptw.width`).
-/
set_option autoImplicit false

namespace Verif

/-- `Fixed` (`src/heuristics/mod.rs:3-9`) -/
def fixedWidth {σ : Type} (w : Nat) (_ : σ) : Nat := w

/-- `NbUnassigned` (`src/heuristics/mod.rs:11-15`) for the example `psp` (`psp.rs:78-82`) -/
def Psp.nbUnassigned (s : Psp.State) : Nat := s.time

end Verif
