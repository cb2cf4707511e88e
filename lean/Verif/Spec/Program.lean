import Verif.Model.Program
import Verif.Spec.Barrier
import Verif.Spec.Solver
import Verif.Spec.Print
/-! Names of files, values of options, and what a program may print. -/
set_option autoImplicit false

namespace Verif.Spec
open Program

/-- What may follow the name of a file in a path: slashes, possibly with single dots after them -/
inductive Trail : List Char → Prop
  | nil : Trail []
  | slash {t : List Char} (h : Trail t) : Trail ('/' :: t)
  | dot {t : List Char} (h : Trail t) : Trail ('/' :: '.' :: t)

/-- The path `path` names the file `f`, in some directory. -/
structure Names (path f : List Char) : Prop where
  parts : ∃ dir tail, path = dir ++ f ++ tail ∧ (dir = [] ∨ ∃ d, dir = d ++ ['/']) ∧ Trail tail
  noSlash : '/' ∉ f
  nonempty : f ≠ []
  noDot : f ≠ ['.']
  noDots : f ≠ ['.', '.']

/-- `w` is the name `f` without its extension; a dot at the beginning does not start an extension. -/
def IsStem (f w : List Char) : Prop := (w = f ∧ '.' ∉ f.tail) ∨ ∃ ext, f = w ++ '.' :: ext ∧ w ≠ [] ∧ '.' ∉ ext

/-- The number given for an option, or none -/
def Given (v : Option (List Char)) (n : Option Nat) : Prop := (v = none ∧ n = none) ∨ ∃ w k, v = some w ∧ n = some k ∧ Text.Unsigned w k ∧ k ≤ Text.usizeMax

/-- The word for a solver -/
def solverWord : SolverType → List Char
  | .parallel => "parallel".toList
  | .barrier => "barrier".toList

/-- The word for a cutset -/
def cutsetWord : CutsetType → List Char
  | .lastExactLayer => "lel".toList
  | .frontier => "frontier".toList

/-- The line `out` says that the run `name` of the solver `solver` was complete or not, that the best value is `v`, which is also the lower bound, and that the upper bound is `u`. -/
def Says (out name : List Char) (solver : SolverType) (complete : Bool) (v u : Int) : Prop :=
  ∃ t m b lo hi g e d, Text.Cells out [name, solverWord solver, if complete then "Proved".toList else "Timeout".toList, t, m, b, lo, hi, g, e, d] ∧
    Text.Signed b v ∧ Text.Signed lo v ∧ Text.Signed hi u ∧ (u = v → v ≠ 0 → g = "0.0000".toList)

variable {σ : Type} [DecidableEq σ] [Inhabited σ]

/-- A run of the solver `solver`, which may be interrupted at any time, ends, and `out` is printed. -/
def Prints (cfg : SolverCfg σ) (solver : SolverType) (name out : List Char) : Prop :=
  match solver with
  | .parallel => ∃ (s : Sys σ cfg.fr.F) (time ram : Nat × Nat), Reachable cfg s ∧ Finished s ∧ parallelLine cfg name time ram s = some out
  | .barrier => ∃ (s : BSys σ cfg.fr.F) (time ram : Nat × Nat), BReachable cfg s ∧ (cfg.nbThreads = 1 → SharpReachable cfg s) ∧ BFinished s ∧ barrierLine cfg name time ram s = some out

end Verif.Spec
