import Verif.Model.Barrier
import Verif.Model.F32
/-!
Model of what `src/xputils.rs` prints about a run (`solve_timeout`, `gap`).  Times and memory are left out.
-/
set_option autoImplicit false

namespace Verif

/-- `src/xputils.rs:171-178`; `none`: `isize::abs` overflows, which is a panic in builds that check for overflow.  (`aub.max(alb) - aub.min(alb)` cannot overflow.) -/
def gap (lb ub : Int) : Option (Nat × Int) :=
  if ub = isizeMin ∨ lb = isizeMin then none
  else
    let aub := (ub.natAbs : Int)
    let alb := (lb.natAbs : Int)
    let u := max aub alb
    let l := min aub alb
    some (F32.ratio (u - l) u)

/-- The line printed by `solve_timeout` -/
structure Report where
  proved : Bool
  best : Option Int
  lb : Int
  ub : Int
  gap : Nat × Int
  explored : Nat
  exploredDd : Nat
deriving DecidableEq, Repr

variable {σ : Type} [DecidableEq σ] [Inhabited σ]

/-- `src/xputils.rs:83-127`, from line 97 on; `none` is a panic -/
def Par.report (cfg : SolverCfg σ) (s : Sys σ cfg.fr.F) : Option Report :=
  (gap (bestLowerBound cfg s.crit) (bestUpperBound cfg s.crit)).map fun g =>
    { proved := proved cfg s.crit, best := bestValue cfg s.crit, lb := bestLowerBound cfg s.crit, ub := bestUpperBound cfg s.crit, gap := g, explored := getExplored cfg s.crit,
      exploredDd := getExploredDd cfg s.crit }

/-- `src/xputils.rs:128-168`, from line 139 on; `none` is a panic -/
def Bar.report (cfg : SolverCfg σ) (s : BSys σ cfg.fr.F) : Option Report :=
  (gap (bestLowerBound cfg s.crit) (bestUpperBound cfg s.crit)).map fun g =>
    { proved := proved cfg s.crit, best := bestValue cfg s.crit, lb := bestLowerBound cfg s.crit, ub := bestUpperBound cfg s.crit, gap := g, explored := getExplored cfg s.crit,
      exploredDd := getExploredDd cfg s.crit }

end Verif
