import Verif.Spec.Solver
import Verif.Spec.Barrier
/-!
A solver that is called several times.
-/
set_option autoImplicit false

namespace Verif.Spec
variable {σ : Type} [DecidableEq σ] [Inhabited σ]

/-- The states of a solver that is called one or more times: `maximize` or `maximize_with_interrupt` is called on a new solver, and again whenever the previous call has
returned.  Within a call any schedule is possible.  If `stop` is `false` then `interrupt()` always answers no. -/
inductive Session (cfg : SolverCfg σ) (stop : Bool) : Sys σ cfg.fr.F → Prop
  | first {s} (h : Par.init cfg = some s) : Session cfg stop s
  | step {s s' l} (h : Session cfg stop s) (hv : ValidLbl l) (hi : stop = false → ∀ i intr o, l = .run i intr o → intr = false) (hs : Par.step cfg s l = .ok s') :
    Session cfg stop s'
  | again {s s'} (h : Session cfg stop s) (hf : Finished s) (hs : Par.again cfg s.crit = some s') : Session cfg stop s'

/-- As `Session`, for the solver with a barrier.  If `sharp` is `true` then every step sees the barrier as it is. -/
inductive BSession (cfg : SolverCfg σ) (stop sharp : Bool) : BSys σ cfg.fr.F → Prop
  | first {s} (h : Bar.init cfg = some s) : BSession cfg stop sharp s
  | step {s s' l} (h : BSession cfg stop sharp s) (hv : BValidLbl l) (hi : stop = false → NoInterrupt l) (hp : sharp = true → Sharp l) (hs : Bar.step cfg s l = .ok s') :
    BSession cfg stop sharp s'
  | again {s s'} (h : BSession cfg stop sharp s) (hf : BFinished s) (hs : Bar.again cfg s.crit s.bars = some s') : BSession cfg stop sharp s'

end Verif.Spec
