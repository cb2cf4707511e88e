import Verif.Spec.Solver
/-!
Problems whose layers are small.
-/
set_option autoImplicit false

namespace Verif.Spec
variable {σ : Type}

/-- After any number of decisions, as long as there is one left to take, at most `w` different states can be reached. -/
def Narrow (p : Problem σ) (w : Nat) : Prop :=
  ∀ k, k < p.nbVars → ∃ l : List σ, l.length ≤ w ∧ ∀ ds v s, Run p p.init ds v s → ds.length = k → s ∈ l

/-- The width for the initial state suffices for all reachable states.  Of the relaxation nothing is assumed but that it respects layers and does not overflow
(`BaseCfg`); the bound must be admissible for a layering that need not be the one of the relaxation. -/
structure NarrowCfg (cfg : SolverCfg σ) (S : Layering σ) (B : Int) (S' : Layering σ) (B' : Int) : Prop where
  base : BaseCfg cfg S B
  wf : WellFormed cfg.p S' B'
  adm : Admissible cfg.p S'
  narrow : Narrow cfg.p (cfg.width cfg.p.init)

end Verif.Spec
