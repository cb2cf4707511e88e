import Verif.Spec.Solver
import Verif.Spec.Barrier
/-!
The order in which a solver explores the nodes.
-/
set_option autoImplicit false

namespace Verif.Spec
variable {σ : Type} [DecidableEq σ] [Inhabited σ]

/-- A worker has just been given the node `n`. -/
def Handed {F : Type} (s : Sys σ F) (n : SubProblem σ) : Prop := ∃ t ∈ s.threads, t.pc = .start n

/-- A worker has just been given the node `n`. -/
def BHanded {F : Type} (s : BSys σ F) (n : SubProblem σ) : Prop := ∃ t ∈ s.threads, t.pc = .start n

/-- The node a worker is exploring. -/
def inHand : Pc σ → Option (SubProblem σ)
  | .start n => some n
  | .restr n _ => some n
  | .relb n _ => some n
  | .relx n _ _ => some n
  | _ => none

/-- The node a worker is exploring. -/
def bInHand : BPc σ → Option (SubProblem σ)
  | .start n => some n
  | .restr n _ => some n
  | .relb n _ => some n
  | .relx n _ _ => some n
  | .post n _ => some n
  | _ => none

/-- No node that waits in the frontier or that a worker is exploring has a bound above `u`. -/
def BoundsAtMost {cfg : SolverCfg σ} (L : FrontierLaws cfg.fr) (s : Sys σ cfg.fr.F) (u : Int) : Prop :=
  (∀ n ∈ L.holds s.crit.fringe, n.ub ≤ u) ∧ ∀ t ∈ s.threads, ∀ n, inHand t.pc = some n → n.ub ≤ u

/-- No node that waits in the frontier or that a worker is exploring has a bound above `u`. -/
def BBoundsAtMost {cfg : SolverCfg σ} (L : FrontierLaws cfg.fr) (s : BSys σ cfg.fr.F) (u : Int) : Prop :=
  (∀ n ∈ L.holds s.crit.fringe, n.ub ≤ u) ∧ ∀ t ∈ s.threads, ∀ n, bInHand t.pc = some n → n.ub ≤ u

end Verif.Spec
