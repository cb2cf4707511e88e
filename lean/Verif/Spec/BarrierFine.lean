import Verif.Spec.Barrier
import Verif.Model.BarrierFine
/-!
Notions used to state what the solver with a barrier guarantees when its threads interleave at every access to the barrier.
-/
set_option autoImplicit false

namespace Verif.Spec
variable {σ : Type} [DecidableEq σ] [Inhabited σ]

/-- The schedule resolves hash order and ties by permutations only. -/
def FValidLbl : FLbl σ → Prop
  | .run _ _ o => o.Valid
  | .spurious _ => True

/-- `interrupt()` answers no. -/
def FNoInterrupt : FLbl σ → Prop
  | .run _ intr _ => intr = false
  | .spurious _ => True

/-- `s` can be reached from the start of a run by some schedule: any interleaving of the accesses to the barrier, any answers of `interrupt()`, any resolution of
hash order and ties. -/
def FReachable (cfg : SolverCfg σ) (s : FSys σ cfg.fr.F) : Prop :=
  ∃ s0 ls, Fine.init cfg = some s0 ∧ (∀ l ∈ ls, FValidLbl l) ∧ Fine.runs cfg s0 ls = .ok s

/-- As `FReachable`, when `interrupt()` always answers no: the runs of `maximize()`. -/
def FReachableMax (cfg : SolverCfg σ) (s : FSys σ cfg.fr.F) : Prop :=
  ∃ s0 ls, Fine.init cfg = some s0 ∧ (∀ l ∈ ls, FValidLbl l ∧ FNoInterrupt l) ∧ Fine.runs cfg s0 ls = .ok s

/-- All workers have left their loop: `maximize` returns. -/
def FFinished {F : Type} (s : FSys σ F) : Prop := ∀ t ∈ s.sys.threads, t.pc = .done

end Verif.Spec
