import Verif.Spec.Uncapped
import Verif.Spec.BarrierFine
/-!
Runs at the level of single accesses in which the bound of a node is not lowered to that of its parent.
-/
set_option autoImplicit false

namespace Verif.Spec
variable {σ : Type} [DecidableEq σ] [Inhabited σ]

/-- `P` holds of all states of the run. -/
def FAlong (cfg : SolverCfg σ) (P : FSys σ cfg.fr.F → Prop) : FSys σ cfg.fr.F → List (FLbl σ) → Prop
  | s, [] => P s
  | s, l :: ls => P s ∧ ∀ s', Fine.step cfg s l = .ok s' → FAlong cfg P s' ls

/-- As `FReachable`, by a run all of whose states satisfy `P`. -/
def FReachableAlong (cfg : SolverCfg σ) (P : FSys σ cfg.fr.F → Prop) (s : FSys σ cfg.fr.F) : Prop :=
  ∃ s0 ls, Fine.init cfg = some s0 ∧ (∀ l ∈ ls, FValidLbl l) ∧ FAlong cfg P s0 ls ∧ Fine.runs cfg s0 ls = .ok s

/-- As `FReachableMax`, by a run all of whose states satisfy `P`. -/
def FReachableMaxAlong (cfg : SolverCfg σ) (P : FSys σ cfg.fr.F → Prop) (s : FSys σ cfg.fr.F) : Prop :=
  ∃ s0 ls, Fine.init cfg = some s0 ∧ (∀ l ∈ ls, FValidLbl l ∧ FNoInterrupt l) ∧ FAlong cfg P s0 ls ∧ Fine.runs cfg s0 ls = .ok s

/-- No node that is about to be pushed has a bound that is both improving and larger than that of its parent, to which it would be lowered. -/
def FUncapped {F : Type} (s : FSys σ F) : Prop := Uncapped s.sys

end Verif.Spec
