import Verif.Model.Stray
import Verif.Spec.Crash
/-!
Notions used to state what happens if there are more workers than cells for their bounds.
-/
set_option autoImplicit false

namespace Verif.Spec
variable {σ : Type} [DecidableEq σ] [Inhabited σ]

/-- `s` can be reached from the start of a run in which workers may panic while they compile a diagram or take a node. -/
def FallReachable (cfg : SolverCfg σ) (s : Torn (Sys σ cfg.fr.F)) : Prop :=
  ∃ s0 ls, Par.init cfg = some s0 ∧ (∀ l, Fate.step l ∈ ls → ValidLbl l) ∧ Par.fallRuns cfg ⟨s0, []⟩ ls = some s

/-- As `FallReachable`, when `interrupt()` always answers no: the runs of `maximize()`. -/
def FallReachableMax (cfg : SolverCfg σ) (s : Torn (Sys σ cfg.fr.F)) : Prop :=
  ∃ s0 ls, Par.init cfg = some s0 ∧ (∀ l, Fate.step l ∈ ls → ValidLbl l) ∧ (∀ i intr o, Fate.step (.run i intr o) ∈ ls → intr = false) ∧
    Par.fallRuns cfg ⟨s0, []⟩ ls = some s

/-- As `FallReachable`, for the solver with a barrier. -/
def BFallReachable (cfg : SolverCfg σ) (s : Torn (BSys σ cfg.fr.F)) : Prop :=
  ∃ s0 ls, Bar.init cfg = some s0 ∧ (∀ l, Bar.Fall.torn (.step l) ∈ ls → BValidLbl l) ∧ Bar.fallRuns cfg ⟨s0, []⟩ ls = some s

/-- As `FallReachableMax`, for the solver with a barrier. -/
def BFallReachableMax (cfg : SolverCfg σ) (s : Torn (BSys σ cfg.fr.F)) : Prop :=
  ∃ s0 ls, Bar.init cfg = some s0 ∧ (∀ l, Bar.Fall.torn (.step l) ∈ ls → BValidLbl l) ∧ (∀ i intr o v, Bar.Fall.torn (.step (.run i intr o v)) ∈ ls → intr = false) ∧
    Bar.fallRuns cfg ⟨s0, []⟩ ls = some s

/-- The same solver with a cell for everybody. -/
abbrev roomy (cfg : SolverCfg σ) : SolverCfg σ := { cfg with custom := cfg.custom + cfg.nbThreads }

end Verif.Spec
