import Verif.Model.Ask
import Verif.Spec.Crash
/-!
Notions used to state what a panic of `interrupt()` does.
-/
set_option autoImplicit false

namespace Verif.Spec
variable {σ : Type} [DecidableEq σ] [Inhabited σ]

/-- `s` can be reached from the start of a run in which `interrupt()` may panic. -/
def AskReachable (cfg : SolverCfg σ) (s : Torn (Sys σ cfg.fr.F)) : Prop :=
  ∃ s0 ls, Par.init cfg = some s0 ∧ (∀ l, Fate.step l ∈ ls → ValidLbl l) ∧ Par.askRuns cfg ⟨s0, []⟩ ls = some s

/-- The same for the solver with a barrier. -/
def BAskReachable (cfg : SolverCfg σ) (s : Torn (BSys σ cfg.fr.F)) : Prop :=
  ∃ s0 ls, Bar.init cfg = some s0 ∧ (∀ l, Fate.step l ∈ ls → BValidLbl l) ∧ Bar.askRuns cfg ⟨s0, []⟩ ls = some s

/-- `s` can be reached from the start of a run in which workers may panic in `interrupt()` and while they compile a diagram. -/
def MixReachable (cfg : SolverCfg σ) (s : Torn (Sys σ cfg.fr.F)) : Prop :=
  ∃ s0 ls, Par.init cfg = some s0 ∧ (∀ l, Fate.step l ∈ ls → ValidLbl l) ∧ Par.mixRuns cfg ⟨s0, []⟩ ls = some s

/-- The same for the solver with a barrier. -/
def BMixReachable (cfg : SolverCfg σ) (s : Torn (BSys σ cfg.fr.F)) : Prop :=
  ∃ s0 ls, Bar.init cfg = some s0 ∧ (∀ l, Fate.step l ∈ ls → BValidLbl l) ∧ Bar.mixRuns cfg ⟨s0, []⟩ ls = some s

/-- A worker that has panicked holds a node. -/
def Holds {F : Type} (s : Torn (Sys σ F)) : Prop := ∃ i ∈ s.dead, ∃ t, s.sys.threads[i]? = some t ∧ ((∃ n lb, t.pc = .restr n lb) ∨ ∃ n lb dd, t.pc = .relx n lb dd)

/-- The same for the solver with a barrier. -/
def BHolds {F : Type} (s : Torn (BSys σ F)) : Prop := ∃ i ∈ s.dead, ∃ t, s.sys.threads[i]? = some t ∧ ((∃ n lb, t.pc = .restr n lb) ∨ ∃ n lb dd, t.pc = .relx n lb dd)

end Verif.Spec
