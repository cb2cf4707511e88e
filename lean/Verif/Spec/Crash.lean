import Verif.Model.Crash
import Verif.Spec.Barrier
/-!
Notions used to state what the panic of a worker does.
-/
set_option autoImplicit false

namespace Verif.Spec
variable {σ : Type} [DecidableEq σ] [Inhabited σ]

/-- `s` can be reached from the start of a run in which workers may panic while they compile a diagram. -/
def TornReachable (cfg : SolverCfg σ) (s : Torn (Sys σ cfg.fr.F)) : Prop :=
  ∃ s0 ls, Par.init cfg = some s0 ∧ (∀ l, Fate.step l ∈ ls → ValidLbl l) ∧ Par.tornRuns cfg ⟨s0, []⟩ ls = some s

/-- As `TornReachable`, when `interrupt()` always answers no: the runs of `maximize()`. -/
def TornReachableMax (cfg : SolverCfg σ) (s : Torn (Sys σ cfg.fr.F)) : Prop :=
  ∃ s0 ls, Par.init cfg = some s0 ∧ (∀ l, Fate.step l ∈ ls → ValidLbl l) ∧ (∀ i intr o, Fate.step (.run i intr o) ∈ ls → intr = false) ∧
    Par.tornRuns cfg ⟨s0, []⟩ ls = some s

/-- As `TornReachable`, for the solver with a barrier. -/
def BTornReachable (cfg : SolverCfg σ) (s : Torn (BSys σ cfg.fr.F)) : Prop :=
  ∃ s0 ls, Bar.init cfg = some s0 ∧ (∀ l, Fate.step l ∈ ls → BValidLbl l) ∧ Bar.tornRuns cfg ⟨s0, []⟩ ls = some s

/-- As `TornReachableMax`, for the solver with a barrier. -/
def BTornReachableMax (cfg : SolverCfg σ) (s : Torn (BSys σ cfg.fr.F)) : Prop :=
  ∃ s0 ls, Bar.init cfg = some s0 ∧ (∀ l, Fate.step l ∈ ls → BValidLbl l) ∧ (∀ i intr o v, Fate.step (.run i intr o v) ∈ ls → intr = false) ∧
    Bar.tornRuns cfg ⟨s0, []⟩ ls = some s

/-- All threads have ended, in one way or the other: `std::thread::scope` ends. -/
def Ended {F : Type} (s : Torn (Sys σ F)) : Prop := ∀ (i : Nat) (t : Thread σ), s.sys.threads[i]? = some t → i ∈ s.dead ∨ t.pc = .done

/-- The same for the solver with a barrier. -/
def BEnded {F : Type} (s : Torn (BSys σ F)) : Prop := ∀ (i : Nat) (t : BThread σ), s.sys.threads[i]? = some t → i ∈ s.dead ∨ t.pc = .done

end Verif.Spec
