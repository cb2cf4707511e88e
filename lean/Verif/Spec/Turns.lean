import Verif.Spec.Barrier
/-!
Schedules of the solver with a barrier that restrict which workers are at work at the same time.
-/
set_option autoImplicit false

namespace Verif.Spec
variable {σ : Type} [DecidableEq σ] [Inhabited σ]

/-- `P` holds at the start of a run and after each of its steps. -/
def Along (cfg : SolverCfg σ) (P : BSys σ cfg.fr.F → Prop) : BSys σ cfg.fr.F → List (BLbl σ) → Prop
  | s, [] => P s
  | s, l :: ls => P s ∧ ∀ s', Bar.step cfg s l = .ok s' → Along cfg P s' ls

/-- As `SharpReachableMax`, by a run all of whose states satisfy `P`. -/
def ReachableAlong (cfg : SolverCfg σ) (P : BSys σ cfg.fr.F → Prop) (s : BSys σ cfg.fr.F) : Prop :=
  ∃ s0 ls, Bar.init cfg = some s0 ∧ (∀ l ∈ ls, BValidLbl l ∧ Sharp l ∧ NoInterrupt l) ∧ Along cfg P s0 ls ∧ Bar.runs cfg s0 ls = .ok s

/-- At most one worker holds a node. -/
def OneHolder {F : Type} (s : BSys σ F) : Prop := bholders s ≤ 1

/-- The worker has begun to process its node, and has not returned from this. -/
def processing (t : BThread σ) : Bool :=
  match t.pc with
  | .restr _ _ => true
  | .relb _ _ => true
  | .relx _ _ _ => true
  | .post _ _ => true
  | _ => false

/-- At most one worker is processing a node; others may hold one. -/
def OneProcessing {F : Type} (s : BSys σ F) : Prop := s.threads.countP processing ≤ 1

end Verif.Spec
