import Verif.Spec.Solver
import Verif.Model.Barrier
/-!
Notions used to state what the solver with a barrier guarantees.
-/
set_option autoImplicit false

namespace Verif.Spec
variable {σ : Type} [DecidableEq σ] [Inhabited σ]

/-- The schedule resolves hash order and ties by permutations only; what the threads see of the barrier is arbitrary. -/
def BValidLbl : BLbl σ → Prop
  | .run _ _ o _ => o.Valid
  | .spurious _ => True

/-- The step sees the barrier as it is at that moment. -/
def Sharp : BLbl σ → Prop
  | .run _ _ _ v => v = none
  | .spurious _ => True

/-- `interrupt()` answers no. -/
def NoInterrupt : BLbl σ → Prop
  | .run _ intr _ _ => intr = false
  | .spurious _ => True

/-- `s` can be reached from the start of a run by some schedule: any interleaving, any answers of `interrupt()`, any resolution of
hash order and ties, and whatever the threads see of the barrier. -/
def BReachable (cfg : SolverCfg σ) (s : BSys σ cfg.fr.F) : Prop :=
  ∃ s0 ls, Bar.init cfg = some s0 ∧ (∀ l ∈ ls, BValidLbl l) ∧ Bar.runs cfg s0 ls = .ok s

/-- As `BReachable`, by steps that see the barrier as it is: with a single worker, all that can happen. -/
def SharpReachable (cfg : SolverCfg σ) (s : BSys σ cfg.fr.F) : Prop :=
  ∃ s0 ls, Bar.init cfg = some s0 ∧ (∀ l ∈ ls, BValidLbl l ∧ Sharp l) ∧ Bar.runs cfg s0 ls = .ok s

/-- As `SharpReachable`, when `interrupt()` always answers no: the runs of `maximize()`. -/
def SharpReachableMax (cfg : SolverCfg σ) (s : BSys σ cfg.fr.F) : Prop :=
  ∃ s0 ls, Bar.init cfg = some s0 ∧ (∀ l ∈ ls, BValidLbl l ∧ Sharp l ∧ NoInterrupt l) ∧ Bar.runs cfg s0 ls = .ok s

/-- All workers have left their loop: `maximize` returns. -/
def BFinished {F : Type} (s : BSys σ F) : Prop := ∀ t ∈ s.threads, t.pc = .done

/-- The depth (number of decisions) of the node a worker holds: from the moment it got it until it reports that it has finished with it. -/
def heldDepth (t : BThread σ) : Option Nat :=
  match t.pc with
  | .idle => none
  | .waiting => none
  | .done => none
  | .start n => some n.path.length
  | .restr n _ => some n.path.length
  | .relb n _ => some n.path.length
  | .relx n _ _ => some n.path.length
  | .post n _ => some n.path.length
  | .fin d _ => some d

/-- The node the worker `i` has just been given. -/
def gotNode {F : Type} (s : BSys σ F) (i : Nat) : Option (SubProblem σ) :=
  match s.threads[i]? with
  | some t => match t.pc with
    | .start n => some n
    | _ => none
  | none => none

/-- The nodes a schedule gives to workers, in order. -/
def given (cfg : SolverCfg σ) : BSys σ cfg.fr.F → List (BLbl σ) → List (SubProblem σ)
  | _, [] => []
  | s, l :: ls =>
    match l, Bar.step cfg s l with
    | .run i _ _ _, .ok s' => (gotNode s' i).toList ++ given cfg s' ls
    | .spurious _, .ok s' => given cfg s' ls
    | _, _ => []

/-- How many workers hold a node. -/
def bholders {F : Type} (s : BSys σ F) : Nat := s.threads.countP fun t => (heldDepth t).isSome

end Verif.Spec
