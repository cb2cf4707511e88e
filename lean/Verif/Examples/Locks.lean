import Verif.Examples.Race
import Verif.Spec.BarrierFine
/-!
Concrete schedules for the solver with a barrier at the level of single accesses to the barrier (this file models no code of the repository).
-/
set_option autoImplicit false

namespace Verif.Inst
open Verif Spec

/-- A schedule: which thread moves, and what `interrupt()` answers. -/
def fsched {σ : Type} (l : List (Nat × Bool)) : List (FLbl σ) := l.map fun x => .run x.1 x.2 orc

theorem fsched_valid {σ : Type} (l : List (Nat × Bool)) : ∀ x ∈ (fsched l : List (FLbl σ)), FValidLbl x := by
  intro x hx
  obtain ⟨y, _, rfl⟩ := List.mem_map.1 hx
  exact orc_valid

theorem fsched_noint {σ : Type} {l : List (Nat × Bool)} (hl : l.all (fun x => !x.2) = true) : ∀ x ∈ (fsched l : List (FLbl σ)), FNoInterrupt x := by
  intro x hx
  obtain ⟨y, hy, rfl⟩ := List.mem_map.1 hx
  simpa [FNoInterrupt] using List.all_eq_true.1 hl y hy

variable {σ : Type} [DecidableEq σ] [Inhabited σ]

/-- Runs a schedule from the start and tests the result. -/
def ftest (cfg : SolverCfg σ) (l : List (Nat × Bool)) (f : FSys σ cfg.fr.F → Bool) : Bool :=
  match Fine.init cfg with
  | none => false
  | some s => match Fine.runs cfg s (fsched l) with
    | .ok s' => f s'
    | _ => false

theorem ftest_spec_max {cfg : SolverCfg σ} {l : List (Nat × Bool)} {f : FSys σ cfg.fr.F → Bool} (hl : l.all (fun x => !x.2) = true) (h : ftest cfg l f = true) :
    ∃ s, FReachableMax cfg s ∧ f s = true := by
  unfold ftest at h
  split at h
  · cases h
  · rename_i s0 h0
    split at h
    · rename_i s' h1
      exact ⟨s', ⟨s0, fsched l, h0, fun x hx => ⟨fsched_valid l x hx, fsched_noint hl x hx⟩, h1⟩, h⟩
    · cases h

/-- Thread 0 is about to store a threshold of 0 for the state (5,2), which it compared with the stored one before thread 1 stored 5. -/
def lostRun : List (Nat × Bool) := (List.replicate 154 1 ++ List.replicate 96 0 ++ List.replicate 54 1).map fun i => (i, false)

end Verif.Inst
