import Verif.Examples.Solvers
import Verif.Examples.Grid
import Verif.Spec.Barrier
/-!
Concrete configurations and schedules for the solver with a barrier (this file models no code of the repository).
-/
set_option autoImplicit false

namespace Verif.Inst
open Verif Spec

/-- A schedule: which thread moves, and what `interrupt()` answers; every step sees the barrier as it is. -/
def bsched {σ : Type} (l : List (Nat × Bool)) : List (BLbl σ) := l.map fun x => .run x.1 x.2 orc none

theorem bsched_valid {σ : Type} (l : List (Nat × Bool)) : ∀ x ∈ (bsched l : List (BLbl σ)), BValidLbl x ∧ Sharp x := by
  intro x hx
  obtain ⟨y, _, rfl⟩ := List.mem_map.1 hx
  exact ⟨orc_valid, rfl⟩

theorem bsched_noint {σ : Type} {l : List (Nat × Bool)} (hl : l.all (fun x => !x.2) = true) : ∀ x ∈ (bsched l : List (BLbl σ)), NoInterrupt x := by
  intro x hx
  obtain ⟨y, hy, rfl⟩ := List.mem_map.1 hx
  simpa [NoInterrupt] using List.all_eq_true.1 hl y hy

variable {σ : Type} [DecidableEq σ] [Inhabited σ]

/-- Runs a schedule from the start and tests the result. -/
def btest (cfg : SolverCfg σ) (l : List (Nat × Bool)) (f : BSys σ cfg.fr.F → Bool) : Bool :=
  match Bar.init cfg with
  | none => false
  | some s => match Bar.runs cfg s (bsched l) with
    | .ok s' => f s'
    | _ => false

def bIsDone : BPc σ → Bool
  | .done => true
  | _ => false

def bIsWaiting : BPc σ → Bool
  | .waiting => true
  | _ => false

def bAllDone {F : Type} (s : BSys σ F) : Bool := s.threads.all fun t => bIsDone t.pc

omit [DecidableEq σ] [Inhabited σ] in
theorem bAllDone_spec {F : Type} {s : BSys σ F} (h : bAllDone s = true) : BFinished s := by
  intro t ht
  have := List.all_eq_true.1 h t ht
  cases hp : t.pc <;> rw [hp] at this <;> simp [bIsDone] at this ⊢

theorem btest_spec {cfg : SolverCfg σ} {l : List (Nat × Bool)} {f : BSys σ cfg.fr.F → Bool} (h : btest cfg l f = true) : ∃ s, SharpReachable cfg s ∧ f s = true := by
  unfold btest at h
  split at h
  · cases h
  · rename_i s0 h0
    split at h
    · rename_i s' h1
      exact ⟨s', ⟨s0, bsched l, h0, bsched_valid l, h1⟩, h⟩
    · cases h

theorem btest_spec_max {cfg : SolverCfg σ} {l : List (Nat × Bool)} {f : BSys σ cfg.fr.F → Bool} (hl : l.all (fun x => !x.2) = true) (h : btest cfg l f = true) :
    ∃ s, SharpReachableMax cfg s ∧ f s = true := by
  unfold btest at h
  split at h
  · cases h
  · rename_i s0 h0
    split at h
    · rename_i s' h1
      exact ⟨s', ⟨s0, bsched l, h0, fun x hx => ⟨(bsched_valid l x hx).1, (bsched_valid l x hx).2, bsched_noint hl x hx⟩, h1⟩, h⟩
    · cases h

/-! ### Two threads lose the optimum -/

/-- Layer by layer (row 0: the merged state).  The solution worth 10 goes through the states (4,1), (5,1), (6,1). -/
def raceTab : Grid.Tab :=
  [[[(0, 0)], [(1, 0), (2, 0)]],
   [[(0, 0)], [(1, 0)], [(2, 0)]],
   [[(0, 0)], [(1, 0)], [(2, 0), (3, 0), (4, 2)]],
   [[(1, 0), (3, 0)], [(1, 0)], [(3, 0)], [(2, 0)], [(1, -2)]],
   [[(0, 0)], [(1, 0), (2, 0)], [(1, 0)], [(3, 0)]],
   [[(0, 0)], [(1, 0), (2, 0), (3, 0)], [(4, 0)], [(5, 0)]],
   [[(0, 10)], [(1, 10)], [(1, 0)], [(1, 0)], [(1, 0)], [(1, 5)]]]

theorem raceTab_valid : Grid.valid raceTab 10 70 = true := by decide +kernel

def raceWidth (s : Grid.St) : Nat := if s = (1, 2) then 2 else if s = (2, 2) then 3 else 1

def raceCfg (n : Nat) : SolverCfg Grid.St :=
  { p := Grid.prob raceTab 70
    r := Table.relaxation
    rank := lpRank
    width := raceWidth
    cutset := .lastExactLayer
    fr := simpleOps lpRank
    custom := n
    nbThreads := n }

theorem raceCfg_good (n : Nat) : GoodCfg (raceCfg n) Table.layering 10 :=
  ⟨Grid.wellFormed raceTab_valid, Grid.admissible raceTab_valid, Grid.soundRelaxation raceTab_valid, fun s => by
    show 1 ≤ raceWidth s
    unfold raceWidth; split
    · omega
    · split <;> omega⟩

def raceLaws (n : Nat) : FrontierLaws (raceCfg n).fr := Props.simple_laws (rank := lpRank)

/-- Thread 0 takes (1,2) but waits; thread 1 compiles the relaxed diagram of (1,1), whose thresholds are stored, but does not push its cutset yet; thread 0 processes
(1,2) and (2,2), trusting those thresholds; then thread 1 pushes (4,1), takes it, and the threshold left by (2,2) for (5,1) cuts off the optimum. -/
def raceRun : List (Nat × Bool) :=
  (List.replicate 8 0 ++ List.replicate 5 1 ++ List.replicate 13 0 ++ List.replicate 6 1 ++ [0, 1]).map fun i => (i, false)

theorem race_solution (n : Nat) : ∃ ds, Solution (raceCfg n).p ds 10 := by
  obtain ⟨ds, h⟩ := Grid.vals_completion (T := raceTab) (E := 70) 7 (0, 1) rfl 10 (by decide +kernel)
  exact ⟨ds, 10, h, rfl⟩

theorem race_optimum (n : Nat) : IsOptimum (raceCfg n).p 10 := by
  refine ⟨race_solution n, ?_⟩
  rintro ds v ⟨u, ⟨t, hr, ht⟩, rfl⟩
  have h1 := Grid.mem_vals (T := raceTab) (E := 70) hr ht 7 rfl
  have h2 : (Grid.vals raceTab 7 (0, 1)).all (fun x => decide (x ≤ 10)) = true := by decide +kernel
  have := List.all_eq_true.1 h2 u h1
  simp only [decide_eq_true_eq] at this
  show (0 : Int) + u ≤ 10
  omega

end Verif.Inst
