import Verif.Examples.Race
import Verif.Spec.BestFirst
/-!
A problem on which a second worker is given a node that cannot lead to an optimal solution (this file models no code of the repository).
-/
set_option autoImplicit false

namespace Verif.Inst
open Verif Spec

/-- The heuristic goes to (1,1), worth 1; the optimum, worth 10, goes through (1,2); the best below (1,3) is worth 5. -/
def eagerTab : Grid.Tab :=
  [[[(0, 0)], [(1, 1), (2, 0), (3, 0)]],
   [[(0, 10)], [(1, 0)], [(2, 10)], [(3, 5)]],
   [[(0, 0)], [(0, 0)], [(0, 0)], [(0, 0)]]]

theorem eagerTab_valid : Grid.valid eagerTab 10 30 = true := by decide +kernel

def eagerCfg (n : Nat) : SolverCfg Grid.St :=
  { p := Grid.prob eagerTab 30
    r := Table.relaxation
    rank := lpRank
    width := fun _ => 1
    cutset := .lastExactLayer
    fr := simpleOps lpRank
    custom := n
    nbThreads := n }

theorem eagerCfg_good (n : Nat) : GoodCfg (eagerCfg n) Table.layering 10 :=
  ⟨Grid.wellFormed eagerTab_valid, Grid.admissible eagerTab_valid, Grid.soundRelaxation eagerTab_valid, fun _ => Nat.le_refl 1⟩

def eagerLaws (n : Nat) : FrontierLaws (eagerCfg n).fr := Props.simple_laws (rank := lpRank)

theorem eager_optimum (n : Nat) : IsOptimum (eagerCfg n).p 10 := by
  constructor
  · obtain ⟨ds, h⟩ := Grid.vals_completion (T := eagerTab) (E := 30) 3 (0, 1) rfl 10 (by decide +kernel)
    exact ⟨ds, 10, h, rfl⟩
  · rintro ds v ⟨u, ⟨t, hr, ht⟩, rfl⟩
    have h1 := Grid.mem_vals (T := eagerTab) (E := 30) hr ht 3 rfl
    have h2 : (Grid.vals eagerTab 3 (0, 1)).all (fun x => decide (x ≤ 10)) = true := by decide +kernel
    have := List.all_eq_true.1 h2 u h1
    simp only [decide_eq_true_eq] at this
    show (0 : Int) + u ≤ 10
    omega

/-- The bounds of the nodes that have just been handed out. -/
def handedUbs {F : Type} (s : Sys Grid.St F) : List Int := s.threads.filterMap fun t => match t.pc with
  | .start n => some n.ub
  | _ => none

/-- The bounds of the nodes that have just been handed out. -/
def bHandedUbs {F : Type} (s : BSys Grid.St F) : List Int := s.threads.filterMap fun t => match t.pc with
  | .start n => some n.ub
  | _ => none

theorem handedUbs_spec {F : Type} {s : Sys Grid.St F} {u : Int} (h : (handedUbs s).contains u = true) : ∃ n, Handed s n ∧ n.ub = u := by
  rw [List.contains_iff_mem, handedUbs, List.mem_filterMap] at h
  obtain ⟨⟨pc, m⟩, h1, h2⟩ := h
  cases pc <;> simp only [Option.some.injEq] at h2 <;> try cases h2
  exact ⟨_, ⟨_, h1, rfl⟩, rfl⟩

theorem bHandedUbs_spec {F : Type} {s : BSys Grid.St F} {u : Int} (h : (bHandedUbs s).contains u = true) : ∃ n, BHanded s n ∧ n.ub = u := by
  rw [List.contains_iff_mem, bHandedUbs, List.mem_filterMap] at h
  obtain ⟨⟨pc, m⟩, h1, h2⟩ := h
  cases pc <;> simp only [Option.some.injEq] at h2 <;> try cases h2
  exact ⟨_, ⟨_, h1, rfl⟩, rfl⟩

end Verif.Inst
