import Verif.Examples.Knap
import Verif.Examples.Table
import Verif.Model.Mdd
/-!
Two concrete problems used in the examples and counterexamples beside the theorems (no code of the repository is modelled here).
-/
set_option autoImplicit false

namespace Verif.Inst
open Verif Spec

/-- Hash order = insertion order, sorting keeps ties as they are. -/
def orc {σ : Type} : Oracle σ := ⟨id, id⟩
theorem orc_valid {σ : Type} : (orc (σ := σ)).Valid := ⟨fun _ => .refl _, fun _ => .refl _⟩

/-- Hash order and tie order reversed. -/
def revOrc {σ : Type} : Oracle σ := ⟨List.reverse, List.reverse⟩
theorem revOrc_valid {σ : Type} : (revOrc (σ := σ)).Valid := ⟨List.reverse_perm, List.reverse_perm⟩

/-! A knapsack with four items. -/
def items : List Knap.Item := [(2, 3), (3, 4), (4, 5), (5, 6)]
abbrev kp : Problem Knap.St := Knap.prob items 7
def kpRank (a b : Knap.St) : Ordering := compare a.2 b.2
theorem kp_wf : WellFormed kp Knap.layering 18 := Knap.wellFormed items 7 (by decide)
theorem kp_adm : Admissible kp Knap.layering := Knap.admissible items 7
theorem kp_rel : SoundRelaxation kp Knap.relaxation Knap.layering 18 := Knap.soundRelaxation items 7
def kpRoot : SubProblem Knap.St := ⟨(0, 7), 0, [], isizeMax⟩
theorem kpRoot_genuine : Genuine kp kpRoot := ⟨[], .refl _, 0, Run.nil _, rfl⟩
/-- The first item is taken. -/
def kpSub : SubProblem Knap.St := ⟨(1, 5), 3, [⟨0, 1⟩], 13⟩
theorem kpSub_genuine : Genuine kp kpSub :=
  ⟨[⟨0, 1⟩], .refl _, 3, Run.cons (s := (0, 7)) (x := 0) (d := ⟨0, 1⟩) (v := 0) (by decide) (by decide) (Run.nil _), rfl⟩
/-- Items 0 and 2 are taken. -/
theorem kp_through : Through kp kpRoot 8 :=
  ⟨[⟨0, 1⟩, ⟨1, 0⟩, ⟨2, 1⟩, ⟨3, 0⟩], 8, ⟨(4, 1),
    Run.cons (s := (0, 7)) (x := 0) (d := ⟨0, 1⟩) (v := 5) (by decide) (by decide)
    (Run.cons (s := (1, 5)) (x := 1) (d := ⟨1, 0⟩) (v := 5) (by decide) (by decide)
    (Run.cons (s := (2, 5)) (x := 2) (d := ⟨2, 1⟩) (v := 0) (by decide) (by decide)
    (Run.cons (s := (3, 1)) (x := 3) (d := ⟨3, 0⟩) (v := 0) (by decide) (by decide) (Run.nil _)))), by decide⟩, by decide⟩

/-! A table problem on which the frontier cutset loses the optimum: branch `b` (first) is worth 12, branch `x` (second) at most 3, but `x` has
two children to be merged and the merged branch looks like 13. -/
def lossTab : Table.Tab :=
  [(0, [[(1, 0), (2, 0)]]),
   (2, [[(1, 2)], [(2, 1), (3, 0)]]),
   (2, [[(1, 0)], [(2, 2), (3, 2)], [(2, 0)]]),
   (10, [[(1, 10)], [(2, 0)], [(2, 0)]])]
abbrev lp : Problem Table.St := Table.prob lossTab 40
def lpRank (a b : Table.St) : Ordering := compare a.2 b.2
theorem lossTab_valid : Table.valid lossTab 10 40 = true := by decide
theorem lp_wf : WellFormed lp Table.layering 10 := Table.wellFormed lossTab_valid
theorem lp_adm : Admissible lp Table.layering := Table.admissible lossTab_valid
theorem lp_rel : SoundRelaxation lp Table.relaxation Table.layering 10 := Table.soundRelaxation lossTab_valid
def lpRoot : SubProblem Table.St := ⟨(0, 1), 0, [], isizeMax⟩
theorem lpRoot_genuine : Genuine lp lpRoot := ⟨[], .refl _, 0, Run.nil _, rfl⟩
theorem lp_through : Through lp lpRoot 12 := 
  ⟨[⟨0, 0⟩, ⟨1, 0⟩, ⟨2, 0⟩, ⟨3, 0⟩], 12, Table.follow_spec [0, 0, 0, 0] (0, 1) _ _ (by decide +kernel), by decide⟩

/-! A table problem whose first branch is optimal (12) but found late, while a worse branch (bound 11) is left in the frontier. -/
def staleTab : Table.Tab :=
  [(0, [[(1, 0), (2, 0), (3, 0)]]),
   (2, [[(1, 2)], [(2, 1)], [(3, 0)]]),
   (2, [[(1, 0)], [(2, 2), (3, 2), (4, 2)], [(5, 1)]]),
   (10, [[(1, 10)], [(2, 0)], [(2, 0)], [(2, 0)], [(2, 0)]])]
abbrev sp : Problem Table.St := Table.prob staleTab 40
theorem staleTab_valid : Table.valid staleTab 10 40 = true := by decide
theorem sp_through : ∃ ds, Solution sp ds 12 :=
  ⟨[⟨0, 0⟩, ⟨1, 0⟩, ⟨2, 0⟩, ⟨3, 0⟩], 12, Table.follow_spec [0, 0, 0, 0] (0, 1) _ _ (by decide +kernel), by decide⟩

end Verif.Inst
