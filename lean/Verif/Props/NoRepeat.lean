import Verif.Proofs.Bar.Past
import Verif.Examples.Race
/-!
C49: the solver with a barrier does not repeat work.
-/
set_option autoImplicit false

namespace Verif.Props
open Verif Spec Bar
variable {σ : Type} [DecidableEq σ] [Inhabited σ] {cfg : SolverCfg σ} {S : Layering σ} {B : Int} {s : BSys σ cfg.fr.F}

/-- **C49.** No repeated work: if two of the nodes given to workers have the same state, the later one has a strictly greater value. -/
theorem barrier_no_repeated_work (L : FrontierLaws cfg.fr) (hg : BaseCfg cfg S B) (hn : cfg.nbThreads ≤ cfg.custom) {s0 : BSys σ cfg.fr.F}
    (h0 : Bar.init cfg = some s0) {ls : List (BLbl σ)} (hl : ∀ l ∈ ls, BValidLbl l ∧ Sharp l) (h : runs cfg s0 ls = .ok s) :
    (given cfg s0 ls).Pairwise fun m n => m.state = n.state → m.value < n.value := by
  obtain ⟨s1, g1, g2, _⟩ := init_spec (cfg := cfg) L
  rw [h0] at g1; cases g1
  exact runs_past (L := L) hg hn ls s0 s [] g2 (by intro n hn; cases hn) .nil hl h

/-- The knapsack run gives 6 nodes to the worker. -/
example : Inst.btest (Inst.kpCfg 1) (List.replicate 34 (0, false)) (fun s => s.crit.explored == 6) = true := by decide +kernel

end Verif.Props
