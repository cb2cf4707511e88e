import Verif.Props.Uncapped
import Verif.Proofs.Fine.Honest
import Verif.Examples.UncappedFine
/-!
C43 at the level of single accesses to the barrier: with any number of threads the solver fails only if the bound of a node is lowered to that of its parent.
-/
set_option autoImplicit false

namespace Verif.Props
open Verif Spec Bar
variable {σ : Type} [DecidableEq σ] [Inhabited σ] {cfg : SolverCfg σ} {S : Layering σ} {B : Int} {s : FSys σ cfg.fr.F}

/-- **C43 (partial).** However the accesses of the threads to the barrier and their critical sections interleave, interrupted or not: if no node is pushed whose bound is lowered to that
of its parent (and would have been improving), and the status is `Proved`, then the best value is the optimum, and the best solution attains it.
Nothing is assumed about what the threads see: that follows.  Missing: runs in which a bound is lowered; then it may fail (`lock_two_threads_not_optimal`). -/
theorem lock_uncapped_proved_partial (L : FrontierLaws cfg.fr) (hg : GoodCfg cfg S B) (hco : CutOK cfg S) (h0 : 0 < cfg.nbThreads) (hn : cfg.nbThreads ≤ cfg.custom)
    (hr : FReachableAlong cfg FUncapped s) (hf : FFinished s) (hp : proved cfg s.sys.crit = true) {v : Int} (hv : IsOptimum cfg.p v) :
    bestValue cfg s.sys.crit = some v ∧ bestUpperBound cfg s.sys.crit = v ∧ ∃ sol, bestSolution cfg s.sys.crit = some sol ∧ IsSolutionOf cfg.p sol v := by
  obtain ⟨b, hb⟩ := Fine.finished_honest L hg.base hn hr hf
  exact barrier_uncapped_proved_partial L hg hco h0 hn hb hf hp hv

/-- **C43 (partial).** In particular for `maximize()`.  Missing: as in `lock_uncapped_proved_partial`. -/
theorem lock_uncapped_optimal_partial (L : FrontierLaws cfg.fr) (hg : GoodCfg cfg S B) (hco : CutOK cfg S) (h0 : 0 < cfg.nbThreads) (hn : cfg.nbThreads ≤ cfg.custom)
    (hr : FReachableMaxAlong cfg FUncapped s) (hf : FFinished s) {v : Int} (hv : IsOptimum cfg.p v) :
    bestValue cfg s.sys.crit = some v ∧ bestUpperBound cfg s.sys.crit = v ∧ ∃ sol, bestSolution cfg s.sys.crit = some sol ∧ IsSolutionOf cfg.p sol v :=
  lock_uncapped_proved_partial L hg hco h0 hn (Fine.max_along hr) hf (by simp [proved, Fine.finished_noint L hg.base hn hr hf]) hv

/-- **C43 (partial).** ...and nothing is found exactly if the problem is infeasible.  Missing: as in `lock_uncapped_proved_partial`. -/
theorem lock_uncapped_infeasible_partial (L : FrontierLaws cfg.fr) (hg : GoodCfg cfg S B) (hco : CutOK cfg S) (h0 : 0 < cfg.nbThreads) (hn : cfg.nbThreads ≤ cfg.custom)
    (hr : FReachableAlong cfg FUncapped s) (hf : FFinished s) (hp : proved cfg s.sys.crit = true) :
    (bestValue cfg s.sys.crit = none ↔ Infeasible cfg.p) ∧ (bestSolution cfg s.sys.crit = none ↔ Infeasible cfg.p) := by
  obtain ⟨b, hb⟩ := Fine.finished_honest L hg.base hn hr hf
  exact barrier_uncapped_infeasible_partial (s := { s.sys with bars := b }) L hg hco h0 hn hb hf hp

/-- The other way round: in every run that ends with `Proved` and does not return the optimum, the bound of a node is lowered to that of its parent. -/
theorem lock_failure_capped (L : FrontierLaws cfg.fr) (hg : GoodCfg cfg S B) (hco : CutOK cfg S) (h0 : 0 < cfg.nbThreads) (hn : cfg.nbThreads ≤ cfg.custom)
    {s0 : FSys σ cfg.fr.F} {ls : List (FLbl σ)} (hs : Fine.init cfg = some s0) (hl : ∀ l ∈ ls, FValidLbl l)
    (hr : Fine.runs cfg s0 ls = .ok s) (hf : FFinished s) (hp : proved cfg s.sys.crit = true) {v : Int} (hv : IsOptimum cfg.p v) (hne : bestValue cfg s.sys.crit ≠ some v) : ¬ FAlong cfg FUncapped s0 ls :=
  fun h => hne (lock_uncapped_proved_partial L hg hco h0 hn ⟨s0, ls, hs, hl, h, hr⟩ hf hp hv).1

/-- Two threads that take turns at every access, on the instance on which two threads can fail: no bound is lowered, and the optimum is found. -/
example : ∃ s, FReachableMaxAlong (Inst.raceCfg 2) FUncapped s ∧ FFinished s ∧ bestValue (Inst.raceCfg 2) s.sys.crit = some 10 := by
  obtain ⟨s, h1, h2⟩ := Inst.fturns_reach (cfg := Inst.raceCfg 2) (Q := FUncapped) (fuel := 400)
    (f := fun s => Inst.bAllDone s.sys && (bestValue (Inst.raceCfg 2) s.sys.crit == some 10)) (by decide +kernel)
  simp only [Bool.and_eq_true, beq_iff_eq] at h2
  exact ⟨s, h1, Inst.bAllDone_spec h2.1, h2.2⟩

end Verif.Props
