import Verif.Props.Barrier
import Verif.Proofs.Bar.Multi
import Verif.Examples.Uncapped
/-!
C43: with any number of threads the solver with a barrier fails only if the bound of a node is lowered to that of its parent.
-/
set_option autoImplicit false

namespace Verif.Props
open Verif Spec Bar
variable {σ : Type} [DecidableEq σ] [Inhabited σ] {cfg : SolverCfg σ} {S : Layering σ} {B : Int} {s : BSys σ cfg.fr.F}

theorem uncapped_report (L : FrontierLaws cfg.fr) (hg : GoodCfg cfg S B) (hco : CutOK cfg S) (h0 : 0 < cfg.nbThreads) (hn : cfg.nbThreads ≤ cfg.custom)
    (hr : HonestUncapped cfg s) (hf : BFinished s) (hp : proved cfg s.crit = true) :
    bestUpperBound cfg s.crit = bestLowerBound cfg s.crit ∧
    ((∃ v sol, bestValue cfg s.crit = some v ∧ bestSolution cfg s.crit = some sol ∧ IsSolutionOf cfg.p sol v ∧ IsOptimum cfg.p v) ∨
      (bestValue cfg s.crit = none ∧ bestSolution cfg s.crit = none ∧ Infeasible cfg.p)) := by
  obtain ⟨s0, ls, g1, g2, g3, g4⟩ := hr
  obtain ⟨s1, k1, k2, _, _, _, _, k3, _⟩ := init_spec (cfg := cfg) L
  rw [g1] at k1; cases k1
  obtain ⟨j1, j2⟩ := init_multi (L := L) (A := offered cfg s0 ls) hg g1
  have hint : s.crit.interrupted = false := by simpa [proved] using hp
  obtain ⟨hi, hc⟩ := runs_multi hg hco hn ls s0 [] k2 (fun _ => ⟨j2, j1⟩) g2 (fun _ h => h) g3 s g4
  obtain ⟨hub, hall⟩ := multi_covered hi (hc hint) h0 hf hint
  refine ⟨hub, ?_⟩
  rcases hi.inc with ⟨j1, j2⟩ | ⟨sol, j1, j2⟩
  · right
    refine ⟨by simp [bestValue, j1], j1, ?_⟩
    intro ds v hs
    have := hall ds v hs
    have := (Par.solution_bounds hg.wf hs).1
    omega
  · left
    obtain ⟨ds, hp, hs⟩ := j2
    exact ⟨s.crit.bestLb, sol, by simp [bestValue, j1], j1, ⟨ds, hp, hs⟩, ⟨ds, hs⟩, hall⟩

theorem honest_max (h : HonestUncappedMax cfg s) : HonestUncapped cfg s ∧ proved cfg s.crit = true := by
  obtain ⟨s0, ls, h1, h2, h3, h4⟩ := h
  refine ⟨⟨s0, ls, h1, fun l hl => ⟨(h2 l hl).1, (h2 l hl).2.2⟩, h3, h4⟩, ?_⟩
  simp [proved, runs_noint ls s0 s (fun l hl => (h2 l hl).2.1) h4, (init_noint h1).1]

/-- **C43 (partial).** With any number of threads, any schedule, interrupted or not, and whatever stored thresholds the threads see, current, outdated or not yet stored: if no node is
pushed whose bound is lowered to that of its parent (and would have been improving), and the status is `Proved`, then the best value is the optimum, and the best solution attains it.
Missing: runs in which a bound is lowered; then it may fail (`barrier_two_threads_not_optimal`). -/
theorem barrier_uncapped_proved_partial (L : FrontierLaws cfg.fr) (hg : GoodCfg cfg S B) (hco : CutOK cfg S) (h0 : 0 < cfg.nbThreads) (hn : cfg.nbThreads ≤ cfg.custom)
    (hr : HonestUncapped cfg s) (hf : BFinished s) (hp : proved cfg s.crit = true) {v : Int} (hv : IsOptimum cfg.p v) :
    bestValue cfg s.crit = some v ∧ bestUpperBound cfg s.crit = v ∧ ∃ sol, bestSolution cfg s.crit = some sol ∧ IsSolutionOf cfg.p sol v := by
  obtain ⟨hub, ⟨v', sol, h1, h2, h3, h4⟩ | ⟨_, _, h3⟩⟩ := uncapped_report L hg hco h0 hn hr hf hp
  · obtain ⟨ds, hs⟩ := hv.1
    obtain ⟨ds', hs'⟩ := h4.1
    have : v' = v := by have := h4.2 ds v hs; have := hv.2 ds' v' hs'; omega
    subst this
    have hlb : bestLowerBound cfg s.crit = v' := by
      have := h1
      simp only [bestValue, Option.map_eq_some_iff] at this
      obtain ⟨_, _, h⟩ := this
      exact h
    exact ⟨h1, hub.trans hlb, sol, h2, h3⟩
  · obtain ⟨ds, hs⟩ := hv.1
    exact absurd hs (h3 ds v)

/-- **C43 (partial).** In particular for `maximize()`.  Missing: as in `barrier_uncapped_proved_partial`. -/
theorem barrier_uncapped_optimal_partial (L : FrontierLaws cfg.fr) (hg : GoodCfg cfg S B) (hco : CutOK cfg S) (h0 : 0 < cfg.nbThreads) (hn : cfg.nbThreads ≤ cfg.custom)
    (hr : HonestUncappedMax cfg s) (hf : BFinished s) {v : Int} (hv : IsOptimum cfg.p v) :
    bestValue cfg s.crit = some v ∧ bestUpperBound cfg s.crit = v ∧ ∃ sol, bestSolution cfg s.crit = some sol ∧ IsSolutionOf cfg.p sol v :=
  barrier_uncapped_proved_partial L hg hco h0 hn (honest_max hr).1 hf (honest_max hr).2 hv

/-- **C43 (partial).** ...and nothing is found exactly if the problem is infeasible.  Missing: as in `barrier_uncapped_proved_partial`. -/
theorem barrier_uncapped_infeasible_partial (L : FrontierLaws cfg.fr) (hg : GoodCfg cfg S B) (hco : CutOK cfg S) (h0 : 0 < cfg.nbThreads) (hn : cfg.nbThreads ≤ cfg.custom)
    (hr : HonestUncapped cfg s) (hf : BFinished s) (hp : proved cfg s.crit = true) :
    (bestValue cfg s.crit = none ↔ Infeasible cfg.p) ∧ (bestSolution cfg s.crit = none ↔ Infeasible cfg.p) := by
  obtain ⟨_, ⟨v', sol, h1, h2, h3, h4⟩ | ⟨h1, h2, h3⟩⟩ := uncapped_report L hg hco h0 hn hr hf hp
  · obtain ⟨ds, hs⟩ := h4.1
    rw [h1, h2]
    exact ⟨⟨by simp, fun h => absurd hs (h ds v')⟩, ⟨by simp, fun h => absurd hs (h ds v')⟩⟩
  · rw [h1, h2]
    exact ⟨⟨fun _ => h3, fun _ => rfl⟩, ⟨fun _ => h3, fun _ => rfl⟩⟩

/-- The other way round: when the solver claims a value that is not the optimum although every threshold that was seen had been stored, a bound has been lowered. -/
theorem barrier_failure_capped (L : FrontierLaws cfg.fr) (hg : GoodCfg cfg S B) (hco : CutOK cfg S) (h0 : 0 < cfg.nbThreads) (hn : cfg.nbThreads ≤ cfg.custom)
    {s0 : BSys σ cfg.fr.F} {ls : List (BLbl σ)} (hs : Bar.init cfg = some s0) (hl : ∀ l ∈ ls, BValidLbl l ∧ Honest (offered cfg s0 ls) l)
    (hr : Bar.runs cfg s0 ls = .ok s) (hf : BFinished s) (hp : proved cfg s.crit = true) {v : Int} (hv : IsOptimum cfg.p v) (hne : bestValue cfg s.crit ≠ some v) : ¬ Along cfg Uncapped s0 ls :=
  fun h => hne (barrier_uncapped_proved_partial L hg hco h0 hn ⟨s0, ls, hs, hl, h, hr⟩ hf hp hv).1

theorem sharp_honestUncapped (h : ReachableAlong cfg Uncapped s) : HonestUncappedMax cfg s := by
  obtain ⟨s0, ls, h1, h2, h3, h4⟩ := h
  refine ⟨s0, ls, h1, fun l hl => ⟨(h2 l hl).1, (h2 l hl).2.2, ?_⟩, h3, h4⟩
  have hs := (h2 l hl).2.1
  cases l with
  | run i intr o v => cases (show v = none from hs); trivial
  | spurious i => trivial

/-- Two threads that hold nodes at the same time, on the instance on which two threads can fail: here no bound is lowered, and the optimum is found. -/
example : ∃ s, HonestUncappedMax (Inst.raceCfg 2) s ∧ BFinished s ∧ bestValue (Inst.raceCfg 2) s.crit = some 10 := by
  obtain ⟨s, h1, h2⟩ := Inst.along_test (cfg := Inst.raceCfg 2) (Q := Uncapped) (l := Inst.uncappedRun)
    (f := fun s => Inst.bAllDone s && (bestValue (Inst.raceCfg 2) s.crit == some 10)) (by decide) (by decide +kernel)
  simp only [Bool.and_eq_true, beq_iff_eq] at h2
  exact ⟨s, sharp_honestUncapped h1, Inst.bAllDone_spec h2.1, h2.2⟩

end Verif.Props
