import Verif.Props.Barrier
import Verif.Proofs.Bar.Turns
import Verif.Examples.Turns
/-!
C43: which way of sharing the work among several threads keeps the solver with a barrier correct.
-/
set_option autoImplicit false

namespace Verif.Props
open Verif Spec Bar
variable {σ : Type} [DecidableEq σ] [Inhabited σ] {cfg : SolverCfg σ} {S : Layering σ} {B : Int} {s : BSys σ cfg.fr.F}

theorem turns_report (L : FrontierLaws cfg.fr) (hg : GoodCfg cfg S B) (hco : CutOK cfg S) (h0 : 0 < cfg.nbThreads) (hn : cfg.nbThreads ≤ cfg.custom)
    (hr : ReachableAlong cfg OneHolder s) (hf : BFinished s) :
    proved cfg s.crit = true ∧ bestUpperBound cfg s.crit = bestLowerBound cfg s.crit ∧
    ((∃ v sol, bestValue cfg s.crit = some v ∧ bestSolution cfg s.crit = some sol ∧ IsSolutionOf cfg.p sol v ∧ IsOptimum cfg.p v) ∨
      (bestValue cfg s.crit = none ∧ bestSolution cfg s.crit = none ∧ Infeasible cfg.p)) := by
  obtain ⟨s0, ls, g1, g2, g3, g4⟩ := hr
  have hm : SharpReachableMax cfg s := ⟨s0, ls, g1, g2, g4⟩
  obtain ⟨s1, k1, k2, _⟩ := init_spec (cfg := cfg) L
  rw [g1] at k1; cases k1
  obtain ⟨hi, hc⟩ := runs_many hg hco hn ls s0 k2 (fun _ => init_many hg g1) (fun l hl => ⟨(g2 l hl).1, (g2 l hl).2.1⟩) g3 s g4
  obtain ⟨hub, hall⟩ := many_covered hi (hc hm.noint) h0 hf hm.noint
  refine ⟨by simp [proved, hm.noint], hub, ?_⟩
  rcases hi.inc with ⟨j1, j2⟩ | ⟨sol, j1, j2⟩
  · right
    refine ⟨by simp [bestValue, j1], j1, ?_⟩
    intro ds v hs
    have := hall ds v hs
    have := (Par.solution_bounds hg.wf hs).1
    omega
  · left
    obtain ⟨ds, hp, hs⟩ := j2
    exact ⟨s.crit.bestLb, sol, by simp [bestValue, j1], j1, ⟨ds, hp, hs⟩, ⟨ds, hs⟩, hall⟩

/-- **C43 (partial).** With any number of threads: if at no moment two threads hold a node (a thread holds one from the moment `get_workload` returns it until `notify_node_finished`),
then `maximize()` returns the optimum, and a solution that attains it.
Missing: schedules with two threads that hold a node; it is not enough that `process_one_node` is never executed by two threads at a time (`barrier_one_processing_not_optimal`). -/
theorem barrier_turns_optimal_partial (L : FrontierLaws cfg.fr) (hg : GoodCfg cfg S B) (hco : CutOK cfg S) (h0 : 0 < cfg.nbThreads) (hn : cfg.nbThreads ≤ cfg.custom)
    (hr : ReachableAlong cfg OneHolder s) (hf : BFinished s) {v : Int} (hv : IsOptimum cfg.p v) :
    bestValue cfg s.crit = some v ∧ bestUpperBound cfg s.crit = v ∧ ∃ sol, bestSolution cfg s.crit = some sol ∧ IsSolutionOf cfg.p sol v := by
  obtain ⟨_, hub, ⟨v', sol, h1, h2, h3, h4⟩ | ⟨_, _, h3⟩⟩ := turns_report L hg hco h0 hn hr hf
  · obtain ⟨ds, hs⟩ := hv.1
    obtain ⟨ds', hs'⟩ := h4.1
    have : v' = v := by have := h4.2 ds v hs; have := hv.2 ds' v' hs'; omega
    subst this
    have hlb : bestLowerBound cfg s.crit = v' := by
      have := h1
      simp only [bestValue, Option.map_eq_some_iff] at this
      obtain ⟨_, _, h⟩ := this
      exact h
    exact ⟨h1, hub.trans hlb, sol, h2, h3⟩
  · obtain ⟨ds, hs⟩ := hv.1
    exact absurd hs (h3 ds v)

/-- **C43 (partial).** ...and it returns nothing exactly if the problem is infeasible.  Missing: as in `barrier_turns_optimal_partial`. -/
theorem barrier_turns_infeasible_partial (L : FrontierLaws cfg.fr) (hg : GoodCfg cfg S B) (hco : CutOK cfg S) (h0 : 0 < cfg.nbThreads) (hn : cfg.nbThreads ≤ cfg.custom)
    (hr : ReachableAlong cfg OneHolder s) (hf : BFinished s) :
    (bestValue cfg s.crit = none ↔ Infeasible cfg.p) ∧ (bestSolution cfg s.crit = none ↔ Infeasible cfg.p) := by
  obtain ⟨_, _, ⟨v', sol, h1, h2, h3, h4⟩ | ⟨h1, h2, h3⟩⟩ := turns_report L hg hco h0 hn hr hf
  · obtain ⟨ds, hs⟩ := h4.1
    rw [h1, h2]
    exact ⟨⟨by simp, fun h => absurd hs (h ds v')⟩, ⟨by simp, fun h => absurd hs (h ds v')⟩⟩
  · rw [h1, h2]
    exact ⟨⟨fun _ => h3, fun _ => rfl⟩, ⟨fun _ => h3, fun _ => rfl⟩⟩

/-- Two threads that work in turns, on the instance on which two threads can fail. -/
example : ∃ s, ReachableAlong (Inst.raceCfg 2) OneHolder s ∧ BFinished s ∧ bestValue (Inst.raceCfg 2) s.crit = some 10 := by
  obtain ⟨s, h1, h2⟩ := Inst.along_test (cfg := Inst.raceCfg 2) (Q := OneHolder) (l := Inst.turnsRun)
    (f := fun s => Inst.bAllDone s && (bestValue (Inst.raceCfg 2) s.crit == some 10)) (by decide) (by decide +kernel)
  simp only [Bool.and_eq_true, beq_iff_eq] at h2
  exact ⟨s, h1, Inst.bAllDone_spec h2.1, h2.2⟩

/-- **C43 is false even if calls of `process_one_node` never overlap**, so that no thread ever sees a diagram, a threshold or a cutset of another thread half done: it is enough that a
thread holds its node while another one processes further nodes (see `Inst.overtakenRun`). -/
theorem barrier_one_processing_not_optimal : GoodCfg (Inst.raceCfg 2) Table.layering 10 ∧ (Inst.raceCfg 2).cutset = .lastExactLayer ∧
    (Inst.raceCfg 2).nbThreads = 2 ∧ IsOptimum (Inst.raceCfg 2).p 10 ∧ ∃ s, ReachableAlong (Inst.raceCfg 2) OneProcessing s ∧ BFinished s ∧
      bestValue (Inst.raceCfg 2) s.crit = some 5 ∧ bestUpperBound (Inst.raceCfg 2) s.crit = 5 ∧ proved (Inst.raceCfg 2) s.crit = true := by
  obtain ⟨s, h1, h2⟩ := Inst.along_test (cfg := Inst.raceCfg 2) (Q := OneProcessing) (l := Inst.overtakenRun)
    (f := fun s => Inst.bAllDone s && (bestValue (Inst.raceCfg 2) s.crit == some 5) && (s.crit.bestUb == 5) && proved (Inst.raceCfg 2) s.crit) (by decide) (by decide +kernel)
  simp only [Bool.and_eq_true, beq_iff_eq] at h2
  exact ⟨Inst.raceCfg_good 2, rfl, rfl, Inst.race_optimum 2, s, h1, Inst.bAllDone_spec h2.1.1.1, h2.1.1.2, h2.1.2, h2.2⟩

end Verif.Props
