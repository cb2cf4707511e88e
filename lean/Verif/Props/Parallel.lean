import Verif.Proofs.Par.Final
import Verif.Examples.Terminal
/-!
C23-C34, C42: the parallel solver.

Everything is stated for every configuration `cfg` that satisfies `GoodCfg` (or, where optimality does not matter, the weaker `BaseCfg`), every frontier that satisfies the contract `FrontierLaws`, and every schedule:
`Reachable cfg s` says that some interleaving of the threads, some answers of `interrupt()` and some resolution of hash order and ties lead to `s`;
`Finished s` that all workers have stopped, so that `maximize` returns.
-/
set_option autoImplicit false

namespace Verif.Props
open Verif Spec Par
variable {σ : Type} [DecidableEq σ] [Inhabited σ] {cfg : SolverCfg σ} {S : Layering σ} {B : Int} {s : Sys σ cfg.fr.F}

/-- **C23.** At every moment the incumbent is a feasible solution with the recorded value, or there is none yet. -/
theorem incumbent_real (L : FrontierLaws cfg.fr) (hg : BaseCfg cfg S B) (hn : cfg.nbThreads ≤ cfg.custom) (hr : Reachable cfg s) :
    (bestSolution cfg s.crit = none ∧ bestValue cfg s.crit = none) ∨
      ∃ sol v, bestSolution cfg s.crit = some sol ∧ bestValue cfg s.crit = some v ∧ bestLowerBound cfg s.crit = v ∧ IsSolutionOf cfg.p sol v := by
  rcases (reachable_inv L hg hn hr).1.inc with ⟨h1, _⟩ | ⟨sol, h1, h2⟩
  · left; simp [bestSolution, bestValue, h1]
  · right; exact ⟨sol, s.crit.bestLb, h1, by simp [bestValue, h1], rfl, h2⟩

/-- **C24.** The lower bound never decreases... -/
theorem lower_bound_monotone (L : FrontierLaws cfg.fr) (hg : BaseCfg cfg S B) (hn : cfg.nbThreads ≤ cfg.custom) (hr : Reachable cfg s) {ls : List (Lbl σ)}
    (hl : ∀ l ∈ ls, ValidLbl l) {s' : Sys σ cfg.fr.F} (h : runs cfg s ls = .ok s') : bestLowerBound cfg s.crit ≤ bestLowerBound cfg s'.crit :=
  runs_lb hg hn ls s s' (reachable_inv L hg hn hr).1 hl h

/-- **C24.** ...and never exceeds the optimum. -/
theorem lower_bound_le_optimum (L : FrontierLaws cfg.fr) (hg : BaseCfg cfg S B) (hn : cfg.nbThreads ≤ cfg.custom) (hr : Reachable cfg s) {v : Int}
    (hv : IsOptimum cfg.p v) : bestLowerBound cfg s.crit ≤ v := by
  rcases (reachable_inv L hg hn hr).1.inc with ⟨_, h2⟩ | ⟨sol, h1, ds, _, h3⟩
  · obtain ⟨ds, hs⟩ := hv.1
    have := (solution_bounds hg.wf hs).1
    simp only [bestLowerBound, h2]; omega
  · exact hv.2 ds _ h3

theorem finished_optimal (L : FrontierLaws cfg.fr) (hg : GoodCfg cfg S B) (hc : CutOK cfg S) (hn : cfg.nbThreads ≤ cfg.custom) (h1 : 1 ≤ cfg.nbThreads)
    (hr : Reachable cfg s) (hf : Finished s) (hp : proved cfg s.crit = true) :
    bestUpperBound cfg s.crit = bestLowerBound cfg s.crit ∧
    ((∃ v sol, bestValue cfg s.crit = some v ∧ bestSolution cfg s.crit = some sol ∧ IsSolutionOf cfg.p sol v ∧ IsOptimum cfg.p v ∧ bestLowerBound cfg s.crit = v) ∨
      (bestValue cfg s.crit = none ∧ bestSolution cfg s.crit = none ∧ Infeasible cfg.p)) := by
  obtain ⟨hi, hcov⟩ := reachable_inv L hg.base hn hr
  have hint : s.crit.interrupted = false := by simpa [proved] using hp
  obtain ⟨hub, hall⟩ := finished_covered hi (hcov hg hc) h1 hf hint
  refine ⟨hub, ?_⟩
  rcases hi.inc with ⟨g1, g2⟩ | ⟨sol, g1, g2⟩
  · right
    refine ⟨by simp [bestValue, g1], g1, ?_⟩
    intro ds v hs
    have := hall ds v hs
    have := (solution_bounds hg.wf hs).1
    omega
  · left
    obtain ⟨ds, hp, hs⟩ := g2
    exact ⟨s.crit.bestLb, sol, by simp [bestValue, g1], g1, ⟨ds, hp, hs⟩, ⟨⟨ds, hs⟩, hall⟩, rfl⟩

/-- **C25.** When `maximize()` returns, the best value is the optimum and the best solution attains it: for any number of threads and any schedule. -/
theorem maximize_optimal (L : FrontierLaws cfg.fr) (hg : GoodCfg cfg S B) (hc : CutOK cfg S) (hn : cfg.nbThreads ≤ cfg.custom) (h1 : 1 ≤ cfg.nbThreads)
    (hr : ReachableMax cfg s) (hf : Finished s) {v : Int} (hv : IsOptimum cfg.p v) :
    bestValue cfg s.crit = some v ∧ ∃ sol, bestSolution cfg s.crit = some sol ∧ IsSolutionOf cfg.p sol v := by
  rcases (finished_optimal L hg hc hn h1 hr.reachable hf (by simp [proved, hr.noint])).2 with ⟨v', sol, h1, h2, h3, h4, _⟩ | ⟨_, _, h3⟩
  · obtain ⟨ds, hs⟩ := hv.1
    obtain ⟨ds', hs'⟩ := h4.1
    have : v' = v := by have := h4.2 ds v hs; have := hv.2 ds' v' hs'; omega
    subst this
    exact ⟨h1, sol, h2, h3⟩
  · obtain ⟨ds, hs⟩ := hv.1
    exact absurd hs (h3 ds v)

/-- **C26.** When `maximize()` returns, there is no best value (and no best solution) exactly if the problem is infeasible. -/
theorem none_iff_infeasible (L : FrontierLaws cfg.fr) (hg : GoodCfg cfg S B) (hc : CutOK cfg S) (hn : cfg.nbThreads ≤ cfg.custom) (h1 : 1 ≤ cfg.nbThreads)
    (hr : ReachableMax cfg s) (hf : Finished s) :
    (bestValue cfg s.crit = none ↔ Infeasible cfg.p) ∧ (bestSolution cfg s.crit = none ↔ Infeasible cfg.p) := by
  rcases (finished_optimal L hg hc hn h1 hr.reachable hf (by simp [proved, hr.noint])).2 with ⟨v', sol, h1, h2, h3, h4, _⟩ | ⟨h1, h2, h3⟩
  · obtain ⟨ds, hs⟩ := h4.1
    rw [h1, h2]
    exact ⟨⟨by simp, fun h => absurd hs (h ds v')⟩, ⟨by simp, fun h => absurd hs (h ds v')⟩⟩
  · rw [h1, h2]
    exact ⟨⟨fun _ => h3, fun _ => rfl⟩, ⟨fun _ => h3, fun _ => rfl⟩⟩

/-- Two threads on a knapsack: the hypotheses of C23-C26 are met by a run to the end, which yields 9. -/
example : ∃ s, ReachableMax (Inst.kpCfg 2) s ∧ Finished s ∧ bestValue (Inst.kpCfg 2) s.crit = some 9 := by
  obtain ⟨s, h1, h2⟩ := Inst.test_spec_max (cfg := Inst.kpCfg 2) (l := Inst.kpRun2)
    (f := fun s => Inst.allDone s && (bestValue (Inst.kpCfg 2) s.crit == some 9)) (by decide) (by decide +kernel)
  simp only [Bool.and_eq_true, beq_iff_eq] at h2
  exact ⟨s, h1, Inst.allDone_spec h2.1, h2.2⟩
open Inst in
/-- ...so the optimum of that knapsack is 9: the theorem at work. -/
example : IsOptimum kp 9 := by
  obtain ⟨s, h1, h2⟩ := test_spec_max (cfg := kpCfg 2) (l := kpRun2)
    (f := fun s => allDone s && (bestValue (kpCfg 2) s.crit == some 9)) (by decide) (by decide +kernel)
  simp only [Bool.and_eq_true, beq_iff_eq] at h2
  rcases (finished_optimal (kpLaws 2) (kpCfg_good 2) (Or.inl rfl) (Nat.le_refl _) (by decide) h1.reachable (allDone_spec h2.1) (by simp [proved, h1.noint])).2 with
    ⟨v, sol, g1, _, _, g4, _⟩ | ⟨g1, _⟩
  · rw [h2.2] at g1; cases g1; exact g4
  · rw [h2.2] at g1; cases g1

/-- **C27.** No schedule makes a worker panic. -/
theorem never_panics (L : FrontierLaws cfg.fr) (hg : BaseCfg cfg S B) (hn : cfg.nbThreads ≤ cfg.custom) :
    ∃ s0, Par.init cfg = some s0 ∧ ∀ ls, (∀ l ∈ ls, ValidLbl l) → runs cfg s0 ls ≠ .panic := by
  obtain ⟨s0, h1, h2, _⟩ := init_spec L hg
  exact ⟨s0, h1, fun ls hl => (runs_inv (L := L) hg hn ls s0 h2 hl).1⟩

/-- **C27.** No deadlock: as long as some worker has not stopped, some worker can make a step, whatever `interrupt()` answers. -/
theorem no_deadlock (L : FrontierLaws cfg.fr) (hg : BaseCfg cfg S B) (hn : cfg.nbThreads ≤ cfg.custom) (hr : Reachable cfg s) (hf : ¬ Finished s) :
    ∃ i, ∀ intr o, o.Valid → ∃ s', step cfg s (.run i intr o) = .ok s' := by
  have hi := (reachable_inv L hg hn hr).1
  have : ∃ t ∈ s.threads, t.pc ≠ .done := by
    by_cases h : ∃ t ∈ s.threads, t.pc ≠ .done
    · exact h
    · exact absurd (fun t ht => Classical.not_not.1 fun hne => h ⟨t, ht, hne⟩) hf
  obtain ⟨t, ht, hne⟩ := this
  by_cases hw : t.pc = .waiting
  · obtain ⟨i, t', h1, h2⟩ := busy_exists hi (hi.wait t ht hw)
    have := busy_active h2
    exact ⟨i, fun intr o ho => enabled hg hn hi h1 this.1 this.2.1 intr ho⟩
  · obtain ⟨i, hi'⟩ := List.mem_iff_getElem?.1 ht
    exact ⟨i, fun intr o ho => enabled hg hn hi hi' hw hne intr ho⟩

/-- **C27.** No lost wake-up: while a worker is parked, another one is processing a node... -/
theorem parked_implies_working (L : FrontierLaws cfg.fr) (hg : BaseCfg cfg S B) (hn : cfg.nbThreads ≤ cfg.custom) (hr : Reachable cfg s) {t : Thread σ}
    (ht : t ∈ s.threads) (hw : t.pc = .waiting) : 0 < holders s := by
  have hi := (reachable_inv L hg hn hr).1
  have h := hi.wait t ht hw
  rw [hi.ong] at h
  have : holders s = busyCount s.threads := by
    unfold holders busyCount; congr 1
  rw [this]; exact h

/-- **C27.** ...and when a worker reports that it has finished its node, nobody stays parked. -/
theorem finishing_wakes_all {i : Nat} {t : Thread σ} {dd : Nat} (ht : s.threads[i]? = some t) (hp : t.pc = .fin dd) {intr : Bool} {o : Oracle σ} {s' : Sys σ cfg.fr.F}
    (h : step cfg s (.run i intr o) = .ok s') : ∀ t ∈ s'.threads, t.pc ≠ .waiting := by
  simp only [step, ht, stepThread, hp] at h
  split at h
  · cases h
  · cases h
    intro x hx
    obtain ⟨_, _, _, _, hne⟩ := wake_mem hx
    exact hne

/-- The situation occurs: the second thread is parked while the first holds the root. -/
example : ∃ s, Reachable (Inst.kpCfg 2) s ∧ s.threads.any (fun t => Inst.isWaiting t.pc) = true ∧ ¬ Finished s := by
  obtain ⟨s, h1, h2⟩ := Inst.test_spec (cfg := Inst.kpCfg 2) (l := Inst.kpPrefix) (f := fun s => s.threads.any (fun t => Inst.isWaiting t.pc)) (by decide +kernel)
  refine ⟨s, h1, h2, ?_⟩
  intro hf
  obtain ⟨t, ht, hw⟩ := List.any_eq_true.1 h2
  rw [hf t ht] at hw; simp [Inst.isWaiting] at hw

/-- **C28.** Every run terminates: an infinite run is possible only with infinitely many spurious wake-ups. -/
theorem runs_terminate (L : FrontierLaws cfg.fr) (hg : BaseCfg cfg S B) (hn : cfg.nbThreads ≤ cfg.custom) (st : Nat → Sys σ cfg.fr.F) (ls : Nat → Lbl σ)
    (hr : Reachable cfg (st 0)) (hv : ∀ k, ValidLbl (ls k)) (hs : ∀ k, step cfg (st k) (ls k) = .ok (st (k + 1))) : ∀ k, ∃ j, k ≤ j ∧ ∃ i, ls j = .spurious i := by
  intro k
  apply Classical.byContradiction
  intro hno
  have hrun : ∀ j, isRun (ls (k + j)) = true := by
    intro j
    cases hl : ls (k + j) with
    | run => rfl
    | spurious i => exact absurd ⟨k + j, by omega, i, hl⟩ hno
  have hinv : ∀ k, Inv L (st k) := by
    intro k
    induction k with
    | zero => exact (reachable_inv L hg hn hr).1
    | succ k ih => exact trans_inv hg ((step_trans (L := L) hg (ih.safe hn) (hv k)).2 _ (hs k)) ih
  exact no_infinite (L := L) hg hn (fun j => st (k + j)) (fun j => ls (k + j)) (hinv k) (fun j => hv _) (fun j => hs _) hrun

/-- **C28.** Hence a run that cannot be continued has ended with all workers stopped. -/
theorem maximal_run_finished (L : FrontierLaws cfg.fr) (hg : BaseCfg cfg S B) (hn : cfg.nbThreads ≤ cfg.custom) (hr : Reachable cfg s)
    (hmax : ∀ i intr o, o.Valid → ∀ s', step cfg s (.run i intr o) ≠ .ok s') : Finished s := by
  apply Classical.byContradiction
  intro hf
  obtain ⟨i, h⟩ := no_deadlock L hg hn hr hf
  obtain ⟨s', hs'⟩ := h false Inst.orc Inst.orc_valid
  exact hmax i false Inst.orc Inst.orc_valid s' hs'

theorem runs_append (ls ls' : List (Lbl σ)) : ∀ {s s' : Sys σ cfg.fr.F}, runs cfg s ls = .ok s' → runs cfg s (ls ++ ls') = runs cfg s' ls' := by
  induction ls with
  | nil => intro s s' h; cases h; rfl
  | cons x ls ih =>
    intro s s' h
    unfold runs at h
    simp only [List.cons_append]
    conv => lhs; unfold runs
    cases hx : step cfg s x with
    | ok s1 => rw [hx] at h; simp only at h ⊢; exact ih h
    | panic => rw [hx] at h; cases h
    | blocked => rw [hx] at h; cases h

/-- **C28.** Whatever has happened so far, a run can be completed without an interruption: `maximize` can return. -/
theorem can_finish (L : FrontierLaws cfg.fr) (hg : BaseCfg cfg S B) (hn : cfg.nbThreads ≤ cfg.custom) (hr : Reachable cfg s) :
    ∃ ls s', (∀ l ∈ ls, ValidLbl l ∧ ∃ i o, l = .run i false o) ∧ runs cfg s ls = .ok s' ∧ Finished s' := by
  apply Classical.byContradiction
  intro hno
  let X := {t : Sys σ cfg.fr.F // ∃ ls, (∀ l ∈ ls, ValidLbl l ∧ ∃ i o, l = .run i false o) ∧ runs cfg s ls = .ok t}
  have hX : ∀ x : X, Reachable cfg x.1 := by
    rintro ⟨t, ls, h1, h2⟩
    obtain ⟨s0, ls0, g1, g2, g3⟩ := hr
    refine ⟨s0, ls0 ++ ls, g1, ?_, by rw [runs_append _ _ g3]; exact h2⟩
    intro l hl
    rcases List.mem_append.1 hl with hl | hl
    · exact g2 l hl
    · exact (h1 l hl).1
  have hnext : ∀ x : X, ∃ y : X, ∃ i, step cfg x.1 (.run i false Inst.orc) = .ok y.1 := by
    intro x
    obtain ⟨ls, h1, h2⟩ := x.2
    obtain ⟨i, h⟩ := no_deadlock L hg hn (hX x) fun hf => hno ⟨ls, x.1, h1, h2, hf⟩
    obtain ⟨s', hs'⟩ := h false Inst.orc Inst.orc_valid
    refine ⟨⟨s', ls ++ [.run i false Inst.orc], ?_, ?_⟩, i, hs'⟩
    · intro l hl
      rcases List.mem_append.1 hl with hl | hl
      · exact h1 l hl
      · rw [List.mem_singleton] at hl
        subst hl
        exact ⟨Inst.orc_valid, i, Inst.orc, rfl⟩
    · rw [runs_append _ _ h2]; simp only [runs, hs']
  choose next who hstep using hnext
  let st : Nat → X := fun k => Nat.rec ⟨s, [], by simp, rfl⟩ (fun _ x => next x) k
  obtain ⟨j, _, i, hi⟩ := runs_terminate L hg hn (fun k => (st k).1) (fun k => .run (who (st k)) false Inst.orc) (hX (st 0)) (fun _ => Inst.orc_valid) (fun k => hstep (st k)) 0
  cases hi

/-- **C29, C30 (partial).** With a single thread the optimum never exceeds the larger of the two bounds after an interruption; in particular equal bounds are the optimum.
Missing: the upper bound alone (see `interrupted_ub_below_optimum`) and more threads (see `interrupted_false_gap`), for both of which the claim is false. -/
theorem interrupted_bounds_partial (L : FrontierLaws cfg.fr) (hg : GoodCfg cfg S B) (hc : CutOK cfg S) (hn : cfg.nbThreads ≤ cfg.custom) (h1 : cfg.nbThreads = 1)
    (hr : Reachable cfg s) (hp : proved cfg s.crit = false) :
    (∀ ds v, Solution cfg.p ds v → v ≤ max (bestLowerBound cfg s.crit) (bestUpperBound cfg s.crit)) ∧
    (bestUpperBound cfg s.crit = bestLowerBound cfg s.crit → ∀ v, IsOptimum cfg.p v → bestValue cfg s.crit = some v) := by
  have hi := reachable_int L hg hc hn h1 hr
  have hint : s.crit.interrupted = true := by simpa [proved] using hp
  have hall : ∀ ds v, Solution cfg.p ds v → v ≤ max s.crit.bestLb s.crit.bestUb := by
    intro ds v hs
    rcases (hi hint).2 v (root_through hs) with h | h <;> omega
  refine ⟨hall, ?_⟩
  intro he v hv
  simp only [bestUpperBound, bestLowerBound] at he
  obtain ⟨ds, hs⟩ := hv.1
  have hle := hall ds v hs
  have hb := (solution_bounds hg.wf hs).1
  rcases (reachable_inv L hg.base hn hr).1.inc with ⟨g1, g2⟩ | ⟨sol, g1, ds', g2, g3⟩
  · omega
  · have := hv.2 _ _ g3
    have : s.crit.bestLb = v := by omega
    simp [bestValue, g1, this]

/-- **C29 is false**, even for one thread: the bound reported after an interruption is that of the best open node, which may be below the incumbent - here 11, while
the solver has already found the solution worth 12. -/
theorem interrupted_ub_below_optimum : ∃ s, Reachable (Inst.tabCfg Inst.staleTab 3 1 .lastExactLayer) s ∧ Finished s ∧
    bestUpperBound (Inst.tabCfg Inst.staleTab 3 1 .lastExactLayer) s.crit = 11 ∧ ∃ ds, Solution (Inst.tabCfg Inst.staleTab 3 1 .lastExactLayer).p ds 12 := by
  obtain ⟨s, h1, h2⟩ := Inst.test_spec (cfg := Inst.tabCfg Inst.staleTab 3 1 .lastExactLayer) (l := List.replicate 14 (0, false) ++ [(0, true)])
    (f := fun s => Inst.allDone s && (s.crit.bestUb == 11)) (by decide +kernel)
  simp only [Bool.and_eq_true, beq_iff_eq] at h2
  exact ⟨s, h1, Inst.allDone_spec h2.1, h2.2, Inst.sp_through⟩

/-- **C30 is false** for two threads: the first holds a node when the second notices the interruption and drops the other open node; the first then sees an empty
frontier, declares the search complete and reports the incumbent 3 as upper bound, while the optimum is at least 12. -/
theorem interrupted_false_gap : ∃ s, Reachable (Inst.tabCfg Inst.lossTab 2 2 .lastExactLayer) s ∧ Finished s ∧ proved (Inst.tabCfg Inst.lossTab 2 2 .lastExactLayer) s.crit = false ∧
    bestUpperBound (Inst.tabCfg Inst.lossTab 2 2 .lastExactLayer) s.crit = 3 ∧ bestLowerBound (Inst.tabCfg Inst.lossTab 2 2 .lastExactLayer) s.crit = 3 ∧
    ∃ ds, Solution (Inst.tabCfg Inst.lossTab 2 2 .lastExactLayer).p ds 12 := by
  obtain ⟨s, h1, h2⟩ := Inst.test_spec (cfg := Inst.tabCfg Inst.lossTab 2 2 .lastExactLayer)
    (l := List.replicate 7 (0, false) ++ [(1, true), (0, false), (0, false), (0, false), (0, false)])
    (f := fun s => Inst.allDone s && (s.crit.interrupted) && (s.crit.bestUb == 3) && (s.crit.bestLb == 3)) (by decide +kernel)
  simp only [Bool.and_eq_true, beq_iff_eq] at h2
  refine ⟨s, h1, Inst.allDone_spec h2.1.1.1, by simp [proved, h2.1.1.2], h2.1.2, h2.2, ?_⟩
  exact through_root (cfg := Inst.tabCfg Inst.lossTab 2 2 .lastExactLayer) Inst.lp_through

/-- The hypotheses of `interrupted_bounds_partial` are met: one thread, interrupted after the root has been processed. -/
example : ∃ s, Reachable (Inst.kpCfg 1) s ∧ proved (Inst.kpCfg 1) s.crit = false ∧ bestUpperBound (Inst.kpCfg 1) s.crit = 13 := by
  obtain ⟨s, h1, h2⟩ := Inst.test_spec (cfg := Inst.kpCfg 1) (l := List.replicate 6 (0, false) ++ [(0, true)])
    (f := fun s => s.crit.interrupted && (s.crit.bestUb == 13)) (by decide +kernel)
  simp only [Bool.and_eq_true, beq_iff_eq] at h2
  exact ⟨s, h1, by simp [proved, h2.1], h2.2⟩

/-- **C31.** If `maximize_with_interrupt` returns `Proved`, the bounds coincide, and the best value is the optimum or the problem is infeasible. -/
theorem proved_means_proved (L : FrontierLaws cfg.fr) (hg : GoodCfg cfg S B) (hc : CutOK cfg S) (hn : cfg.nbThreads ≤ cfg.custom) (h1 : 1 ≤ cfg.nbThreads)
    (hr : Reachable cfg s) (hf : Finished s) (hp : proved cfg s.crit = true) :
    bestUpperBound cfg s.crit = bestLowerBound cfg s.crit ∧
    (∀ v, IsOptimum cfg.p v → bestValue cfg s.crit = some v ∧ bestUpperBound cfg s.crit = v) ∧
    (Infeasible cfg.p → bestValue cfg s.crit = none) := by
  obtain ⟨h0, h2⟩ := finished_optimal L hg hc hn h1 hr hf hp
  refine ⟨h0, ?_, ?_⟩
  · intro v hv
    obtain ⟨ds, hs⟩ := hv.1
    rcases h2 with ⟨v', sol, g1, _, _, g4, g5⟩ | ⟨_, _, g3⟩
    · obtain ⟨ds', hs'⟩ := g4.1
      have : v' = v := by have := g4.2 ds v hs; have := hv.2 ds' v' hs'; omega
      subst this
      exact ⟨g1, by rw [h0, g5]⟩
    · exact absurd hs (g3 ds v)
  · intro hinf
    rcases h2 with ⟨v', sol, g1, _, _, g4, _⟩ | ⟨g1, _, _⟩
    · obtain ⟨ds', hs'⟩ := g4.1
      exact absurd hs' (hinf ds' v')
    · exact g1

/-- **C32 (partial).** A solver never panics if the number of threads is not increased beyond the number given to its constructor. -/
theorem fewer_threads_ok_partial (L : FrontierLaws cfg.fr) (hg : BaseCfg cfg S B) (n : Nat) (hn : n ≤ cfg.custom) :
    ∃ s0, Par.init { cfg with nbThreads := n } = some s0 ∧ ∀ ls, (∀ l ∈ ls, ValidLbl l) → runs { cfg with nbThreads := n } s0 ls ≠ .panic :=
  never_panics (cfg := { cfg with nbThreads := n }) L ⟨hg.wf, hg.lay, hg.width⟩ hn

/-- **C32 is false**: a solver created for one thread and then asked to use two panics as soon as the second one gets a node (its bound has no slot). -/
theorem more_threads_panic : ∃ s0, Par.init { Inst.kpCfg 1 with nbThreads := 2 } = some s0 ∧
    runs { Inst.kpCfg 1 with nbThreads := 2 } s0 (Inst.sched [(1, false)]) = .panic := by
  have : (match Par.init { Inst.kpCfg 1 with nbThreads := 2 } with
    | some s0 => (match runs { Inst.kpCfg 1 with nbThreads := 2 } s0 (Inst.sched [(1, false)]) with | .panic => true | _ => false)
    | none => false) = true := by decide +kernel
  split at this
  · rename_i s0 h0
    refine ⟨s0, h0, ?_⟩
    split at this
    · assumption
    · cases this
  · cases this

/-- **C33.** The answer does not depend on the frontier, nor on the number of threads, the width, the ranking or the schedule: two solvers for the same problem
return the same value. -/
theorem same_answer (cfg' : SolverCfg σ) (hpp : cfg'.p = cfg.p) (L : FrontierLaws cfg.fr) (L' : FrontierLaws cfg'.fr) {S' : Layering σ} {B' : Int} (hg : GoodCfg cfg S B)
    (hg' : GoodCfg cfg' S' B') (hc : CutOK cfg S) (hc' : CutOK cfg' S') (hn : cfg.nbThreads ≤ cfg.custom) (hn' : cfg'.nbThreads ≤ cfg'.custom) (h1 : 1 ≤ cfg.nbThreads)
    (h1' : 1 ≤ cfg'.nbThreads) (hr : ReachableMax cfg s) (hf : Finished s) {s' : Sys σ cfg'.fr.F} (hr' : ReachableMax cfg' s') (hf' : Finished s') :
    bestValue cfg s.crit = bestValue cfg' s'.crit := by
  rcases (finished_optimal L hg hc hn h1 hr.reachable hf (by simp [proved, hr.noint])).2 with ⟨v, sol, g1, _, _, g4, _⟩ | ⟨g1, _, g3⟩
  · rw [g1, (maximize_optimal L' hg' hc' hn' h1' hr' hf' (v := v) (by rw [hpp]; exact g4)).1]
  · rw [g1, (none_iff_infeasible L' hg' hc' hn' h1' hr' hf').1.2 (by rw [hpp]; exact g3)]

/-- **C34.** The number of nodes in process is the number of workers that hold a node. -/
theorem ongoing_counts (L : FrontierLaws cfg.fr) (hg : BaseCfg cfg S B) (hn : cfg.nbThreads ≤ cfg.custom) (hr : Reachable cfg s) : s.crit.ongoing = holders s := by
  rw [(reachable_inv L hg hn hr).1.ong]
  unfold holders busyCount; congr 1

/-- **C34.** The explored counter is the number of times a node was given to a worker. -/
theorem explored_counts {s0 : Sys σ cfg.fr.F} (h0 : Par.init cfg = some s0) {ls : List (Lbl σ)} (h : runs cfg s0 ls = .ok s) :
    getExplored cfg s.crit = handedOut cfg s0 ls := by
  have := runs_explored ls s0 s h
  rw [(init_noint h0).2] at this
  simpa [getExplored] using this

/-- The run of two threads above gives 6 nodes to workers. -/
example : Inst.test (Inst.kpCfg 2) Inst.kpRun2 (fun s => s.crit.explored == 6) = true := by decide +kernel

/-- **C42 is false.** With the frontier cutset `maximize()` may return less than the optimum: here 3, while there is a solution worth 12. -/
theorem frontier_cutset_not_optimal : ∃ s, ReachableMax (Inst.tabCfg Inst.lossTab 2 1 .frontier) s ∧ Finished s ∧
    bestValue (Inst.tabCfg Inst.lossTab 2 1 .frontier) s.crit = some 3 ∧ ∃ ds, Solution (Inst.tabCfg Inst.lossTab 2 1 .frontier).p ds 12 := by
  obtain ⟨s, h1, h2⟩ := Inst.test_spec_max (cfg := Inst.tabCfg Inst.lossTab 2 1 .frontier) (l := List.replicate 11 (0, false))
    (f := fun s => Inst.allDone s && (bestValue (Inst.tabCfg Inst.lossTab 2 1 .frontier) s.crit == some 3)) (by decide) (by decide +kernel)
  simp only [Bool.and_eq_true, beq_iff_eq] at h2
  exact ⟨s, h1, Inst.allDone_spec h2.1, h2.2, through_root (cfg := Inst.tabCfg Inst.lossTab 2 1 .frontier) Inst.lp_through⟩

/-- **C42 (partial).** It does return the optimum if all complete assignments end in the same state. -/
theorem frontier_cutset_optimal_partial (L : FrontierLaws cfg.fr) (hg : GoodCfg cfg S B) (_hc : cfg.cutset = .frontier) (hu : UniqueTerminal cfg.p S)
    (hn : cfg.nbThreads ≤ cfg.custom) (h1 : 1 ≤ cfg.nbThreads) (hr : ReachableMax cfg s) (hf : Finished s) {v : Int} (hv : IsOptimum cfg.p v) :
    bestValue cfg s.crit = some v :=
  (maximize_optimal L hg (Or.inr hu) hn h1 hr hf hv).1

/-- The hypotheses are met by a problem on which the relaxed diagram of the root is not exact: the run to the end takes 3 nodes and yields 12. -/
example : ∃ s, ReachableMax (Inst.tabCfg Inst.oneTab 2 1 .frontier) s ∧ Finished s ∧ bestValue (Inst.tabCfg Inst.oneTab 2 1 .frontier) s.crit = some 12 ∧
    s.crit.explored = 3 ∧ GoodCfg (Inst.tabCfg Inst.oneTab 2 1 .frontier) Inst.oneLayering 10 ∧ UniqueTerminal (Inst.tabCfg Inst.oneTab 2 1 .frontier).p Inst.oneLayering := by
  obtain ⟨s, h1, h2⟩ := Inst.test_spec_max (cfg := Inst.tabCfg Inst.oneTab 2 1 .frontier) (l := List.replicate 15 (0, false))
    (f := fun s => Inst.allDone s && (bestValue (Inst.tabCfg Inst.oneTab 2 1 .frontier) s.crit == some 12) && (s.crit.explored == 3)) (by decide) (by decide +kernel)
  simp only [Bool.and_eq_true, beq_iff_eq] at h2
  exact ⟨s, h1, Inst.allDone_spec h2.1.1, h2.1.2, h2.2, Inst.oneCfg_good 1 .frontier, Inst.one_unique⟩

end Verif.Props
