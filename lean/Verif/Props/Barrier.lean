import Verif.Examples.Terminal
import Verif.Proofs.Bar.Final
import Verif.Examples.Race
/-!
C35-C41, C43-C51: the solver with a barrier.

`BReachable cfg s` says that some interleaving, some answers of `interrupt()`, some resolution of hash order and ties, *and arbitrary readings of the barrier* lead to `s`:
what holds for it holds for any number of threads.  `SharpReachable` restricts this to steps that see the barrier as it is, which is all that can happen with one
thread (and something that can happen with several).
-/
set_option autoImplicit false

namespace Verif.Props
open Verif Spec Bar
variable {σ : Type} [DecidableEq σ] [Inhabited σ] {cfg : SolverCfg σ} {S : Layering σ} {B : Int} {s : BSys σ cfg.fr.F}

/-! ### C35, C43: optimality -/

theorem barrier_finished (L : FrontierLaws cfg.fr) (hg : GoodCfg cfg S B) (hco : CutOK cfg S) (h1 : cfg.nbThreads = 1) (hn : cfg.nbThreads ≤ cfg.custom)
    (hi : Inv L s) (hs : Single L B s) (hf : BFinished s) (hp : proved cfg s.crit = true) :
    bestUpperBound cfg s.crit = bestLowerBound cfg s.crit ∧
    ((∃ v sol, bestValue cfg s.crit = some v ∧ bestSolution cfg s.crit = some sol ∧ IsSolutionOf cfg.p sol v ∧ IsOptimum cfg.p v ∧ bestLowerBound cfg s.crit = v) ∨
      (bestValue cfg s.crit = none ∧ bestSolution cfg s.crit = none ∧ Infeasible cfg.p)) := by
  have hint : s.crit.interrupted = false := by simpa [proved] using hp
  obtain ⟨hub, hall⟩ := finished_covered hi hs h1 hf hint
  refine ⟨hub, ?_⟩
  rcases hi.inc with ⟨g1, g2⟩ | ⟨sol, g1, g2⟩
  · right
    refine ⟨by simp [bestValue, g1], g1, ?_⟩
    intro ds v hs
    have := hall ds v hs
    have := (Par.solution_bounds hg.wf hs).1
    omega
  · left
    obtain ⟨ds, hp, hs⟩ := g2
    exact ⟨s.crit.bestLb, sol, by simp [bestValue, g1], g1, ⟨ds, hp, hs⟩, ⟨⟨ds, hs⟩, hall⟩, rfl⟩

theorem barrier_optimal_of (L : FrontierLaws cfg.fr) (hg : GoodCfg cfg S B) (hco : CutOK cfg S) (h1 : cfg.nbThreads = 1) (hn : cfg.nbThreads ≤ cfg.custom)
    (hi : Inv L s) (hs : Single L B s) (hf : BFinished s) (hp : proved cfg s.crit = true) {v : Int} (hv : IsOptimum cfg.p v) :
    bestValue cfg s.crit = some v ∧ ∃ sol, bestSolution cfg s.crit = some sol ∧ IsSolutionOf cfg.p sol v := by
  rcases (barrier_finished L hg hco h1 hn hi hs hf hp).2 with ⟨v', sol, h1, h2, h3, h4, _⟩ | ⟨_, _, h3⟩
  · obtain ⟨ds, hs⟩ := hv.1
    obtain ⟨ds', hs'⟩ := h4.1
    have : v' = v := by have := h4.2 ds v hs; have := hv.2 ds' v' hs'; omega
    subst this
    exact ⟨h1, sol, h2, h3⟩
  · obtain ⟨ds, hs⟩ := hv.1
    exact absurd hs (h3 ds v)

/-- **C35.** When `maximize()` of a solver with a barrier returns on one thread, the best value is the optimum and the best solution attains it.
(`CutOK`: the cutset is the last exact layer, or all complete assignments end in the same state.) -/
theorem barrier_optimal (L : FrontierLaws cfg.fr) (hg : GoodCfg cfg S B) (hco : CutOK cfg S) (h1 : cfg.nbThreads = 1) (hn : cfg.nbThreads ≤ cfg.custom)
    (hr : SharpReachableMax cfg s) (hf : BFinished s) {v : Int} (hv : IsOptimum cfg.p v) :
    bestValue cfg s.crit = some v ∧ ∃ sol, bestSolution cfg s.crit = some sol ∧ IsSolutionOf cfg.p sol v :=
  barrier_optimal_of L hg hco h1 hn (reachable_inv L hg.base hn hr.sharp.reachable) (reachable_single L hg hco h1 hn hr.sharp) hf (by simp [proved, hr.noint]) hv

/-- **C35.** ...and there is none exactly if the problem is infeasible. -/
theorem barrier_none_iff_infeasible (L : FrontierLaws cfg.fr) (hg : GoodCfg cfg S B) (hco : CutOK cfg S) (h1 : cfg.nbThreads = 1)
    (hn : cfg.nbThreads ≤ cfg.custom) (hr : SharpReachableMax cfg s) (hf : BFinished s) :
    (bestValue cfg s.crit = none ↔ Infeasible cfg.p) ∧ (bestSolution cfg s.crit = none ↔ Infeasible cfg.p) := by
  rcases (barrier_finished L hg hco h1 hn (reachable_inv L hg.base hn hr.sharp.reachable) (reachable_single L hg hco h1 hn hr.sharp) hf (by simp [proved, hr.noint])).2 with
    ⟨v', sol, h1, h2, h3, h4, _⟩ | ⟨h1, h2, h3⟩
  · obtain ⟨ds, hs⟩ := h4.1
    rw [h1, h2]
    exact ⟨⟨by simp, fun h => absurd hs (h ds v')⟩, ⟨by simp, fun h => absurd hs (h ds v')⟩⟩
  · rw [h1, h2]
    exact ⟨⟨fun _ => h3, fun _ => rfl⟩, ⟨fun _ => h3, fun _ => rfl⟩⟩

/-- One thread on the knapsack, to the end: the hypotheses of C35 are met. -/
example : ∃ s, SharpReachableMax (Inst.kpCfg 1) s ∧ BFinished s ∧ bestValue (Inst.kpCfg 1) s.crit = some 9 := by
  obtain ⟨s, h1, h2⟩ := Inst.btest_spec_max (cfg := Inst.kpCfg 1) (l := List.replicate 34 (0, false))
    (f := fun s => Inst.bAllDone s && (bestValue (Inst.kpCfg 1) s.crit == some 9)) (by decide) (by decide +kernel)
  simp only [Bool.and_eq_true, beq_iff_eq] at h2
  exact ⟨s, h1, Inst.bAllDone_spec h2.1, h2.2⟩

/-- **C43 is false**: with two threads `maximize()` may return less than the optimum, even if every step sees the barrier as it is, the relaxation is sound and the bound
admissible.  Here it claims that 5 is optimal, while the optimum is 10 (see `Inst.raceRun` for what happens). -/
theorem barrier_two_threads_not_optimal : GoodCfg (Inst.raceCfg 2) Table.layering 10 ∧ (Inst.raceCfg 2).cutset = .lastExactLayer ∧ (Inst.raceCfg 2).nbThreads = 2 ∧
    IsOptimum (Inst.raceCfg 2).p 10 ∧ ∃ s, SharpReachableMax (Inst.raceCfg 2) s ∧ BFinished s ∧ bestValue (Inst.raceCfg 2) s.crit = some 5 ∧
      bestUpperBound (Inst.raceCfg 2) s.crit = 5 ∧ proved (Inst.raceCfg 2) s.crit = true := by
  obtain ⟨s, h1, h2⟩ := Inst.btest_spec_max (cfg := Inst.raceCfg 2) (l := Inst.raceRun)
    (f := fun s => Inst.bAllDone s && (bestValue (Inst.raceCfg 2) s.crit == some 5) && (s.crit.bestUb == 5)) (by decide) (by decide +kernel)
  simp only [Bool.and_eq_true, beq_iff_eq] at h2
  exact ⟨Inst.raceCfg_good 2, rfl, rfl, Inst.race_optimum 2, s, h1, Inst.bAllDone_spec h2.1.1, h2.1.2, h2.2, by simp [proved, h1.noint]⟩

/-- **C43 (partial).** With any number of threads, whatever the threads see of the barrier, what `maximize()` returns is a feasible solution and its value does not exceed the optimum.
Missing: that it equals the optimum, which is false for two threads (`barrier_two_threads_not_optimal`) and proved for one (`barrier_optimal`). -/
theorem barrier_threads_feasible_partial (L : FrontierLaws cfg.fr) (hg : BaseCfg cfg S B) (hn : cfg.nbThreads ≤ cfg.custom) (hr : BReachable cfg s) {v : Int}
    (h : bestValue cfg s.crit = some v) : (∃ sol, bestSolution cfg s.crit = some sol ∧ IsSolutionOf cfg.p sol v) ∧ ∀ w, IsOptimum cfg.p w → v ≤ w := by
  rcases (reachable_inv L hg hn hr).inc with ⟨g1, _⟩ | ⟨sol, g1, g2⟩
  · simp [bestValue, g1] at h
  · simp [bestValue, g1] at h
    subst h
    refine ⟨⟨sol, g1, g2⟩, ?_⟩
    obtain ⟨ds, _, hs⟩ := g2
    exact fun w hw => hw.2 ds _ hs

/-! ### C36: the incumbent -/

/-- **C36.** At every moment of a run, whatever the barrier contains, the incumbent is a feasible solution with the recorded value, or there is none yet. -/
theorem barrier_incumbent_real (L : FrontierLaws cfg.fr) (hg : BaseCfg cfg S B) (hn : cfg.nbThreads ≤ cfg.custom) (hr : BReachable cfg s) :
    (bestSolution cfg s.crit = none ∧ bestValue cfg s.crit = none) ∨
      ∃ sol v, bestSolution cfg s.crit = some sol ∧ bestValue cfg s.crit = some v ∧ bestLowerBound cfg s.crit = v ∧ IsSolutionOf cfg.p sol v := by
  rcases (reachable_inv L hg hn hr).inc with ⟨h1, _⟩ | ⟨sol, h1, h2⟩
  · left; simp [bestSolution, bestValue, h1]
  · right; exact ⟨sol, s.crit.bestLb, h1, by simp [bestValue, h1], rfl, h2⟩

/-- **C44.** The lower bound never decreases... -/
theorem barrier_lower_bound_monotone (L : FrontierLaws cfg.fr) (hg : BaseCfg cfg S B) (hn : cfg.nbThreads ≤ cfg.custom) (hr : BReachable cfg s) {ls : List (BLbl σ)}
    (hl : ∀ l ∈ ls, BValidLbl l) {s' : BSys σ cfg.fr.F} (h : runs cfg s ls = .ok s') : bestLowerBound cfg s.crit ≤ bestLowerBound cfg s'.crit :=
  runs_lb hg hn ls s s' (reachable_inv L hg hn hr) hl h

/-- **C44.** ...and never exceeds the optimum. -/
theorem barrier_lower_bound_le_optimum (L : FrontierLaws cfg.fr) (hg : BaseCfg cfg S B) (hn : cfg.nbThreads ≤ cfg.custom) (hr : BReachable cfg s) {v : Int}
    (hv : IsOptimum cfg.p v) : bestLowerBound cfg s.crit ≤ v := by
  rcases (reachable_inv L hg hn hr).inc with ⟨_, h2⟩ | ⟨sol, h1, ds, _, h3⟩
  · obtain ⟨ds, hs⟩ := hv.1
    have := (Par.solution_bounds hg.wf hs).1
    simp only [bestLowerBound, h2]; omega
  · exact hv.2 ds _ h3

/-- In the middle of the two-thread run above there is an incumbent worth 5. -/
example : ∃ s, BReachable (Inst.raceCfg 2) s ∧ ¬ BFinished s ∧ bestValue (Inst.raceCfg 2) s.crit = some 5 := by
  obtain ⟨s, h1, h2⟩ := Inst.btest_spec (cfg := Inst.raceCfg 2) (l := Inst.raceRun.take 24)
    (f := fun s => !Inst.bAllDone s && (bestValue (Inst.raceCfg 2) s.crit == some 5)) (by decide +kernel)
  simp only [Bool.and_eq_true, beq_iff_eq, Bool.not_eq_true'] at h2
  refine ⟨s, h1.reachable, ?_, h2.2⟩
  intro hf
  have : Inst.bAllDone s = true := by
    unfold Inst.bAllDone
    rw [List.all_eq_true]
    intro t ht
    rw [hf t ht]; rfl
  rw [this] at h2; cases h2.1

/-! ### C37: the counters -/

/-- **C37.** For each layer, `ongoing_by_layer` is the number of workers that hold a node of that layer, `open_by_layer` is at least the number of waiting nodes of
that layer, both have an entry for each layer, and neither a waiting node nor a node held by a worker lies above `lowest_active_layer`.  (That the counters neither
underflow nor are indexed out of range is part of `barrier_never_panics`.) -/
theorem barrier_counters (L : FrontierLaws cfg.fr) (hg : BaseCfg cfg S B) (hn : cfg.nbThreads ≤ cfg.custom) (hr : BReachable cfg s) :
    (∀ d, s.crit.ongoingBy.getD d 0 = s.threads.countP fun t => decide (heldDepth t = some d)) ∧
    (∀ d, (L.holds s.crit.fringe).countP (fun n => decide (n.path.length = d)) ≤ s.crit.openBy.getD d 0) ∧
    s.crit.openBy.length = cfg.p.nbVars + 1 ∧ s.crit.ongoingBy.length = cfg.p.nbVars + 1 ∧
    (∀ n ∈ L.holds s.crit.fringe, s.crit.lowest ≤ n.path.length) ∧ ∀ t ∈ s.threads, ∀ d, heldDepth t = some d → s.crit.lowest ≤ d := by
  have h := reachable_inv L hg hn hr
  exact ⟨h.cntG, h.cntO, h.len.1, h.len.2.1, h.lowF rfl, h.lowH rfl⟩

/-- In the run above: a moment at which the lowest active layer is 4, with one worker there. -/
example : Inst.btest (Inst.raceCfg 2) (Inst.raceRun.take 29) (fun s => (s.crit.lowest == 4) && (s.crit.ongoingBy == [0, 0, 0, 0, 1, 0, 0, 0])) = true := by decide +kernel

/-! ### C38, C39: thresholds and cleaning -/

/-- **C38.** On one thread, at every moment, each solution is known (not better than the incumbent), or can be matched below an open node: a waiting node, the node being
processed, or a node of the cutset about to be pushed. -/
theorem barrier_nothing_lost (L : FrontierLaws cfg.fr) (hg : GoodCfg cfg S B) (hco : CutOK cfg S) (h1 : cfg.nbThreads = 1) (hn : cfg.nbThreads ≤ cfg.custom)
    (hr : SharpReachable cfg s) (hp : proved cfg s.crit = true) (hidle : ∀ t ∈ s.threads, heldDepth t = none) {ds : List Decision} {w : Int} (hw : Solution cfg.p ds w) :
    w ≤ bestLowerBound cfg s.crit ∨ ∃ m ∈ L.holds s.crit.fringe, w ≤ m.ub ∧ ∃ w', Through cfg.p m w' ∧ w ≤ w' := by
  have hi := reachable_inv L hg.base hn hr.reachable
  have hs := reachable_single L hg hco h1 hn hr
  have hlen := hi.thr
  rw [h1] at hlen
  obtain ⟨t, ht⟩ := List.length_eq_one_iff.1 hlen
  have hc := (hs.cov (by simpa [proved] using hp) t ht).cov
  have hpc := hidle t (by rw [ht]; simp)
  obtain ⟨pc, m⟩ := t
  have e : effLb s.crit ⟨pc, m⟩ = s.crit.bestLb ∧ openNodes L s.crit ⟨pc, m⟩ = L.holds s.crit.fringe ∧ Pc.node pc = none := by
    cases pc <;> simp [heldDepth] at hpc <;> exact ⟨rfl, rfl, rfl⟩
  rw [e.1, e.2.1, e.2.2] at hc
  rcases hc.cov w (Par.root_through hw) with h2 | ⟨m, h2 | h2, h3⟩
  · exact Or.inl h2
  · exact Or.inr ⟨m, h2, h3⟩
  · cases h2

/-- **C38.** On one thread, when the worker asks for work and a waiting node `n` is discarded because of a stored threshold, everything `n` might have led to is
known, or can be matched below another waiting node.  (`rest`: the waiting nodes other than `n`.) -/
theorem barrier_discard_safe (L : FrontierLaws cfg.fr) (hg : GoodCfg cfg S B) (hco : CutOK cfg S) (h1 : cfg.nbThreads = 1) (hn : cfg.nbThreads ≤ cfg.custom)
    (hr : SharpReachable cfg s) (hp : proved cfg s.crit = true) (hidle : ∀ t ∈ s.threads, heldDepth t = none) {n : SubProblem σ} {rest : List (SubProblem σ)}
    (hf : (L.holds s.crit.fringe).Perm (n :: rest)) (hx : mustExplore (s.bars.get n.path.length n.state) n.value = false) {ds : List Decision} {w : Int}
    (hw : Solution cfg.p ds w) :
    w ≤ bestLowerBound cfg s.crit ∨ ∃ m ∈ rest, w ≤ m.ub ∧ ∃ w', Through cfg.p m w' ∧ w ≤ w' := by
  have hi := reachable_inv L hg.base hn hr.reachable
  have hs := reachable_single L hg hco h1 hn hr
  have hlen := hi.thr
  rw [h1] at hlen
  obtain ⟨t, ht⟩ := List.length_eq_one_iff.1 hlen
  have hc := (hs.cov (by simpa [proved] using hp) t ht).cov
  have hpc := hidle t (by rw [ht]; simp)
  obtain ⟨pc, m⟩ := t
  have e : effLb s.crit ⟨pc, m⟩ = s.crit.bestLb ∧ openNodes L s.crit ⟨pc, m⟩ = L.holds s.crit.fringe ∧ Pc.node pc = none := by
    cases pc <;> simp [heldDepth] at hpc <;> exact ⟨rfl, rfl, rfl⟩
  rw [e.1, e.2.1, e.2.2] at hc
  have hroot := (hi.genF n (hf.mem_iff.2 (by simp))).rootOK hg.wf
  rcases (hc.discard hf hroot.bound hx).cov w (Par.root_through hw) with h2 | ⟨m, h2 | h2, h3⟩
  · exact Or.inl h2
  · exact Or.inr ⟨m, h2, h3⟩
  · cases h2

/-- **C38.** On one thread, while a node `n` is being processed, whatever a compilation cuts off below `n` because of a stored threshold is known or can be matched below a
waiting node, strictly deeper than `n`. -/
theorem barrier_compile_prune_safe (L : FrontierLaws cfg.fr) (hg : GoodCfg cfg S B) (hco : CutOK cfg S) (h1 : cfg.nbThreads = 1)
    (hn : cfg.nbThreads ≤ cfg.custom) (hr : SharpReachable cfg s) (hp : proved cfg s.crit = true) {t : BThread σ} (ht : t ∈ s.threads) {n : SubProblem σ}
    (hpc : (∃ lb, t.pc = .restr n lb) ∨ ∃ lb dd, t.pc = .relx n lb dd) {w : Int} (hw : PrunedBelow cfg.p S B s.bars.view.reads n.path.length w) :
    w ≤ bestLowerBound cfg s.crit ∨ ∃ m ∈ L.holds s.crit.fringe, n.path.length < m.path.length ∧ w ≤ m.ub ∧ ∃ w', Through cfg.p m w' ∧ w ≤ w' := by
  have hi := reachable_inv L hg.base hn hr.reachable
  have hs := reachable_single L hg hco h1 hn hr
  have hlen := hi.thr
  rw [h1] at hlen
  obtain ⟨t', ht'⟩ := List.length_eq_one_iff.1 hlen
  rw [ht', List.mem_singleton] at ht; subst ht
  have hc := (hs.cov (by simpa [proved] using hp) t ht').cov
  obtain ⟨pc, m⟩ := t
  have e : effLb s.crit ⟨pc, m⟩ = s.crit.bestLb ∧ openNodes L s.crit ⟨pc, m⟩ = L.holds s.crit.fringe ∧ Pc.node pc = some n := by
    rcases hpc with ⟨lb, h⟩ | ⟨lb, dd, h⟩ <;> (simp only at h; subst h; exact ⟨rfl, rfl, rfl⟩)
  rw [e.1, e.2.1, e.2.2] at hc
  rcases hc.pruned hw with h2 | ⟨q, h2 | h2, h3, h4⟩
  · exact Or.inl h2
  · exact Or.inr ⟨q, h2, h4, h3⟩
  · cases h2; omega

/-- **C39.** Cleaning is safe: on one thread, if at any moment of a run thresholds are removed - those of the layers that `get_workload` clears, or any others -
the rest of the run still ends with the optimum. -/
theorem barrier_cleaning_safe (L : FrontierLaws cfg.fr) (hg : GoodCfg cfg S B) (hco : CutOK cfg S) (h1 : cfg.nbThreads = 1)
    (hn : cfg.nbThreads ≤ cfg.custom) (hr : SharpReachableMax cfg s) {b : Bars σ} (hlen : b.length = s.bars.length)
    (hb : ∀ d x i, b.get d x = some i → s.bars.get d x = some i) {ls : List (BLbl σ)} (hl : ∀ l ∈ ls, BValidLbl l ∧ Sharp l ∧ NoInterrupt l) {s' : BSys σ cfg.fr.F}
    (h : runs cfg { s with bars := b } ls = .ok s') (hf : BFinished s') :
    (∀ v, IsOptimum cfg.p v → bestValue cfg s'.crit = some v) ∧ (Infeasible cfg.p → bestValue cfg s'.crit = none) := by
  have hi := reachable_inv L hg.base hn hr.sharp.reachable
  have hs := reachable_single L hg hco h1 hn hr.sharp
  have hi' : Inv L { s with bars := b } :=
    { hi with len := ⟨hi.len.1, hi.len.2.1, by show b.length = _; rw [hlen]; exact hi.len.2.2⟩ }
  have hs' : Single L B { s with bars := b } :=
    { hs with cov := fun h0 t ht =>
        have hc := hs.cov h0 t ht
        ⟨hc.cov.mono (Int.le_refl _) (fun _ h => h) hb, hc.bnd⟩ }
  have hv : ∀ l ∈ ls, BValidLbl l ∧ Sharp l := fun l h => ⟨(hl l h).1, (hl l h).2.1⟩
  have hi2 := (runs_inv (L := L) hg.base hn ls _ hi' fun l h => (hl l h).1).2 s' h
  have hs2 := runs_single hg hco h1 hn ls _ hi' hs' hv s' h
  have hint : proved cfg s'.crit = true := by
    simp only [proved, runs_noint ls _ s' (fun l h => (hl l h).2.2) h, hr.noint]; rfl
  refine ⟨fun v hv => (barrier_optimal_of L hg hco h1 hn hi2 hs2 hf hint hv).1, ?_⟩
  intro hinf
  rcases (barrier_finished L hg hco h1 hn hi2 hs2 hf hint).2 with ⟨v', sol, _, _, _, h4, _⟩ | ⟨g1, _⟩
  · obtain ⟨ds, hs⟩ := h4.1
    exact absurd hs (hinf ds v')
  · exact g1

/-! ### C40: thresholds only grow -/

/-- **C40.** Storing a threshold touches at most the entry of its state, never lowers it, and never marks an explored entry with the same threshold as unexplored;
afterwards the entry is at least the threshold that was to be stored. -/
theorem barrier_threshold_monotone {b b' : Bars σ} {u : Update σ} (h : b.tryUpdate u = some b') :
    (∀ d x, ¬ (d = u.depth ∧ x = u.state) → b'.get d x = b.get d x) ∧
    (∃ i', b'.get u.depth u.state = some i' ∧ u.theta ≤ i'.theta ∧ (i'.theta = u.theta → u.explored = true → i'.explored = true) ∧
      ∀ i, b.get u.depth u.state = some i → i.theta ≤ i'.theta ∧ (i.theta = i'.theta → i.explored = true → i'.explored = true)) := by
  have hlt : u.depth < b.length := by
    apply Classical.byContradiction
    intro hc
    unfold Bars.tryUpdate at h; rw [if_neg hc] at h; cases h
  obtain ⟨b1, h1, _, h2⟩ := Bars.tryUpdate_spec (b := b) (u := u) hlt
  rw [h] at h1; cases h1
  rcases h2 with ⟨rfl, h2⟩ | ⟨h2, h3⟩
  · refine ⟨fun _ _ _ => rfl, ?_⟩
    cases hg : b'.get u.depth u.state with
    | none => rw [hg] at h2; cases h2
    | some i =>
      rw [hg] at h2
      simp [Bars.improves] at h2
      obtain ⟨a1, a2⟩ := h2
      refine ⟨i, rfl, a1, ?_, ?_⟩
      · intro e hu
        cases he : i.explored with
        | true => rfl
        | false => have := a2 e.symm he; rw [hu] at this; cases this
      · intro j hj; cases hj; exact ⟨Int.le_refl _, fun _ h => h⟩
  · refine ⟨fun d x hne => by rw [h3 d x, if_neg hne], ⟨u.theta, u.explored⟩, by rw [h3]; simp, Int.le_refl _, fun _ h => h, ?_⟩
    intro i hi
    rw [hi] at h2
    simp [Bars.improves] at h2
    rcases h2 with h2 | ⟨⟨h2, h4⟩, h5⟩
    · exact ⟨by simp only; omega, fun e => by simp only at e; omega⟩
    · exact ⟨by simp only; omega, fun _ _ => h5⟩

/-- **C40.** Hence after all the stores of a compilation, whatever the barrier discarded before is still discarded. -/
theorem barrier_thresholds_monotone {b b' : Bars σ} {us : List (Update σ)} (h : b.tryUpdates us = some b') (d : Nat) (x : σ) (y : Int)
    (hx : mustExplore (b.get d x) y = false) : mustExplore (b'.get d x) y = false :=
  tryUpdates_grows us b b' h d x y hx

/-- A higher threshold replaces a lower one, a lower one is ignored. -/
example : Bars.tryUpdates ([[((0 : Nat), ⟨3, true⟩)]] : Bars Nat) [⟨0, 0, 5, false⟩, ⟨0, 0, 4, true⟩] = some [[(0, ⟨5, false⟩)]] := by decide

/-! ### C41, C45: progress and termination -/

/-- **C41.** No schedule makes a worker panic. -/
theorem barrier_never_panics (L : FrontierLaws cfg.fr) (hg : BaseCfg cfg S B) (hn : cfg.nbThreads ≤ cfg.custom) :
    ∃ s0, Bar.init cfg = some s0 ∧ ∀ ls, (∀ l ∈ ls, BValidLbl l) → runs cfg s0 ls ≠ .panic := by
  obtain ⟨s0, h1, h2, _⟩ := init_spec (cfg := cfg) L
  exact ⟨s0, h1, fun ls hl => (runs_inv (L := L) hg hn ls s0 h2 hl).1⟩

/-- **C41.** No deadlock: as long as some worker has not stopped, some worker can make a step. -/
theorem barrier_no_deadlock (L : FrontierLaws cfg.fr) (hg : BaseCfg cfg S B) (hn : cfg.nbThreads ≤ cfg.custom) (hr : BReachable cfg s) (hf : ¬ BFinished s) :
    ∃ i, ∀ intr o v, o.Valid → ∃ s', step cfg s (.run i intr o v) = .ok s' := by
  have hi := reachable_inv L hg hn hr
  have : ∃ t ∈ s.threads, t.pc ≠ .done := by
    by_cases h : ∃ t ∈ s.threads, t.pc ≠ .done
    · exact h
    · exact absurd (fun t ht => Classical.not_not.1 fun hne => h ⟨t, ht, hne⟩) hf
  obtain ⟨t, ht, hne⟩ := this
  by_cases hw : t.pc = .waiting
  · obtain ⟨i, t', h1, h2⟩ := busy_exists hi (hi.wait t ht hw)
    have := busy_active h2
    exact ⟨i, fun intr o v ho => enabled hg hn hi h1 this.1 this.2.1 intr ho v⟩
  · obtain ⟨i, hi'⟩ := List.mem_iff_getElem?.1 ht
    exact ⟨i, fun intr o v ho => enabled hg hn hi hi' hw hne intr ho v⟩

/-- **C41.** No lost wake-up: while a worker is parked, another one is processing a node... -/
theorem barrier_parked_implies_working (L : FrontierLaws cfg.fr) (hg : BaseCfg cfg S B) (hn : cfg.nbThreads ≤ cfg.custom) (hr : BReachable cfg s) {t : BThread σ}
    (ht : t ∈ s.threads) (hw : t.pc = .waiting) : 0 < bholders s := by
  have hi := reachable_inv L hg hn hr
  have h := hi.wait t ht hw
  rw [hi.ong] at h
  exact h

/-- **C41.** ...and when a worker reports that it has finished its node, nobody stays parked. -/
theorem barrier_finishing_wakes_all {i : Nat} {t : BThread σ} {d dd : Nat} (ht : s.threads[i]? = some t) (hp : t.pc = .fin d dd) {intr : Bool} {o : Oracle σ}
    {v : Option (View σ)} {s' : BSys σ cfg.fr.F} (h : step cfg s (.run i intr o v) = .ok s') : ∀ t ∈ s'.threads, t.pc ≠ .waiting := by
  simp only [step, ht, stepThread, hp] at h
  split at h
  · cases h
  · split at h
    · cases h
    · cases h
      intro x hx
      obtain ⟨y, _, rfl⟩ := List.mem_map.1 hx
      obtain ⟨pc, m⟩ := y
      cases pc <;> simp [wake]

/-- The situation occurs: the second thread is parked while the first holds the root. -/
example : ∃ s, BReachable (Inst.kpCfg 2) s ∧ s.threads.any (fun t => Inst.bIsWaiting t.pc) = true ∧ ¬ BFinished s := by
  obtain ⟨s, h1, h2⟩ := Inst.btest_spec (cfg := Inst.kpCfg 2) (l := Inst.kpPrefix) (f := fun s => s.threads.any (fun t => Inst.bIsWaiting t.pc)) (by decide +kernel)
  refine ⟨s, h1.reachable, h2, ?_⟩
  intro hf
  obtain ⟨t, ht, hw⟩ := List.any_eq_true.1 h2
  rw [hf t ht] at hw; simp [Inst.bIsWaiting] at hw

/-- **C45.** Every run terminates: an infinite run is possible only with infinitely many spurious wake-ups. -/
theorem barrier_runs_terminate (L : FrontierLaws cfg.fr) (hg : BaseCfg cfg S B) (hn : cfg.nbThreads ≤ cfg.custom) (st : Nat → BSys σ cfg.fr.F) (ls : Nat → BLbl σ)
    (hr : BReachable cfg (st 0)) (hv : ∀ k, BValidLbl (ls k)) (hs : ∀ k, step cfg (st k) (ls k) = .ok (st (k + 1))) : ∀ k, ∃ j, k ≤ j ∧ ∃ i, ls j = .spurious i := by
  intro k
  apply Classical.byContradiction
  intro hno
  have hrun : ∀ j, isRun (ls (k + j)) = true := by
    intro j
    cases hl : ls (k + j) with
    | run => rfl
    | spurious i => exact absurd ⟨k + j, by omega, i, hl⟩ hno
  have hinv : ∀ k, Inv L (st k) := by
    intro k
    induction k with
    | zero => exact reachable_inv L hg hn hr
    | succ k ih => exact trans_inv hg ((step_trans (L := L) hg (ih.safe hn) (hv k)).2 _ (hs k)) ih
  exact no_infinite (L := L) hg hn (fun j => st (k + j)) (fun j => ls (k + j)) (hinv k) (fun j => hv _) (fun j => hs _) hrun

/-- **C45.** Hence a run that cannot be continued has ended with all workers stopped. -/
theorem barrier_maximal_run_finished (L : FrontierLaws cfg.fr) (hg : BaseCfg cfg S B) (hn : cfg.nbThreads ≤ cfg.custom) (hr : BReachable cfg s)
    (hmax : ∀ i intr o v, o.Valid → ∀ s', step cfg s (.run i intr o v) ≠ .ok s') : BFinished s := by
  apply Classical.byContradiction
  intro hf
  obtain ⟨i, h⟩ := barrier_no_deadlock L hg hn hr hf
  obtain ⟨s', hs'⟩ := h false Inst.orc none Inst.orc_valid
  exact hmax i false Inst.orc none Inst.orc_valid s' hs'

theorem barrier_runs_append (ls ls' : List (BLbl σ)) : ∀ {s s' : BSys σ cfg.fr.F}, runs cfg s ls = .ok s' → runs cfg s (ls ++ ls') = runs cfg s' ls' := by
  induction ls with
  | nil => intro s s' h; cases h; rfl
  | cons x ls ih =>
    intro s s' h
    unfold runs at h
    simp only [List.cons_append]
    conv => lhs; unfold runs
    cases hx : step cfg s x with
    | ok s1 => rw [hx] at h; simp only at h ⊢; exact ih h
    | panic => rw [hx] at h; cases h
    | blocked => rw [hx] at h; cases h

/-- **C45.** Whatever has happened so far, a run can be completed without an interruption: `maximize` can return. -/
theorem barrier_can_finish (L : FrontierLaws cfg.fr) (hg : BaseCfg cfg S B) (hn : cfg.nbThreads ≤ cfg.custom) (hr : BReachable cfg s) :
    ∃ ls s', (∀ l ∈ ls, BValidLbl l ∧ ∃ i o, l = .run i false o none) ∧ runs cfg s ls = .ok s' ∧ BFinished s' := by
  apply Classical.byContradiction
  intro hno
  let X := {t : BSys σ cfg.fr.F // ∃ ls, (∀ l ∈ ls, BValidLbl l ∧ ∃ i o, l = .run i false o none) ∧ runs cfg s ls = .ok t}
  have hX : ∀ x : X, BReachable cfg x.1 := by
    rintro ⟨t, ls, h1, h2⟩
    obtain ⟨s0, ls0, g1, g2, g3⟩ := hr
    refine ⟨s0, ls0 ++ ls, g1, ?_, by rw [barrier_runs_append _ _ g3]; exact h2⟩
    intro l hl
    rcases List.mem_append.1 hl with hl | hl
    · exact g2 l hl
    · exact (h1 l hl).1
  have hnext : ∀ x : X, ∃ y : X, ∃ i, step cfg x.1 (.run i false Inst.orc none) = .ok y.1 := by
    intro x
    obtain ⟨ls, h1, h2⟩ := x.2
    obtain ⟨i, h⟩ := barrier_no_deadlock L hg hn (hX x) fun hf => hno ⟨ls, x.1, h1, h2, hf⟩
    obtain ⟨s', hs'⟩ := h false Inst.orc none Inst.orc_valid
    refine ⟨⟨s', ls ++ [.run i false Inst.orc none], ?_, ?_⟩, i, hs'⟩
    · intro l hl
      rcases List.mem_append.1 hl with hl | hl
      · exact h1 l hl
      · rw [List.mem_singleton] at hl
        subst hl
        exact ⟨Inst.orc_valid, i, Inst.orc, rfl⟩
    · rw [barrier_runs_append _ _ h2]; simp only [runs, hs']
  choose next who hstep using hnext
  let st : Nat → X := fun k => Nat.rec ⟨s, [], by simp, rfl⟩ (fun _ x => next x) k
  obtain ⟨j, _, i, hi⟩ := barrier_runs_terminate L hg hn (fun k => (st k).1) (fun k => .run (who (st k)) false Inst.orc none) (hX (st 0)) (fun _ => Inst.orc_valid) (fun k => hstep (st k)) 0
  cases hi

/-! ### C46, C47: interruption -/

/-- **C46 (partial).** With a single thread the optimum never exceeds the larger of the two bounds after an interruption; in particular equal bounds are the optimum.
Missing: the upper bound alone (`barrier_interrupted_ub_below_optimum`) and several threads (`barrier_interrupted_false_gap`), for both of which the claim is false. -/
theorem barrier_interrupted_bounds_partial (L : FrontierLaws cfg.fr) (hg : GoodCfg cfg S B) (hco : CutOK cfg S) (hn : cfg.nbThreads ≤ cfg.custom)
    (h1 : cfg.nbThreads = 1) (hr : SharpReachable cfg s) (hp : proved cfg s.crit = false) :
    (∀ ds v, Solution cfg.p ds v → v ≤ max (bestLowerBound cfg s.crit) (bestUpperBound cfg s.crit)) ∧
    (bestUpperBound cfg s.crit = bestLowerBound cfg s.crit → ∀ v, IsOptimum cfg.p v → bestValue cfg s.crit = some v) := by
  have hi := reachable_single L hg hco h1 hn hr
  have hint : s.crit.interrupted = true := by simpa [proved] using hp
  have hall : ∀ ds v, Solution cfg.p ds v → v ≤ max s.crit.bestLb s.crit.bestUb := by
    intro ds v hs
    rcases hi.intr hint v (Par.root_through hs) with h | h <;> omega
  refine ⟨hall, ?_⟩
  intro he v hv
  simp only [bestUpperBound, bestLowerBound] at he
  obtain ⟨ds, hs⟩ := hv.1
  have hle := hall ds v hs
  have hb := (Par.solution_bounds hg.wf hs).1
  rcases (reachable_inv L hg.base hn hr.reachable).inc with ⟨g1, g2⟩ | ⟨sol, g1, ds', g2, g3⟩
  · omega
  · have := hv.2 _ _ g3
    have : s.crit.bestLb = v := by omega
    simp [bestValue, g1, this]

/-- **C46 is false** even for one thread: after an interruption the upper bound may be 11 while the solver has already found the solution worth 12. -/
theorem barrier_interrupted_ub_below_optimum : ∃ s, SharpReachable (Inst.tabCfg Inst.staleTab 3 1 .lastExactLayer) s ∧ BFinished s ∧
    bestUpperBound (Inst.tabCfg Inst.staleTab 3 1 .lastExactLayer) s.crit = 11 ∧ ∃ ds, Solution (Inst.tabCfg Inst.staleTab 3 1 .lastExactLayer).p ds 12 := by
  obtain ⟨s, h1, h2⟩ := Inst.btest_spec (cfg := Inst.tabCfg Inst.staleTab 3 1 .lastExactLayer) (l := List.replicate 15 (0, false) ++ [(0, true)])
    (f := fun s => Inst.bAllDone s && (s.crit.bestUb == 11)) (by decide +kernel)
  simp only [Bool.and_eq_true, beq_iff_eq] at h2
  exact ⟨s, h1, Inst.bAllDone_spec h2.1, h2.2, Inst.sp_through⟩

/-- **C46 is false** for two threads: both bounds are 3, as if the optimum were proved, while it is at least 12. -/
theorem barrier_interrupted_false_gap : ∃ s, SharpReachable (Inst.tabCfg Inst.lossTab 2 2 .lastExactLayer) s ∧ BFinished s ∧
    bestUpperBound (Inst.tabCfg Inst.lossTab 2 2 .lastExactLayer) s.crit = 3 ∧ bestLowerBound (Inst.tabCfg Inst.lossTab 2 2 .lastExactLayer) s.crit = 3 ∧
    ∃ ds, Solution (Inst.tabCfg Inst.lossTab 2 2 .lastExactLayer).p ds 12 := by
  obtain ⟨s, h1, h2⟩ := Inst.btest_spec (cfg := Inst.tabCfg Inst.lossTab 2 2 .lastExactLayer)
    (l := List.replicate 8 (0, false) ++ [(1, true), (0, false), (0, false), (0, false), (0, false)])
    (f := fun s => Inst.bAllDone s && (s.crit.bestUb == 3) && (s.crit.bestLb == 3)) (by decide +kernel)
  simp only [Bool.and_eq_true, beq_iff_eq] at h2
  exact ⟨s, h1, Inst.bAllDone_spec h2.1.1, h2.1.2, h2.2, Par.through_root (cfg := Inst.tabCfg Inst.lossTab 2 2 .lastExactLayer) Inst.lp_through⟩

/-- **C47.** On one thread, if `maximize_with_interrupt` returns `Proved`, the bounds coincide, and the best value is the optimum or the problem is infeasible. -/
theorem barrier_proved_means_proved (L : FrontierLaws cfg.fr) (hg : GoodCfg cfg S B) (hco : CutOK cfg S) (h1 : cfg.nbThreads = 1)
    (hn : cfg.nbThreads ≤ cfg.custom) (hr : SharpReachable cfg s) (hf : BFinished s) (hp : proved cfg s.crit = true) :
    bestUpperBound cfg s.crit = bestLowerBound cfg s.crit ∧
    (∀ v, IsOptimum cfg.p v → bestValue cfg s.crit = some v ∧ bestUpperBound cfg s.crit = v) ∧
    (Infeasible cfg.p → bestValue cfg s.crit = none) := by
  have hi := reachable_inv L hg.base hn hr.reachable
  have hs := reachable_single L hg hco h1 hn hr
  obtain ⟨h0, h2⟩ := barrier_finished L hg hco h1 hn hi hs hf hp
  refine ⟨h0, ?_, ?_⟩
  · intro v hv
    obtain ⟨ds, hs⟩ := hv.1
    rcases h2 with ⟨v', sol, g1, _, _, g4, g5⟩ | ⟨_, _, g3⟩
    · obtain ⟨ds', hs'⟩ := g4.1
      have : v' = v := by have := g4.2 ds v hs; have := hv.2 ds' v' hs'; omega
      subst this
      exact ⟨g1, by rw [h0, g5]⟩
    · exact absurd hs (g3 ds v)
  · intro hinf
    rcases h2 with ⟨v', sol, g1, _, _, g4, _⟩ | ⟨g1, _, _⟩
    · obtain ⟨ds', hs'⟩ := g4.1
      exact absurd hs' (hinf ds' v')
    · exact g1

/-! ### C48: counters and repeated work -/

/-- **C48.** The number of nodes in process is the number of workers that hold a node. -/
theorem barrier_ongoing_counts (L : FrontierLaws cfg.fr) (hg : BaseCfg cfg S B) (hn : cfg.nbThreads ≤ cfg.custom) (hr : BReachable cfg s) : s.crit.ongoing = bholders s :=
  (reachable_inv L hg hn hr).ong

/-- **C48.** The explored counter is the number of times a node was given to a worker. -/
theorem barrier_explored_counts {s0 : BSys σ cfg.fr.F} (h0 : Bar.init cfg = some s0) {ls : List (BLbl σ)} (h : runs cfg s0 ls = .ok s) :
    getExplored cfg s.crit = (given cfg s0 ls).length := by
  have := runs_explored ls s0 s h
  rw [(init_noint h0).2] at this
  simpa [getExplored] using this

/-! ### C50: the number of threads -/

/-- **C50 (partial).** A solver never panics if the number of threads is not increased beyond the number given to its constructor. -/
theorem barrier_fewer_threads_ok_partial (L : FrontierLaws cfg.fr) (hg : BaseCfg cfg S B) (n : Nat) (hn : n ≤ cfg.custom) :
    ∃ s0, Bar.init { cfg with nbThreads := n } = some s0 ∧ ∀ ls, (∀ l ∈ ls, BValidLbl l) → runs { cfg with nbThreads := n } s0 ls ≠ .panic :=
  barrier_never_panics (cfg := { cfg with nbThreads := n }) L ⟨hg.wf, hg.lay, hg.width⟩ hn

/-- **C50 is false**: a solver created for one thread and then asked to use two panics as soon as the second one gets a node. -/
theorem barrier_more_threads_panic : ∃ s0, Bar.init { Inst.kpCfg 1 with nbThreads := 2 } = some s0 ∧
    runs { Inst.kpCfg 1 with nbThreads := 2 } s0 (Inst.bsched [(1, false)]) = .panic := by
  have : (match Bar.init { Inst.kpCfg 1 with nbThreads := 2 } with
    | some s0 => (match runs { Inst.kpCfg 1 with nbThreads := 2 } s0 (Inst.bsched [(1, false)]) with | .panic => true | _ => false)
    | none => false) = true := by decide +kernel
  split at this
  · rename_i s0 h0
    refine ⟨s0, h0, ?_⟩
    split at this
    · assumption
    · cases this
  · cases this

/-! ### C51: the frontier cutset -/

/-- **C51 is false.** With the frontier cutset `maximize()` may return less than the optimum on one thread: here 3, while there is a solution worth 12. -/
theorem barrier_frontier_cutset_not_optimal : ∃ s, SharpReachableMax (Inst.tabCfg Inst.lossTab 2 1 .frontier) s ∧ BFinished s ∧
    bestValue (Inst.tabCfg Inst.lossTab 2 1 .frontier) s.crit = some 3 ∧ ∃ ds, Solution (Inst.tabCfg Inst.lossTab 2 1 .frontier).p ds 12 := by
  obtain ⟨s, h1, h2⟩ := Inst.btest_spec_max (cfg := Inst.tabCfg Inst.lossTab 2 1 .frontier) (l := List.replicate 12 (0, false))
    (f := fun s => Inst.bAllDone s && (bestValue (Inst.tabCfg Inst.lossTab 2 1 .frontier) s.crit == some 3)) (by decide) (by decide +kernel)
  simp only [Bool.and_eq_true, beq_iff_eq] at h2
  exact ⟨s, h1, Inst.bAllDone_spec h2.1, h2.2, Par.through_root (cfg := Inst.tabCfg Inst.lossTab 2 1 .frontier) Inst.lp_through⟩

/-- **C51 (partial).** It does return the optimum if all complete assignments end in the same state, and nothing if there is none.
Missing: problems with several terminal states, for which it is false (`barrier_frontier_cutset_not_optimal`). -/
theorem barrier_frontier_optimal_partial (L : FrontierLaws cfg.fr) (hg : GoodCfg cfg S B) (_hc : cfg.cutset = .frontier) (hu : UniqueTerminal cfg.p S) (h1 : cfg.nbThreads = 1)
    (hn : cfg.nbThreads ≤ cfg.custom) (hr : SharpReachableMax cfg s) (hf : BFinished s) :
    (∀ v, IsOptimum cfg.p v → bestValue cfg s.crit = some v) ∧ (bestValue cfg s.crit = none ↔ Infeasible cfg.p) :=
  ⟨fun _ hv => (barrier_optimal L hg (Or.inr hu) h1 hn hr hf hv).1, (barrier_none_iff_infeasible L hg (Or.inr hu) h1 hn hr hf).1⟩

/-- The hypotheses are met by a problem on which the relaxed diagram of the root is not exact: the run to the end takes 3 nodes and yields 12. -/
example : ∃ s, SharpReachableMax (Inst.tabCfg Inst.oneTab 2 1 .frontier) s ∧ BFinished s ∧ bestValue (Inst.tabCfg Inst.oneTab 2 1 .frontier) s.crit = some 12 ∧
    s.crit.explored = 3 ∧ GoodCfg (Inst.tabCfg Inst.oneTab 2 1 .frontier) Inst.oneLayering 10 ∧ UniqueTerminal (Inst.tabCfg Inst.oneTab 2 1 .frontier).p Inst.oneLayering := by
  obtain ⟨s, h1, h2⟩ := Inst.btest_spec_max (cfg := Inst.tabCfg Inst.oneTab 2 1 .frontier) (l := List.replicate 16 (0, false))
    (f := fun s => Inst.bAllDone s && (bestValue (Inst.tabCfg Inst.oneTab 2 1 .frontier) s.crit == some 12) && (s.crit.explored == 3)) (by decide) (by decide +kernel)
  simp only [Bool.and_eq_true, beq_iff_eq] at h2
  exact ⟨s, h1, Inst.bAllDone_spec h2.1.1, h2.1.2, h2.2, Inst.oneCfg_good 1 .frontier, Inst.one_unique⟩

end Verif.Props
