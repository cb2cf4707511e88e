import Verif.Examples.Locks
import Verif.Proofs.Fine.Grow
import Verif.Props.Barrier
/-!
C80-C82: the solver with a barrier when the threads interleave at every access to the barrier.

`FReachable cfg s` says that some interleaving of the critical sections and of the single reads and writes of the barrier leads to `s`, with some answers of
`interrupt()` and some resolution of hash order and ties.
-/
set_option autoImplicit false

namespace Verif.Props
open Verif Spec Bar Fine
variable {σ : Type} [DecidableEq σ] [Inhabited σ] {cfg : SolverCfg σ} {S : Layering σ} {B : Int} {s : FSys σ cfg.fr.F}

theorem freachable_of_max (h : FReachableMax cfg s) : FReachable cfg s := by
  obtain ⟨s0, ls, h0, hl, hs⟩ := h
  exact ⟨s0, ls, h0, fun l hx => (hl l hx).1, hs⟩

theorem freachable_next (h : FReachable cfg s) {l : FLbl σ} (hl : FValidLbl l) {s' : FSys σ cfg.fr.F} (hs : Fine.step cfg s l = .ok s') : FReachable cfg s' := by
  obtain ⟨s0, ls, h0, hls, hr⟩ := h
  refine ⟨s0, ls ++ [l], h0, ?_, ?_⟩
  · intro x hx
    rcases List.mem_append.1 hx with h | h
    · exact hls x h
    · rw [List.mem_singleton.1 h]; exact hl
  · rw [runs_append ls [l] s0 s hr]
    simp only [Fine.runs, hs]

/-! ### C80: safety, progress and termination -/

/-- **C80.** No interleaving makes a worker panic. -/
theorem lock_never_panics (L : FrontierLaws cfg.fr) (hg : BaseCfg cfg S B) (hn : cfg.nbThreads ≤ cfg.custom) :
    ∃ s0, Fine.init cfg = some s0 ∧ ∀ ls, (∀ l ∈ ls, FValidLbl l) → Fine.runs cfg s0 ls ≠ .panic := by
  obtain ⟨c0, h1, h2, _⟩ := init_spec (cfg := cfg) L
  exact ⟨⟨c0, none, fun _ => none⟩, by simp [Fine.init, h1], fun ls hl => (runs_good (L := L) hg hn ls _ c0 (quiet_rel h2) h2 hl).1⟩

/-- **C80.** The model with views is faithful: whenever nobody is within a critical section, the critical data and the threads are those of a reachable state of
that model.  So what is proved there of the critical data for arbitrary views holds for the real interleavings. -/
theorem lock_state_of_views (L : FrontierLaws cfg.fr) (hg : BaseCfg cfg S B) (hn : cfg.nbThreads ≤ cfg.custom) (hr : FReachable cfg s) (hh : s.holder = none) :
    ∃ b, BReachable cfg { s.sys with bars := b } := by
  obtain ⟨c, h1, h2⟩ := reachable_rel L hg hn hr
  refine ⟨c.bars, ?_⟩
  have : ({ s.sys with bars := c.bars } : BSys σ cfg.fr.F) = c := by
    simp only [← h2.thr, ← h2.free hh]
  rw [this]; exact h1

/-- **C80.** Mutual exclusion: a thread that is within `get_workload` holds the mutex... -/
theorem lock_exclusive (L : FrontierLaws cfg.fr) (hg : BaseCfg cfg S B) (hn : cfg.nbThreads ≤ cfg.custom) (hr : FReachable cfg s) {i : Nat} {x : Sub σ cfg.fr.F}
    (hx : s.sub i = some x) (hc : ∀ o w, x ≠ .comp o w) : s.holder = some i := by
  obtain ⟨c, h1, h2⟩ := reachable_rel L hg hn hr
  obtain ⟨t, -, g⟩ := h2.sub i x hx
  cases x with
  | clean => exact g.1
  | pop => exact g.1
  | take n f ob => exact g.1
  | comp o w => exact absurd rfl (hc o w)

/-- **C80.** ...and who holds it is within `get_workload`: no other thread is given a node, wakes up or changes the incumbent meanwhile. -/
theorem lock_held_within (L : FrontierLaws cfg.fr) (hg : BaseCfg cfg S B) (hn : cfg.nbThreads ≤ cfg.custom) (hr : FReachable cfg s) {i j : Nat} (hh : s.holder = some i)
    (hij : j ≠ i) {intr : Bool} {o : Oracle σ} {s' : FSys σ cfg.fr.F} (h : Fine.step cfg s (.run j intr o) = .ok s') :
    s'.holder = some i ∧ s'.sys.crit = s.sys.crit ∧ s'.sub i = s.sub i ∧ s'.sys.threads[i]? = s.sys.threads[i]? := by
  have hne : s.holder ≠ none := by rw [hh]; simp
  simp only [Fine.step] at h
  split at h
  · cases h
  rename_i t ht
  have hset : ∀ t' : BThread σ, (s.sys.threads.set j t')[i]? = s.sys.threads[i]? := fun t' => List.getElem?_set_ne hij
  unfold Fine.stepThread at h
  split at h
  · rename_i x hsub
    have hx : ∃ o w, x = .comp o w := by
      apply Classical.byContradiction
      intro hno
      have := lock_exclusive L hg hn hr hsub (fun o w e => hno ⟨o, w, e⟩)
      rw [hh] at this; cases this; exact hij rfl
    obtain ⟨o', w, rfl⟩ := hx
    simp only [stepSub] at h
    split at h
    · split at h
      · cases h
      · cases h; exact ⟨hh, rfl, setSub_ne _ _ (Ne.symm hij), rfl⟩
      · rw [if_neg hne] at h; cases h
    · split at h
      · cases h
      · cases h; exact ⟨hh, rfl, setSub_ne _ _ (Ne.symm hij), rfl⟩
      · cases h; exact ⟨hh, rfl, setSub_ne _ _ (Ne.symm hij), hset _⟩
    · cases h
  · split at h
    · cases h
    · cases h
    · rw [if_neg hne] at h; cases h
    · cases h; exact ⟨hh, rfl, setSub_ne _ _ (Ne.symm hij), rfl⟩
    · cases h; exact ⟨hh, rfl, setSub_ne _ _ (Ne.symm hij), rfl⟩
    · rw [if_neg hne] at h; cases h

/-- **C80.** At every moment, also while somebody is within a critical section, the incumbent is real... -/
theorem lock_incumbent_real (L : FrontierLaws cfg.fr) (hg : BaseCfg cfg S B) (hn : cfg.nbThreads ≤ cfg.custom) (hr : FReachable cfg s) :
    (bestSolution cfg s.sys.crit = none ∧ bestValue cfg s.sys.crit = none) ∨
      ∃ sol v, bestSolution cfg s.sys.crit = some sol ∧ bestValue cfg s.sys.crit = some v ∧ bestLowerBound cfg s.sys.crit = v ∧ IsSolutionOf cfg.p sol v := by
  obtain ⟨c, h1, h2⟩ := reachable_rel L hg hn hr
  have := barrier_incumbent_real L hg hn h1
  simpa only [bestSolution, bestValue, bestLowerBound, h2.inc.1, h2.inc.2] using this

/-- **C80.** ...the lower bound does not exceed the optimum... -/
theorem lock_lower_bound_le_optimum (L : FrontierLaws cfg.fr) (hg : BaseCfg cfg S B) (hn : cfg.nbThreads ≤ cfg.custom) (hr : FReachable cfg s) {v : Int}
    (hv : IsOptimum cfg.p v) : bestLowerBound cfg s.sys.crit ≤ v := by
  obtain ⟨c, h1, h2⟩ := reachable_rel L hg hn hr
  have := barrier_lower_bound_le_optimum L hg hn h1 hv
  simpa only [bestLowerBound, h2.inc.1] using this

/-- **C80.** ...and never decreases. -/
theorem lock_lower_bound_monotone (L : FrontierLaws cfg.fr) (hg : BaseCfg cfg S B) (hn : cfg.nbThreads ≤ cfg.custom) (hr : FReachable cfg s) {ls : List (FLbl σ)}
    (hl : ∀ l ∈ ls, FValidLbl l) {s' : FSys σ cfg.fr.F} (h : Fine.runs cfg s ls = .ok s') : bestLowerBound cfg s.sys.crit ≤ bestLowerBound cfg s'.sys.crit := by
  obtain ⟨c, h1, h2⟩ := reachable_rel L hg hn hr
  have hi := reachable_inv L hg hn h1
  obtain ⟨bs, c', g1, g2, g3, -⟩ := (runs_good (L := L) hg hn ls s c h2 hi hl).2 s' h
  have := barrier_lower_bound_monotone L hg hn h1 g3 g1
  simpa only [bestLowerBound, h2.inc.1, g2.inc.1] using this

/-- **C80.** No deadlock: as long as some worker has not stopped, some worker can make a step. -/
theorem lock_no_deadlock (L : FrontierLaws cfg.fr) (hg : BaseCfg cfg S B) (hn : cfg.nbThreads ≤ cfg.custom) (hr : FReachable cfg s) (hf : ¬ FFinished s) :
    ∃ i, ∀ intr o, o.Valid → ∃ s', Fine.step cfg s (.run i intr o) = .ok s' := by
  obtain ⟨c, h1, h2⟩ := reachable_rel L hg hn hr
  have hi := reachable_inv L hg hn h1
  cases hh : s.holder with
  | some i =>
    have : ∃ x, s.sub i = some x ∧ ∀ o w, x ≠ .comp o w := by
      rcases h2.hold i hh with h | h | ⟨n, f, ob, h⟩ <;> exact ⟨_, h, by simp⟩
    obtain ⟨x, hx, hc⟩ := this
    obtain ⟨t, ht, hk⟩ := h2.sub i x hx
    have hp : t.pc = .idle := by
      cases x with
      | clean => exact hk.2.1
      | pop => exact hk.2.1
      | take n f ob => exact hk.2.1
      | comp o w => exact absurd rfl (hc o w)
    exact ⟨i, fun intr o ho => progress (L := L) hg hn h2 hi ht (by rw [hp]; simp) (by rw [hp]; simp) (Or.inr hh) intr ho⟩
  | none =>
    have : ∃ t ∈ s.sys.threads, t.pc ≠ .done := by
      by_cases h : ∃ t ∈ s.sys.threads, t.pc ≠ .done
      · exact h
      · exact absurd (fun t ht => Classical.not_not.1 fun hne => h ⟨t, ht, hne⟩) hf
    obtain ⟨t, ht, hne⟩ := this
    by_cases hw : t.pc = .waiting
    · obtain ⟨i, t', g1, g2⟩ := busy_exists hi (hi.wait t (by rw [h2.thr]; exact ht) hw)
      have := busy_active g2
      exact ⟨i, fun intr o ho => progress (L := L) hg hn h2 hi (by rw [← h2.thr]; exact g1) this.1 this.2.1 (Or.inl hh) intr ho⟩
    · obtain ⟨i, hi'⟩ := List.mem_iff_getElem?.1 ht
      exact ⟨i, fun intr o ho => progress (L := L) hg hn h2 hi hi' hw hne (Or.inl hh) intr ho⟩

/-- **C80.** Every run terminates: an infinite run is possible only with infinitely many spurious wake-ups. -/
theorem lock_runs_terminate (L : FrontierLaws cfg.fr) (hg : BaseCfg cfg S B) (hn : cfg.nbThreads ≤ cfg.custom) (st : Nat → FSys σ cfg.fr.F) (ls : Nat → FLbl σ)
    (hr : FReachable cfg (st 0)) (hv : ∀ k, FValidLbl (ls k)) (hs : ∀ k, Fine.step cfg (st k) (ls k) = .ok (st (k + 1))) :
    ∀ k, ∃ j, k ≤ j ∧ ∃ i, ls j = .spurious i := by
  intro k
  apply Classical.byContradiction
  intro hno
  have hrun : ∀ j, isFRun (ls (k + j)) = true := by
    intro j
    cases hl : ls (k + j) with
    | run => rfl
    | spurious i => exact absurd ⟨k + j, by omega, i, hl⟩ hno
  have hreach : ∀ k, FReachable cfg (st k) := by
    intro k
    induction k with
    | zero => exact hr
    | succ k ih => exact freachable_next ih (hv k) (hs k)
  obtain ⟨c, h1, h2⟩ := reachable_rel L hg hn (hreach k)
  exact Fine.no_infinite (L := L) hg hn (fun j => st (k + j)) (fun j => ls (k + j)) h2 (reachable_inv L hg hn h1) (fun j => hv _) (fun j => hs _) hrun

/-- **C80.** Hence a run that cannot be continued has ended with all workers stopped. -/
theorem lock_maximal_run_finished (L : FrontierLaws cfg.fr) (hg : BaseCfg cfg S B) (hn : cfg.nbThreads ≤ cfg.custom) (hr : FReachable cfg s)
    (hmax : ∀ i intr o, o.Valid → ∀ s', Fine.step cfg s (.run i intr o) ≠ .ok s') : FFinished s := by
  apply Classical.byContradiction
  intro hf
  obtain ⟨i, h⟩ := lock_no_deadlock L hg hn hr hf
  obtain ⟨s', hs'⟩ := h false Inst.orc Inst.orc_valid
  exact hmax i false Inst.orc Inst.orc_valid s' hs'

/-- A state with a free mutex in which thread 0 is within a compilation and thread 1 between two critical sections; there is an incumbent. -/
example : Inst.ftest (Inst.raceCfg 2) Inst.lostRun (fun s => s.holder.isNone && (s.sub 0).isSome && (s.sub 1).isNone && (s.sys.crit.bestLb == 5)) = true := by decide +kernel

/-- One thread holds the mutex while the other one compiles a diagram. -/
example : Inst.ftest (Inst.raceCfg 2) (List.replicate 12 (0, false) ++ [(1, false)]) (fun s => (s.holder == some 1) && (s.sub 0).isSome) = true := by decide +kernel

/-! ### C81: thresholds when threads interfere -/

/-- **C81 is false**: with two threads a stored threshold can be replaced by a lower one.  `try_update_barrier` compares under a read lock and stores under a write
lock taken later.  Here thread 0 replaces the threshold 5 (explored) of a state in an active layer by 0 (not explored). -/
theorem lock_lost_update : ∃ s s', FReachableMax (Inst.raceCfg 2) s ∧ Fine.step (Inst.raceCfg 2) s (.run 0 false Inst.orc) = .ok s' ∧ s'.sys.crit.lowest ≤ 5 ∧
    s.sys.bars.get 5 ((5, 2) : Grid.St) = some ⟨5, true⟩ ∧ s'.sys.bars.get 5 ((5, 2) : Grid.St) = some ⟨0, false⟩ := by
  obtain ⟨s, h1, h2⟩ := Inst.ftest_spec_max (cfg := Inst.raceCfg 2) (l := Inst.lostRun)
    (f := fun s => (match Fine.step (Inst.raceCfg 2) s (.run 0 false Inst.orc) with
      | .ok s' => decide (s'.sys.crit.lowest ≤ 5) && decide (s'.sys.bars.get 5 ((5, 2) : Grid.St) = some ⟨0, false⟩)
      | _ => false) && decide (s.sys.bars.get 5 ((5, 2) : Grid.St) = some ⟨5, true⟩)) (by decide +kernel) (by decide +kernel)
  simp only [Bool.and_eq_true, decide_eq_true_eq] at h2
  obtain ⟨h2, h3⟩ := h2
  split at h2
  · rename_i s' hs
    simp only [Bool.and_eq_true, decide_eq_true_eq] at h2
    exact ⟨s, s', h1, hs, h2.1, h3, h2.2⟩
  · cases h2

/-- **C81 (partial).** With one thread no step weakens a threshold, except that thresholds of layers above the lowest active one are deleted: what was cut off is
still cut off.  Missing: several threads, where it is false (`lock_lost_update`). -/
theorem lock_thresholds_grow_partial (L : FrontierLaws cfg.fr) (hg : BaseCfg cfg S B) (hn : cfg.nbThreads ≤ cfg.custom) (h1 : cfg.nbThreads = 1) (hr : FReachable cfg s)
    {intr : Bool} {o : Oracle σ} {i : Nat} {s' : FSys σ cfg.fr.F} (h : Fine.step cfg s (.run i intr o) = .ok s') {d : Nat} (hd : s'.sys.crit.lowest ≤ d) (x : σ) (y : Int)
    (hy : mustExplore (s.sys.bars.get d x) y = false) : mustExplore (s'.sys.bars.get d x) y = false := by
  obtain ⟨s0, ls, h0, hl, hs⟩ := hr
  obtain ⟨c0, hc0, rfl⟩ := init_rel h0
  obtain ⟨c1, e, hi, -⟩ := init_spec (cfg := cfg) L
  rw [hc0] at e; cases e
  have hlt : 0 < c0.threads.length := by rw [hi.thr, h1]; omega
  obtain ⟨bs, c', g1, g2, g3⟩ := single_runs (L := L) hg hn h1 false ls _ s c0 (quiet_solo _ (List.getElem?_eq_getElem hlt)) hi (fun l hx => ⟨hl l hx, by simp⟩) hs
  have hi' : Inv L c' := reachable_inv L hg hn ⟨c0, bs, hc0, fun l hx => (g3 l hx).1, g1⟩
  have hi0 : i = 0 := by
    simp only [Fine.step] at h
    cases ht : s.sys.threads[i]? with
    | none => simp only [ht] at h; cases h
    | some t =>
      have := (List.getElem?_eq_some_iff.1 ht).1
      rw [← g2.thr, hi'.thr, h1] at this
      omega
  subst hi0
  exact solo_grows g2 h hd x y hy

/-- There are thresholds that could be weakened. -/
example : Inst.ftest (Inst.kpCfg 1) (List.replicate 40 (0, false)) (fun s => s.sys.bars.any fun l => !l.isEmpty) = true := by decide +kernel

/-! ### C82: one thread -/

/-- **C82.** With one thread, whenever it is not in the middle of a `get_workload` or of a compilation, the whole state, barrier included, is a state of the model in
which every step sees the barrier as it is. -/
theorem lock_single_sharp (L : FrontierLaws cfg.fr) (hg : BaseCfg cfg S B) (hn : cfg.nbThreads ≤ cfg.custom) (h1 : cfg.nbThreads = 1) (hsub : s.sub 0 = none) :
    (FReachable cfg s → SharpReachable cfg s.sys) ∧ (FReachableMax cfg s → SharpReachableMax cfg s.sys) := by
  have key : ∀ m : Bool, (∃ s0 ls, Fine.init cfg = some s0 ∧ (∀ l ∈ ls, FValidLbl l ∧ (m = true → FNoInterrupt l)) ∧ Fine.runs cfg s0 ls = .ok s) →
      ∃ s0 bs, Bar.init cfg = some s0 ∧ (∀ l ∈ bs, BValidLbl l ∧ Sharp l ∧ (m = true → NoInterrupt l)) ∧ Bar.runs cfg s0 bs = .ok s.sys := by
    rintro m ⟨s0, ls, h0, hl, hs⟩
    obtain ⟨c0, hc0, rfl⟩ := init_rel h0
    obtain ⟨c1, e, hi, -⟩ := init_spec (cfg := cfg) L
    rw [hc0] at e; cases e
    have hlt : 0 < c0.threads.length := by rw [hi.thr, h1]; omega
    obtain ⟨bs, c', g1, g2, g3⟩ := single_runs (L := L) hg hn h1 m ls _ s c0 (quiet_solo _ (List.getElem?_eq_getElem hlt)) hi hl hs
    obtain ⟨t, -, hx⟩ := g2.sub
    rw [hsub] at hx
    exact ⟨c0, bs, hc0, g3, by rw [hx.1]; exact g1⟩
  constructor
  · rintro ⟨s0, ls, h0, hl, hs⟩
    obtain ⟨c0, bs, a1, a2, a3⟩ := key false ⟨s0, ls, h0, fun l hx => ⟨hl l hx, by simp⟩, hs⟩
    exact ⟨c0, bs, a1, fun l hx => ⟨(a2 l hx).1, (a2 l hx).2.1⟩, a3⟩
  · rintro ⟨s0, ls, h0, hl, hs⟩
    obtain ⟨c0, bs, a1, a2, a3⟩ := key true ⟨s0, ls, h0, fun l hx => ⟨(hl l hx).1, fun _ => (hl l hx).2⟩, hs⟩
    exact ⟨c0, bs, a1, fun l hx => ⟨(a2 l hx).1, (a2 l hx).2.1, (a2 l hx).2.2 rfl⟩, a3⟩

/-- **C82.** Conversely, for any number of threads, every run in which each step sees the barrier as it is can happen. -/
theorem lock_sharp_possible (L : FrontierLaws cfg.fr) (hg : BaseCfg cfg S B) (hn : cfg.nbThreads ≤ cfg.custom) {c : BSys σ cfg.fr.F} :
    (SharpReachable cfg c → FReachable cfg ⟨c, none, fun _ => none⟩) ∧ (SharpReachableMax cfg c → FReachableMax cfg ⟨c, none, fun _ => none⟩) := by
  constructor
  · rintro ⟨c0, bs, h0, hl, hs⟩
    obtain ⟨c1, e, hi, -⟩ := init_spec (cfg := cfg) L
    rw [h0] at e; cases e
    obtain ⟨ls, a1, -, a3⟩ := quiet_runs (L := L) hg hn bs c0 c hi hl hs
    exact ⟨quiet c0, ls, by simp [Fine.init, h0, quiet], a1, a3⟩
  · rintro ⟨c0, bs, h0, hl, hs⟩
    obtain ⟨c1, e, hi, -⟩ := init_spec (cfg := cfg) L
    rw [h0] at e; cases e
    obtain ⟨ls, a1, a2, a3⟩ := quiet_runs (L := L) hg hn bs c0 c hi (fun l hx => ⟨(hl l hx).1, (hl l hx).2.1⟩) hs
    exact ⟨quiet c0, ls, by simp [Fine.init, h0, quiet], fun l hx => ⟨a1 l hx, a2 (fun l hx => (hl l hx).2.2) l hx⟩, a3⟩

/-- A thread that has stopped is in the middle of nothing. -/
theorem finished_sub (L : FrontierLaws cfg.fr) (hg : BaseCfg cfg S B) (hn : cfg.nbThreads ≤ cfg.custom) (hr : FReachable cfg s) (hf : FFinished s) (i : Nat) :
    s.sub i = none := by
  obtain ⟨c, h1, h2⟩ := reachable_rel L hg hn hr
  cases hs : s.sub i with
  | none => rfl
  | some x =>
    obtain ⟨t, ht, g⟩ := h2.sub i x hs
    have hd := hf t (List.mem_iff_getElem?.2 ⟨i, ht⟩)
    rcases g.pc with h | ⟨n, lb, h⟩ | ⟨n, lb, dd, h⟩ <;> rw [hd] at h <;> cases h

/-- **C82.** So with one thread `maximize()` returns the optimum together with a solution... -/
theorem lock_single_optimal (L : FrontierLaws cfg.fr) (hg : GoodCfg cfg S B) (hco : CutOK cfg S) (h1 : cfg.nbThreads = 1) (hn : cfg.nbThreads ≤ cfg.custom)
    (hr : FReachableMax cfg s) (hf : FFinished s) {v : Int} (hv : IsOptimum cfg.p v) :
    bestValue cfg s.sys.crit = some v ∧ ∃ sol, bestSolution cfg s.sys.crit = some sol ∧ IsSolutionOf cfg.p sol v :=
  barrier_optimal L hg hco h1 hn ((lock_single_sharp L hg.base hn h1 (finished_sub L hg.base hn (freachable_of_max hr) hf 0)).2 hr) hf hv

/-- **C82.** ...and nothing exactly if there is none. -/
theorem lock_single_none_iff_infeasible (L : FrontierLaws cfg.fr) (hg : GoodCfg cfg S B) (hco : CutOK cfg S) (h1 : cfg.nbThreads = 1) (hn : cfg.nbThreads ≤ cfg.custom)
    (hr : FReachableMax cfg s) (hf : FFinished s) :
    (bestValue cfg s.sys.crit = none ↔ Infeasible cfg.p) ∧ (bestSolution cfg s.sys.crit = none ↔ Infeasible cfg.p) :=
  barrier_none_iff_infeasible L hg hco h1 hn ((lock_single_sharp L hg.base hn h1 (finished_sub L hg.base hn (freachable_of_max hr) hf 0)).2 hr) hf

/-- **C43 is false** also at this level: two threads return less than the optimum. -/
theorem lock_two_threads_not_optimal : IsOptimum (Inst.raceCfg 2).p 10 ∧ ∃ s, FReachableMax (Inst.raceCfg 2) s ∧ FFinished s ∧
    bestValue (Inst.raceCfg 2) s.sys.crit = some 5 ∧ bestUpperBound (Inst.raceCfg 2) s.sys.crit = 5 ∧ proved (Inst.raceCfg 2) s.sys.crit = true := by
  obtain ⟨hg, -, -, ho, c, h1, h2, h3⟩ := barrier_two_threads_not_optimal
  exact ⟨ho, _, (lock_sharp_possible (Inst.raceLaws 2) hg.base (Nat.le_refl _)).2 h1, h2, h3⟩

/-- A run of one thread, access by access. -/
example : ∃ s, FReachableMax (Inst.kpCfg 1) s ∧ FFinished s ∧ bestValue (Inst.kpCfg 1) s.sys.crit = some 9 := by
  obtain ⟨c, h1, h2⟩ := Inst.btest_spec_max (cfg := Inst.kpCfg 1) (l := List.replicate 34 (0, false))
    (f := fun s => Inst.bAllDone s && (bestValue (Inst.kpCfg 1) s.crit == some 9)) (by decide) (by decide +kernel)
  simp only [Bool.and_eq_true, beq_iff_eq] at h2
  exact ⟨_, (lock_sharp_possible (Inst.kpLaws 1) (Inst.kpCfg_good 1).base (Nat.le_refl _)).2 h1, Inst.bAllDone_spec h2.1, h2.2⟩

end Verif.Props
