import Verif.Examples.Eager
import Verif.Proofs.Par.BestFirst
import Verif.Proofs.Bar.BestFirst
/-!
C87: nodes of large bounds are explored first.
-/
set_option autoImplicit false

namespace Verif.Props
open Verif Spec
variable {σ : Type} [DecidableEq σ] [Inhabited σ] {cfg : SolverCfg σ} {S : Layering σ} {B : Int}

/-! ### The parallel solver -/

/-- **C87 (partial).** With one worker no node is explored whose bound is below the optimum, or not above the value of the incumbent.
Missing: several workers, for which it is false, see `best_first_two_threads`. -/
theorem best_first_partial (L : FrontierLaws cfg.fr) (hg : GoodCfg cfg S B) (hc : CutOK cfg S) (hn : cfg.nbThreads ≤ cfg.custom) (h1 : cfg.nbThreads = 1)
    {s : Sys σ cfg.fr.F} (hr : Reachable cfg s) {n : SubProblem σ} (hh : Handed s n) :
    (∀ ds w, Solution cfg.p ds w → w ≤ n.ub) ∧ Par.bestLowerBound cfg s.crit < n.ub := by
  obtain ⟨t, ht, hp⟩ := hh
  obtain ⟨g1, g2, g3⟩ := Par.reachable_fresh L hg.base hn h1 hr t ht n hp
  refine ⟨fun ds w hw => ?_, g2⟩
  obtain ⟨hi, hcov⟩ := Par.reachable_inv L hg.base hn hr
  by_cases hlb : s.crit.bestLb < w
  · obtain ⟨q, hq, h2, _⟩ := hcov hg hc g1 w (Par.root_through hw) hlb
    refine Int.le_trans h2 ?_
    rcases List.mem_append.1 hq with hq | hq
    · exact g3 q hq
    · obtain ⟨t', ht', hq⟩ := List.mem_filterMap.1 hq
      have hlen := hi.thr
      rw [h1] at hlen
      obtain ⟨t0, e⟩ := List.length_eq_one_iff.1 hlen
      rw [e, List.mem_singleton] at ht ht'
      subst ht; subst ht'
      rw [hp] at hq
      cases hq
      exact Int.le_refl _
  · omega

/-- **C87 (partial).** With one worker, the bounds of the nodes that are explored never increase.  Missing: several workers. -/
theorem best_first_order_partial (L : FrontierLaws cfg.fr) (hg : BaseCfg cfg S B) (hn : cfg.nbThreads ≤ cfg.custom) (h1 : cfg.nbThreads = 1)
    {s : Sys σ cfg.fr.F} (hr : Reachable cfg s) {n : SubProblem σ} (hh : Handed s n) {ls : List (Lbl σ)} (hl : ∀ l ∈ ls, ValidLbl l)
    {s' : Sys σ cfg.fr.F} (h : Par.runs cfg s ls = .ok s') {n' : SubProblem σ} (hh' : Handed s' n') : n'.ub ≤ n.ub := by
  obtain ⟨t, ht, hp⟩ := hh
  obtain ⟨t', ht', hp'⟩ := hh'
  obtain ⟨_, _, g3⟩ := Par.reachable_fresh L hg hn h1 hr t ht n hp
  have hi := (Par.reachable_inv L hg hn hr).1
  have hb : BoundsAtMost L s n.ub := by
    refine ⟨g3, fun x hx q hq => ?_⟩
    have hlen := hi.thr
    rw [h1] at hlen
    obtain ⟨t0, e⟩ := List.length_eq_one_iff.1 hlen
    rw [e, List.mem_singleton] at ht hx
    subst ht; subst hx
    rw [hp] at hq
    cases hq
    exact Int.le_refl _
  exact (Par.runs_atMost hg hn ls s s' hi hl h hb).2 t' ht' n' (by rw [hp']; rfl)

/-- **C87.** With any number of workers, the largest bound of the nodes that wait or are being explored never increases. -/
theorem largest_bound_never_increases (L : FrontierLaws cfg.fr) (hg : BaseCfg cfg S B) (hn : cfg.nbThreads ≤ cfg.custom) {s : Sys σ cfg.fr.F} (hr : Reachable cfg s)
    {u : Int} (hu : BoundsAtMost L s u) {ls : List (Lbl σ)} (hl : ∀ l ∈ ls, ValidLbl l) {s' : Sys σ cfg.fr.F} (h : Par.runs cfg s ls = .ok s') : BoundsAtMost L s' u :=
  Par.runs_atMost hg hn ls s s' (Par.reachable_inv L hg hn hr).1 hl h hu

open Inst in
/-- **C87 is false for two workers**: while the first one explores the node that leads to the optimum 10, the second one is given a node of bound 5. -/
theorem best_first_two_threads : GoodCfg (eagerCfg 2) Table.layering 10 ∧ IsOptimum (eagerCfg 2).p 10 ∧
    ∃ s n, ReachableMax (eagerCfg 2) s ∧ Handed s n ∧ n.ub = 5 := by
  obtain ⟨s, h1, h2⟩ := test_spec_max (cfg := eagerCfg 2) (l := (List.replicate 7 0 ++ [1]).map fun i => (i, false)) (f := fun s => (handedUbs s).contains 5)
    (by decide) (by decide +kernel)
  obtain ⟨n, h3, h4⟩ := handedUbs_spec h2
  exact ⟨eagerCfg_good 2, eager_optimum 2, s, n, h1, h3, h4⟩

open Inst in
-- with one worker, the node of bound 10 is handed out after the root
example : ∃ s n, Reachable (eagerCfg 1) s ∧ Handed s n ∧ n.ub = 10 := by
  obtain ⟨s, h1, h2⟩ := test_spec (cfg := eagerCfg 1) (l := (List.replicate 7 0).map fun i => (i, false)) (f := fun s => (handedUbs s).contains 10) (by decide +kernel)
  obtain ⟨n, h3, h4⟩ := handedUbs_spec h2
  exact ⟨s, n, h1, h3, h4⟩

/-! ### The barrier solver -/

/-- **C87 (partial).** As `best_first_partial`, for the solver with a barrier. -/
theorem barrier_best_first_partial (L : FrontierLaws cfg.fr) (hg : GoodCfg cfg S B) (hc : CutOK cfg S) (hn : cfg.nbThreads ≤ cfg.custom) (h1 : cfg.nbThreads = 1)
    {s : BSys σ cfg.fr.F} (hr : SharpReachable cfg s) {n : SubProblem σ} (hh : BHanded s n) :
    (∀ ds w, Solution cfg.p ds w → w ≤ n.ub) ∧ Bar.bestLowerBound cfg s.crit < n.ub := by
  obtain ⟨t, ht, hp⟩ := hh
  obtain ⟨g1, g2, _⟩ := Bar.reachable_fresh L hg.base hn h1 hr.reachable t ht n hp
  refine ⟨fun ds w hw => ?_, g2⟩
  have hi := Bar.reachable_inv L hg.base hn hr.reachable
  have hlen := hi.thr
  rw [h1] at hlen
  obtain ⟨t0, e⟩ := List.length_eq_one_iff.1 hlen
  have ht' := ht
  rw [e, List.mem_singleton] at ht'
  subst ht'
  have hs := (Bar.reachable_single L hg hc h1 hn hr).cov g1 t e
  rcases hs.bnd n (by rw [hp]; rfl) w (Par.root_through hw) with h | h
  · omega
  · exact h

/-- **C87 (partial).** As `best_first_order_partial`, for the solver with a barrier. -/
theorem barrier_best_first_order_partial (L : FrontierLaws cfg.fr) (hg : BaseCfg cfg S B) (hn : cfg.nbThreads ≤ cfg.custom) (h1 : cfg.nbThreads = 1)
    {s : BSys σ cfg.fr.F} (hr : BReachable cfg s) {n : SubProblem σ} (hh : BHanded s n) {ls : List (BLbl σ)} (hl : ∀ l ∈ ls, BValidLbl l)
    {s' : BSys σ cfg.fr.F} (h : Bar.runs cfg s ls = .ok s') {n' : SubProblem σ} (hh' : BHanded s' n') : n'.ub ≤ n.ub := by
  obtain ⟨t, ht, hp⟩ := hh
  obtain ⟨t', ht', hp'⟩ := hh'
  obtain ⟨_, _, g3⟩ := Bar.reachable_fresh L hg hn h1 hr t ht n hp
  have hi := Bar.reachable_inv L hg hn hr
  have hb : BBoundsAtMost L s n.ub := by
    refine ⟨g3, fun x hx q hq => ?_⟩
    have hlen := hi.thr
    rw [h1] at hlen
    obtain ⟨t0, e⟩ := List.length_eq_one_iff.1 hlen
    rw [e, List.mem_singleton] at ht hx
    subst ht; subst hx
    rw [hp] at hq
    cases hq
    exact Int.le_refl _
  exact (Bar.runs_atMost hg hn ls s s' hi hl h hb).2 t' ht' n' (by rw [hp']; rfl)

/-- **C87.** As `largest_bound_never_increases`, for the solver with a barrier. -/
theorem barrier_largest_bound_never_increases (L : FrontierLaws cfg.fr) (hg : BaseCfg cfg S B) (hn : cfg.nbThreads ≤ cfg.custom) {s : BSys σ cfg.fr.F}
    (hr : BReachable cfg s) {u : Int} (hu : BBoundsAtMost L s u) {ls : List (BLbl σ)} (hl : ∀ l ∈ ls, BValidLbl l) {s' : BSys σ cfg.fr.F}
    (h : Bar.runs cfg s ls = .ok s') : BBoundsAtMost L s' u :=
  Bar.runs_atMost hg hn ls s s' (Bar.reachable_inv L hg hn hr) hl h hu

open Inst in
/-- **C87 is false for two workers** of the solver with a barrier as well. -/
theorem barrier_best_first_two_threads : GoodCfg (eagerCfg 2) Table.layering 10 ∧ IsOptimum (eagerCfg 2).p 10 ∧
    ∃ s n, SharpReachableMax (eagerCfg 2) s ∧ BHanded s n ∧ n.ub = 5 := by
  obtain ⟨s, h1, h2⟩ := btest_spec_max (cfg := eagerCfg 2) (l := (List.replicate 8 0 ++ [1]).map fun i => (i, false)) (f := fun s => (bHandedUbs s).contains 5)
    (by decide) (by decide +kernel)
  obtain ⟨n, h3, h4⟩ := bHandedUbs_spec h2
  exact ⟨eagerCfg_good 2, eager_optimum 2, s, n, h1, h3, h4⟩

open Inst in
-- with one worker, the node of bound 10 is handed out after the root
example : ∃ s n, SharpReachable (eagerCfg 1) s ∧ BHanded s n ∧ n.ub = 10 := by
  obtain ⟨s, h1, h2⟩ := btest_spec (cfg := eagerCfg 1) (l := (List.replicate 8 0).map fun i => (i, false)) (f := fun s => (bHandedUbs s).contains 10) (by decide +kernel)
  obtain ⟨n, h3, h4⟩ := bHandedUbs_spec h2
  exact ⟨s, n, h1, h3, h4⟩

end Verif.Props
