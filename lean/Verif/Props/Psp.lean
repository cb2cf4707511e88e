import Verif.Proofs.Estimate
import Verif.Examples.Psp
import Verif.Examples.Race
import Verif.Props.Parallel
import Verif.Props.Barrier
/-!
C60-C67: the example `psp`, the pigment sequencing problem.
-/
set_option autoImplicit false

namespace Verif.Props
open Verif Spec Psp
variable {I : Inst} {B : Nat} {σ : List Psp.Edge → List Psp.Edge}

/-! ### C60: the tables -/

/-- **C60.** `prev_demand[(i, p)]` is the last period before `p` in which `i` is due, or -1. -/
theorem psp_prev_demand (hn : 1 ≤ I.periods) (i : Nat) {p : Nat} (hp : p ≤ I.periods) :
    (prevDemand I i p = -1 ∧ ∀ t, t < p → I.demand i t = 0) ∨
      ∃ t : Nat, prevDemand I i p = t ∧ t < p ∧ 0 < I.demand i t ∧ ∀ t', t < t' → t' < p → I.demand i t' = 0 := by
  rw [prevDemand_eq hn i hp]
  have hlast : ∀ t', t' < p → 0 < I.demand i t' → (t' : Int) ≤ lastBefore (I.demand i) p := fun t' => lastBefore_last _
  rcases lastBefore_deadline (n := p) (I.demand i) (Nat.le_refl p) with h | ⟨t, h, ht, hd⟩
  · refine Or.inl ⟨h, fun t ht => ?_⟩
    rcases Nat.eq_zero_or_pos (I.demand i t) with h0 | h0
    · exact h0
    · have := hlast t ht h0; omega
  · refine Or.inr ⟨t, h, ht, hd, fun t' h1 h2 => ?_⟩
    rcases Nat.eq_zero_or_pos (I.demand i t') with h0 | h0
    · exact h0
    · have := hlast t' h2 h0; omega

/-- **C60.** `rem_demand[(i, p)]` is the number of periods up to `p` in which `i` is due. -/
theorem psp_rem_demand (hn : 1 ≤ I.periods) (i : Nat) {p : Nat} (hp : p < I.periods) :
    remDemand I i p = (((List.range (p + 1)).countP fun t => decide (0 < I.demand i t) : Nat) : Int) := remDemand_eq hn i hp

example : prevDemand skip 1 6 = 5 ∧ prevDemand skip 1 5 = 1 ∧ prevDemand skip 1 1 = -1 ∧ remDemand skip 1 4 = 1 ∧ remDemand skip 1 5 = 2 := by decide

/-! ### C61, C62: the dynamic program and the plans -/

/-- **C61 (partial).** If at most one unit of an item is due in a period, every solution of the dynamic program is a feasible plan and its value is the cost of the plan with the sign
changed. -/
theorem psp_solution_is_plan_partial (hn : 1 ≤ I.periods) (hu : UnitDemand I) {ds : List Decision} {v : Int} (h : Solution (problem I σ) ds v) :
    ∃ f, Feasible I f ∧ ds = decisions f I.periods ∧ v = -(planCost I f : Int) := by
  obtain ⟨u, ⟨e, hr, he⟩, rfl⟩ := h
  obtain ⟨f, h1, h2, h3⟩ := completion_plan hn hr he (ok_init hn) (fun h => absurd h (by show I.periods ≠ 0; omega))
  have hF := (feasible_iff hn hu f).2 h1
  refine ⟨f, hF, h2, ?_⟩
  rw [planCost_eq hn hu hF]
  change u = -(costFrom I (initial I) f : Int) at h3
  show 0 + u = _
  omega

/-- **C62 (partial).** ...and every feasible plan is a solution... -/
theorem psp_plan_is_solution_partial (hn : 1 ≤ I.periods) (hu : UnitDemand I) {f : Plan} (h : Feasible I f) :
    Solution (problem I σ) (decisions f I.periods) (-(planCost I f : Int)) := by
  have hc := plan_completion (σ := σ) hn I.periods rfl (ok_init hn) ((feasible_iff hn hu f).1 h)
  refine ⟨_, hc, ?_⟩
  show _ = 0 + _
  rw [planCost_eq hn hu h]
  omega

/-- **C62 (partial).** ...so that the optimum is the cost of a cheapest plan. -/
theorem psp_optimum_partial (hn : 1 ≤ I.periods) (hu : UnitDemand I) (v : Int) : IsOptimum (problem I σ) v ↔ ∃ c : Nat, v = -(c : Int) ∧ Cheapest I c := by
  constructor
  · rintro ⟨⟨ds, hs⟩, hbest⟩
    obtain ⟨f, h1, _, h3⟩ := psp_solution_is_plan_partial hn hu hs
    refine ⟨_, h3, ⟨f, h1, rfl⟩, ?_⟩
    intro g hg
    have := hbest _ _ (psp_plan_is_solution_partial hn hu hg)
    omega
  · rintro ⟨c, rfl, ⟨f, hf, rfl⟩, hbest⟩
    refine ⟨⟨_, psp_plan_is_solution_partial hn hu hf⟩, ?_⟩
    intro ds v hs
    obtain ⟨g, h1, _, h3⟩ := psp_solution_is_plan_partial hn hu hs
    have := hbest g h1
    omega

/-- A plan as a list -/
def listPlan (l : List (Option Nat)) : Plan := fun t => l.getD t none

/-- **C61 is false if two units may be due at once**: only one of them is made. -/
theorem psp_pairs_not_met : ∃ (I : Inst) (ds : List Decision) (v : Int), 1 ≤ I.periods ∧ Solution (problem I id) ds v ∧
    (∃ f, Feasible I f) ∧ ∀ f, ds = decisions f I.periods → ¬ Feasible I f := by
  refine ⟨pair, [⟨1, 0⟩, ⟨0, -1⟩], 0, by decide, Inst.complete_solution (p := problem pair id) (v := 0) (by decide), ⟨listPlan [some 0, some 0], feasibleB_spec (by decide)⟩, ?_⟩
  intro f hf h
  have ht := h.total 0 (by decide)
  have e : decisions f pair.periods = [⟨1, match f 1 with | some i => (i : Int) | none => -1⟩, ⟨0, match f 0 with | some i => (i : Int) | none => -1⟩] := rfl
  rw [e] at hf
  have h0 : f 0 = none := by
    cases hf0 : f 0 with
    | none => rfl
    | some i =>
      rw [hf0] at hf
      simp at hf
  have e1 : due pair 0 pair.periods = 2 := by decide
  have e2 : made f 0 pair.periods = made f 0 2 := rfl
  rw [e1, e2, made_succ, made_succ, made_zero, h0] at ht
  simp only [reduceCtorEq, if_false] at ht
  split at ht <;> omega

/-- A plan of cost 4 seen as a solution. -/
example : UnitDemand tri ∧ Feasible tri triPlan ∧ planCost tri triPlan = 4 ∧ Solution (problem tri id) [⟨3, 2⟩, ⟨2, 0⟩, ⟨1, 1⟩, ⟨0, -1⟩] (-4) :=
  ⟨unitB_spec (by decide), feasibleB_spec (by decide), by decide, Inst.complete_solution (p := problem tri id) (v := -4) (by decide)⟩

/-! ### C63: the rough bound -/

/-- **C63.** The estimate is an upper bound on what can still be gained, because it is never negative and nothing can be gained... -/
theorem psp_admissible : Admissible (problem I σ) (layering I) := by
  rintro s _ ds v ⟨e, hr, _⟩
  have h1 := completion_nonpos hr
  have h2 := estimate_nonneg (I := I) (σ := σ) (List.replicate I.periods 0) s
  show v ≤ estimate I σ _ s
  omega

/-- **C63.** The stocking cost of the estimate is the total of what the loop stored for the first `t` periods, but never more than the largest `usize`.
(The products are exact in the model; in the code each of them must fit as well.) -/
theorem psp_stocking_saturates {t : Nat} (ht : 1 ≤ t) (u : List Int) {buf : List Nat} (h : t ≤ buf.length) :
    idealStocking I t u buf = min ((fill I t u buf).take t).sum (2 ^ 64 - 1) := by
  rw [idealStocking_eq ht u h, fill_eq t u buf h, List.take_left' (greedy_length t u)]
  rfl

/-- Two units that wait one and two periods: each of the products 2^63 - 1 and 2^64 - 2 fits, their sum does not. -/
example : idealStocking { periods := 3, items := 2, changeover := fun _ _ => 0, stocking := fun _ => 2 ^ 63 - 1, demand := fun _ p => if p = 2 then 1 else 0 } 2 [2, 2] [0, 0, 0] = 18446744073709551615 := by
  decide +kernel

/-- **C63.** ...and with the opposite sign it would still be one: the ideal stocking cost and the entry of the table add up to no more than what every completion costs.
(The code returns the sum itself, which is of no use as an upper bound on a negative number.) -/
theorem psp_negated_admissible (hσ : ∀ l, (σ l).Perm l) (hn : 1 ≤ I.periods) :
    Admissible { problem I σ with estimate := fun s => -(problem I σ).estimate s } (layering I) := by
  intro s hs ds v hc
  exact neg_estimate hσ hn hs ((Completion.estimate_iff _).1 hc)

/-- **C63.** In particular for the whole problem: no feasible plan is cheaper than the bound of the initial state. -/
theorem psp_bound_below_plans (hσ : ∀ l, (σ l).Perm l) (hn : 1 ≤ I.periods) (hu : UnitDemand I) {f : Plan} (h : Feasible I f) :
    (problem I σ).estimate (initial I) ≤ (planCost I f : Int) := by
  have hF := (feasible_iff hn hu f).1 h
  have h1 := rough_le hσ hn (ok_init hn) (by show 1 ≤ I.periods; exact hn) hF (buf := List.replicate I.periods 0) (by simp)
  rw [planCost_eq hn hu h]
  show estimate I σ _ (initial I) ≤ _
  unfold estimate
  split
  · omega
  · exact_mod_cast h1

/-- The estimate of `tri` is 2: one unit has to wait, and one of the changeovers is counted. -/
example : (problem tri id).estimate (initial tri) = 2 ∧ Feasible tri triPlan ∧ planCost tri triPlan = 4 := ⟨by decide +kernel, feasibleB_spec (by decide), by decide⟩

/-- What is left in the buffer by an earlier call does not matter. -/
theorem psp_estimate_reuse {s : State} (h : (layering I).ok s) {buf buf' : List Nat} (hb : I.periods ≤ buf.length) (hb' : I.periods ≤ buf'.length) :
    estimate I σ buf s = estimate I σ buf' s := estimate_buf h hb hb'

/-! ### C64: the relaxation -/

/-- **C64 (partial).** If the changeover costs satisfy the triangle inequality, the relaxation is sound. -/
theorem psp_relaxation_sound_partial (hn : 1 ≤ I.periods) (hB : Bounded I B) (htri : Triangle I) : SoundRelaxation (problem I σ) relaxation (layering I) B := sound hn hB htri

example : SoundRelaxation (problem tri id) relaxation (layering tri) 20 := psp_relaxation_sound_partial (by decide) (boundedB_spec (by decide)) (triangleB_spec (by decide))

/-! ### C65: the program -/

/-- **C65 (partial).** With the triangle inequality, unit demands and bounded costs, the program returns the cost of a cheapest plan, with any number of threads
and the cutset `LastExactLayer`... -/
theorem psp_optimal_partial (hn : 1 ≤ I.periods) (hB : Bounded I B) (htri : Triangle I) (hu : UnitDemand I) {w : Nat} (hw : I.periods * w % 2 ^ 64 ≠ 0) {n : Nat} (h1 : 1 ≤ n)
    {s : Sys State (cfgOf I σ w n .lastExactLayer).fr.F} (hs : ReachableMax (cfgOf I σ w n .lastExactLayer) s) (hf : Finished s) {C : Nat} (hC : Cheapest I C) :
    Par.bestValue (cfgOf I σ w n .lastExactLayer) s.crit = some (-(C : Int)) :=
  (maximize_optimal (cfg := cfgOf I σ w n .lastExactLayer) (laws I σ w n .lastExactLayer) ⟨wellFormed hn hB, psp_admissible, sound hn hB htri, (cfgOf_base (σ := σ) hn hB hw n .lastExactLayer).width⟩ (Or.inl rfl) (Nat.le_refl _) h1 hs hf
    ((psp_optimum_partial hn hu _).2 ⟨C, rfl, hC⟩)).1

/-- **C65 (partial).** ...as does the solver with barriers, with one thread... -/
theorem psp_barrier_optimal_partial (hn : 1 ≤ I.periods) (hB : Bounded I B) (htri : Triangle I) (hu : UnitDemand I) {w : Nat} (hw : I.periods * w % 2 ^ 64 ≠ 0)
    {s : BSys State (cfgOf I σ w 1 .lastExactLayer).fr.F} (hs : SharpReachableMax (cfgOf I σ w 1 .lastExactLayer) s) (hf : BFinished s) {C : Nat} (hC : Cheapest I C) :
    Bar.bestValue (cfgOf I σ w 1 .lastExactLayer) s.crit = some (-(C : Int)) :=
  (barrier_optimal (cfg := cfgOf I σ w 1 .lastExactLayer) (laws I σ w 1 .lastExactLayer)
    ⟨wellFormed hn hB, psp_admissible, sound hn hB htri, (cfgOf_base (σ := σ) hn hB hw 1 .lastExactLayer).width⟩ (Or.inl rfl) rfl (Nat.le_refl _) hs hf
    ((psp_optimum_partial hn hu _).2 ⟨C, rfl, hC⟩)).1

/-- ...and as would the program with the sign of the bound put right. -/
theorem psp_negated_optimal (hσ : ∀ l, (σ l).Perm l) (hn : 1 ≤ I.periods) (hB : Bounded I B) (htri : Triangle I) (hu : UnitDemand I) {w : Nat} (hw : I.periods * w % 2 ^ 64 ≠ 0) {n : Nat} (h1 : 1 ≤ n)
    {s : Sys State (negCfg I σ w n .lastExactLayer).fr.F} (hs : ReachableMax (negCfg I σ w n .lastExactLayer) s) (hf : Finished s) {C : Nat} (hC : Cheapest I C) :
    Par.bestValue (negCfg I σ w n .lastExactLayer) s.crit = some (-(C : Int)) :=
  (maximize_optimal (cfg := negCfg I σ w n .lastExactLayer) (laws I σ w n .lastExactLayer)
    ⟨WellFormed.estimate (wellFormed hn hB) _, psp_negated_admissible hσ hn, SoundRelaxation.estimate (sound hn hB htri) _, (cfgOf_base (σ := σ) hn hB hw n .lastExactLayer).width⟩ (Or.inl rfl) (Nat.le_refl _) h1 hs hf
    ((IsOptimum.estimate_iff _).2 ((psp_optimum_partial hn hu _).2 ⟨C, rfl, hC⟩))).1

/-- **C65 (partial).** Whatever the costs are, the plan that the program holds is feasible and costs what it says... -/
theorem psp_incumbent_plan_partial (hn : 1 ≤ I.periods) (hB : Bounded I B) (hu : UnitDemand I) {w : Nat} (hw : I.periods * w % 2 ^ 64 ≠ 0) {n : Nat} {c : CutsetType}
    {s : Sys State (cfgOf I σ w n c).fr.F} (hs : Reachable (cfgOf I σ w n c) s) :
    (Par.bestSolution (cfgOf I σ w n c) s.crit = none ∧ Par.bestValue (cfgOf I σ w n c) s.crit = none) ∨
      ∃ sol f, Par.bestSolution (cfgOf I σ w n c) s.crit = some sol ∧ Par.bestValue (cfgOf I σ w n c) s.crit = some (-(planCost I f : Int)) ∧ Feasible I f ∧
        sol.Perm (decisions f I.periods) := by
  rcases incumbent_real (laws I σ w n c) (cfgOf_base hn hB hw n c) (Nat.le_refl _) hs with h | ⟨sol, v, h1, h2, _, ds, h4, h5⟩
  · exact Or.inl h
  · obtain ⟨f, g1, rfl, rfl⟩ := psp_solution_is_plan_partial hn hu h5
    exact Or.inr ⟨sol, f, h1, h2, g1, h4⟩

/-- **C65 (partial).** ...and it terminates: in an infinite run there would be spurious wake-ups again and again. -/
theorem psp_terminates_partial (hn : 1 ≤ I.periods) (hB : Bounded I B) {w : Nat} (hw : I.periods * w % 2 ^ 64 ≠ 0) (n : Nat) (c : CutsetType) (st : Nat → Sys State (cfgOf I σ w n c).fr.F) (ls : Nat → Lbl State)
    (hr : Reachable (cfgOf I σ w n c) (st 0)) (hv : ∀ k, ValidLbl (ls k)) (hs : ∀ k, Par.step (cfgOf I σ w n c) (st k) (ls k) = .ok (st (k + 1))) :
    ∀ k, ∃ j, k ≤ j ∧ ∃ i, ls j = .spurious i :=
  runs_terminate (laws I σ w n c) (cfgOf_base hn hB hw n c) (Nat.le_refl _) st ls hr hv hs

/-- **C65 is false without the triangle inequality**: the program, with its default parameters, claims that a plan of cost 8 is the cheapest although there is one of cost 7... -/
theorem psp_not_optimal : UnitDemand skip ∧ Bounded skip 100 ∧ ∃ s, ReachableMax (cfgOf skip id 1 1 .lastExactLayer) s ∧ Finished s ∧
    Par.proved (cfgOf skip id 1 1 .lastExactLayer) s.crit = true ∧ Par.bestValue (cfgOf skip id 1 1 .lastExactLayer) s.crit = some (-8) ∧ Feasible skip skipPlan ∧ planCost skip skipPlan = 7 := by
  have h : Inst.test (cfgOf skip id 1 1 .lastExactLayer) (List.replicate 7 (0, false))
      (fun s => Inst.allDone s && (Par.proved (cfgOf skip id 1 1 .lastExactLayer) s.crit && Par.bestValue (cfgOf skip id 1 1 .lastExactLayer) s.crit == some (-8))) = true := by decide +kernel
  obtain ⟨s, h1, h2⟩ := Inst.test_spec_max (by decide) h
  simp only [Bool.and_eq_true, beq_iff_eq] at h2
  exact ⟨unitB_spec (by decide), boundedB_spec (by decide), s, h1, Inst.allDone_spec h2.1, h2.2.1, h2.2.2, feasibleB_spec (by decide), by decide⟩

/-- **C65 is false with the cutset Frontier**: the program with `--solver barrier --cutset frontier` (one thread, default width) claims that a plan of cost 11 is the cheapest although
there is one of cost 9, and the changeover costs satisfy the triangle inequality. -/
theorem psp_barrier_frontier_not_optimal : Triangle tardy ∧ UnitDemand tardy ∧ Bounded tardy 100 ∧ ∃ s, SharpReachableMax (cfgOf tardy id 1 1 .frontier) s ∧ BFinished s ∧
    Bar.proved (cfgOf tardy id 1 1 .frontier) s.crit = true ∧ Bar.bestValue (cfgOf tardy id 1 1 .frontier) s.crit = some (-11) ∧ Feasible tardy tardyPlan ∧ planCost tardy tardyPlan = 9 := by
  have h : Verif.Inst.btest (cfgOf tardy id 1 1 .frontier) (List.replicate 36 (0, false))
      (fun s => Verif.Inst.bAllDone s && (Bar.proved (cfgOf tardy id 1 1 .frontier) s.crit && Bar.bestValue (cfgOf tardy id 1 1 .frontier) s.crit == some (-11))) = true := by decide +kernel
  obtain ⟨s, h1, h2⟩ := Verif.Inst.btest_spec_max (by decide) h
  simp only [Bool.and_eq_true, beq_iff_eq] at h2
  exact ⟨triangleB_spec (by decide), unitB_spec (by decide), boundedB_spec (by decide), s, h1, Verif.Inst.bAllDone_spec h2.1, h2.2.1, h2.2.2, feasibleB_spec (by decide), by decide⟩

/-- **C65 is false with the cutset Frontier**: the program with `--solver parallel --cutset frontier` (one thread, default width) claims that a plan of cost 14 is the cheapest although
there is one of cost 11, and the changeover costs satisfy the triangle inequality. -/
theorem psp_parallel_frontier_not_optimal : Triangle idleLast ∧ UnitDemand idleLast ∧ Bounded idleLast 100 ∧ ∃ s, ReachableMax (cfgOf idleLast id 1 1 .frontier) s ∧ Finished s ∧
    Par.proved (cfgOf idleLast id 1 1 .frontier) s.crit = true ∧ Par.bestValue (cfgOf idleLast id 1 1 .frontier) s.crit = some (-14) ∧ Feasible idleLast idleLastPlan ∧ planCost idleLast idleLastPlan = 11 := by
  have h : Verif.Inst.test (cfgOf idleLast id 1 1 .frontier) (List.replicate 48 (0, false))
      (fun s => Verif.Inst.allDone s && (Par.proved (cfgOf idleLast id 1 1 .frontier) s.crit && Par.bestValue (cfgOf idleLast id 1 1 .frontier) s.crit == some (-14))) = true := by decide +kernel
  obtain ⟨s, h1, h2⟩ := Verif.Inst.test_spec_max (by decide) h
  simp only [Bool.and_eq_true, beq_iff_eq] at h2
  exact ⟨triangleB_spec (by decide), unitB_spec (by decide), boundedB_spec (by decide), s, h1, Verif.Inst.allDone_spec h2.1, h2.2.1, h2.2.2, feasibleB_spec (by decide), by decide⟩

/-- **C64 is false without the triangle inequality**: ...so the relaxation is not sound there. -/
theorem psp_relaxation_unsound : ¬ SoundRelaxation (problem skip id) relaxation (layering skip) 100 := by
  intro hr
  obtain ⟨hu, hB, s, h1, h2, _, h3, h4, h5⟩ := psp_not_optimal
  have hg : GoodCfg (cfgOf skip id 1 1 .lastExactLayer) (layering skip) 100 :=
    ⟨wellFormed (by decide) hB, psp_admissible, hr, (cfgOf_base (σ := id) (by decide) hB (by decide) 1 .lastExactLayer).width⟩
  obtain ⟨_, hcase⟩ := finished_optimal (cfg := cfgOf skip id 1 1 .lastExactLayer) (laws skip id 1 1 .lastExactLayer) hg (Or.inl rfl) (Nat.le_refl _) (Nat.le_refl _) h1.reachable h2
    (by simp [Par.proved, h1.noint])
  have hsol := psp_plan_is_solution_partial (σ := id) (I := skip) (by decide) hu h4
  rw [h5] at hsol
  rcases hcase with ⟨v, sol, g1, _, _, g4, _⟩ | ⟨g1, _⟩
  · rw [h3] at g1; cases g1
    have := g4.2 _ _ hsol
    omega
  · rw [h3] at g1; cases g1

/-- The cheapest plan for `tri` costs 4, and the program finds it. -/
example : Triangle tri ∧ UnitDemand tri ∧ Bounded tri 20 ∧ ∃ s, ReachableMax (cfgOf tri id 1 1 .lastExactLayer) s ∧ Finished s ∧
    Par.bestValue (cfgOf tri id 1 1 .lastExactLayer) s.crit = some (-4) := by
  have h : Inst.test (cfgOf tri id 1 1 .lastExactLayer) (List.replicate 12 (0, false))
      (fun s => Inst.allDone s && Par.bestValue (cfgOf tri id 1 1 .lastExactLayer) s.crit == some (-4)) = true := by decide +kernel
  obtain ⟨s, h1, h2⟩ := Inst.test_spec_max (by decide) h
  simp only [Bool.and_eq_true, beq_iff_eq] at h2
  exact ⟨triangleB_spec (by decide), unitB_spec (by decide), boundedB_spec (by decide), s, h1, Inst.allDone_spec h2.1, h2.2⟩

/-! ### C66: nothing is out of range -/

/-- The states that come up in a diagram: the initial one, those reached by a legal decision and those made by merging a layer. -/
inductive PspMade (I : Inst) : State → Prop
  | init : PspMade I (initial I)
  | step {s : State} {x : Nat} {d : Decision} (h : PspMade I s) (hx : nextVar [s] = some x) (hd : d ∈ dom I x s) : PspMade I (trans I s d)
  | merged {l : List State} {k : Nat} (hne : l ≠ []) (h : ∀ s ∈ l, PspMade I s) (hk : ∀ s ∈ l, s.time = k) : PspMade I (merge l)

theorem PspMade.ok (hn : 1 ≤ I.periods) {s : State} (h : PspMade I s) : Ok I s := by
  induction h with
  | init => exact ok_init hn
  | step _ _ hd ih => exact Ok.trans hn ih hd
  | merged hne _ hk ih => exact (merge_ok hne fun s hs => ⟨ih s hs, hk s hs⟩).1

/-- **C66.** In every state that comes up there is a deadline for every item, each of them -1 or a period in which the item is due; the item that follows is an item; and every decision is
to idle or to make an item that is due in that period or later, so that `state.u[item] as usize - time` does not go below zero. -/
theorem psp_in_range (hn : 1 ≤ I.periods) {s : State} (h : PspMade I s) :
    s.time ≤ I.periods ∧ s.u.length = I.items ∧ (s.k = -1 ∨ ∃ j : Nat, j < I.items ∧ s.k = j) ∧
    (∀ i, i < I.items → s.at i = -1 ∨ ∃ t : Nat, s.at i = t ∧ t < I.periods ∧ 0 < I.demand i t) ∧
    ∀ x d, nextVar [s] = some x → d ∈ dom I x s → d = ⟨x, -1⟩ ∨ ∃ i : Nat, i < I.items ∧ d = ⟨x, (i : Int)⟩ ∧ (x : Int) ≤ s.at i := by
  have hok := h.ok hn
  refine ⟨hok.time, hok.len, hok.k, hok.deadline, ?_⟩
  intro x d _ hd
  rcases (mem_dom.1 hd).2 with ⟨i, hi, hp, rfl⟩ | ⟨_, rfl⟩
  · exact Or.inr ⟨i, hi, rfl, hp⟩
  · exact Or.inl rfl

/-- **C66.** The index into the table of changeover costs is in range. -/
theorem psp_table_index {s : State} (hn : 1 ≤ I.periods) (h : PspMade I s) : vertices s.k s.u < (allMst I σ).length := by
  have hl : (allMst I σ).length = 2 ^ I.items := by
    unfold allMst
    generalize 2 ^ I.items = n
    induction n with
    | zero => rfl
    | succ n ih =>
      rw [List.range_succ, List.foldl_append]
      simp only [List.foldl_cons, List.foldl_nil, List.length_append, List.length_cons, List.length_nil]
      rw [ih]
  rw [hl]
  exact vertices_lt (h.ok hn)

/-- **C66 is false for the rough bound**: `deadline - time` goes below zero as soon as there is a period after the last deadline.  (With overflow checks this is a panic; without them the
result is multiplied by 0.) -/
theorem psp_estimate_underflows : ∃ (I : Inst) (t : Nat), 1 ≤ I.periods ∧ UnitDemand I ∧ (∃ f, Feasible I f) ∧ t < I.periods ∧ pickUnderflows I (initial I).u t = true :=
  ⟨early, 1, by decide, unitB_spec (by decide), ⟨listPlan [some 0, none], feasibleB_spec (by decide)⟩, by decide, by decide⟩

/-- **C66.** That is the only way: there is an underflow in a period exactly if nothing is due in it or later, except in period 0; and the cost that is multiplied is 0 then. -/
theorem psp_underflow_iff (u : List Int) (t : Nat) : pickUnderflows I u t = true ↔ 0 < t ∧ ∀ j, j < u.length → u.getD j (-1) < t := by
  unfold pickUnderflows
  rw [decide_eq_true_eq]
  rcases pick_spec (I := I) u t with ⟨h1, h2⟩ | ⟨i, h1, h2, h3, h4⟩
  · rw [h1]; exact ⟨fun h => ⟨h, h2⟩, fun h => h.1⟩
  · rw [h3]
    constructor
    · intro h; exfalso; simp only at h; omega
    · rintro ⟨_, h⟩; exact absurd (h i h1) (by omega)

theorem psp_underflow_harmless {u : List Int} {t : Nat} (h : pickUnderflows I u t = true) : (pick I u t).2.2 = 0 ∧ (serve I u t).2 = u := by
  have hall := ((psp_underflow_iff u t).1 h).2
  rcases pick_spec (I := I) u t with ⟨h1, _⟩ | ⟨i, h1, h2, _⟩
  · unfold serve; rw [h1]; simp
  · exact absurd (hall i h1) (by omega)

/-! ### C67: the table of changeover costs -/

/-- What `mst` computes for a set when it starts with an empty heap -/
def freshMst (I : Inst) (σ : List Psp.Edge → List Psp.Edge) (vs : Nat) : Nat := (mst I σ vs []).1

/-- **C67 (partial).** Every entry of the table is at most the cost of any sequence of exactly the items of the set... -/
theorem psp_table_bound_partial (hσ : ∀ l, (σ l).Perm l) {vs : Nat} (h : vs < 2 ^ I.items) {l : List Nat} (hl : ∀ x, x ∈ l ↔ vs.testBit x = true) :
    (allMst I σ).getD vs 0 ≤ chain I l := by
  refine entry_le (allMst_entry hσ h) hl ?_
  intro x hx
  have hb := (hl x).1 hx
  rcases Nat.lt_or_ge x I.items with hlt | hge
  · exact hlt
  · rw [Nat.testBit_lt_two_pow (Nat.lt_of_lt_of_le h (Nat.pow_le_pow_right (by decide) hge))] at hb
    cases hb

/-- **C67 is false**: an entry depends on the sets before it, because the heap is not emptied.  Here the set {0, 2} has one edge of cost 2, which gives 2 - 2 = 0; the edge of cost 1
between 0 and 1, left over from the set {0, 1}, makes it 1 + 2 - 2. -/
theorem psp_table_polluted : (allMst tri id).getD 5 0 = 1 ∧ freshMst tri id 5 = 0 := by decide +kernel

/-- The set {0, 2} and the sequence 0, 2, of cost 2. -/
example : (∀ x, x ∈ [0, 2] ↔ (5 : Nat).testBit x = true) ∧ chain tri [0, 2] = 2 := by
  refine ⟨fun x => ?_, by decide⟩
  match x with
  | 0 | 1 | 2 => decide
  | x + 3 =>
    have : (5 : Nat).testBit (x + 3) = false := Nat.testBit_lt_two_pow (Nat.lt_of_lt_of_le (by decide : 5 < 2 ^ 3) (Nat.pow_le_pow_right (by decide) (by omega)))
    simp [this]

end Verif.Props
