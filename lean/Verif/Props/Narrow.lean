import Verif.Examples.Narrow
import Verif.Examples.UncappedFine
import Verif.Proofs.Fine.Narrow
import Verif.Proofs.Srflp.Narrow
import Verif.Props.Parallel
import Verif.Props.Psp
import Verif.Props.Srflp
import Verif.Props.Tsptw
/-!
C104: if the width suffices for all reachable states, the first diagram is exact: one node is explored, the relaxation is never used, and the result is the optimum.
-/
set_option autoImplicit false

namespace Verif.Props
open Verif Spec

section
variable {σ : Type} [DecidableEq σ] [Inhabited σ] {cfg : SolverCfg σ} {S S' : Layering σ} {B B' : Int}

/-- A larger width suffices as well. -/
theorem Narrow.mono {p : Problem σ} {w w' : Nat} (h : Narrow p w) (hw : w ≤ w') : Narrow p w' := by
  intro k hk
  obtain ⟨l, h1, h2⟩ := h k hk
  exact ⟨l, by omega, h2⟩

/-! ### Without barrier -/

/-- **C104.** At no time of any run is a second node counted, nor a relaxed diagram compiled... -/
theorem narrow_first_node_only (L : FrontierLaws cfg.fr) (hg : NarrowCfg cfg S B S' B') (hn : cfg.nbThreads ≤ cfg.custom) {s : Sys σ cfg.fr.F} (hr : Reachable cfg s) :
    s.crit.explored ≤ 1 ∧ ∀ t ∈ s.threads, ∀ n lb dd, t.pc ≠ .relb n dd ∧ t.pc ≠ .relx n lb dd := by
  obtain ⟨-, hl, -⟩ := Par.reachable_lone L hg hn hr
  refine ⟨by have := hl.few; omega, ?_⟩
  intro t ht n lb dd
  have := hl.pcs t ht
  constructor <;> intro h <;> rw [h] at this <;> cases this

/-- **C104.** ...and a run that ends with `Proved` has explored one node and returns the optimum, or nothing if the problem is infeasible: with any number of threads and any schedule,
whatever the relaxation, and also with the cutset `Frontier`. -/
theorem narrow_optimal (L : FrontierLaws cfg.fr) (hg : NarrowCfg cfg S B S' B') (hn : cfg.nbThreads ≤ cfg.custom) (h1 : 1 ≤ cfg.nbThreads) {s : Sys σ cfg.fr.F} (hr : Reachable cfg s)
    (hf : Finished s) (hp : Par.proved cfg s.crit = true) :
    s.crit.explored = 1 ∧ Par.bestUpperBound cfg s.crit = Par.bestLowerBound cfg s.crit ∧
    ((∃ v sol, Par.bestValue cfg s.crit = some v ∧ Par.bestSolution cfg s.crit = some sol ∧ IsSolutionOf cfg.p sol v ∧ IsOptimum cfg.p v) ∨
      (Par.bestValue cfg s.crit = none ∧ Par.bestSolution cfg s.crit = none ∧ Infeasible cfg.p)) := by
  obtain ⟨hi, hl, hc⟩ := Par.reachable_lone L hg hn hr
  have hint : s.crit.interrupted = false := by simpa [Par.proved] using hp
  obtain ⟨hub, hall⟩ := Par.finished_covered hi hc h1 hf hint
  refine ⟨?_, hub, ?_⟩
  · have hone := hl.one hint
    obtain ⟨t, ht⟩ : ∃ t, t ∈ s.threads := by
      have hlen := hi.thr
      cases hs : s.threads with
      | nil => rw [hs] at hlen; simp at hlen; omega
      | cons t l => exact ⟨t, by simp⟩
    rw [(hi.done t ht (hf t ht) hint).1] at hone
    simpa using hone
  · rcases hi.inc with ⟨j1, j2⟩ | ⟨sol, j1, ds, j2, j3⟩
    · refine Or.inr ⟨by simp [Par.bestValue, j1], j1, ?_⟩
      intro ds v hs
      have := hall ds v hs
      have := (Par.solution_bounds hg.wf hs).1
      omega
    · exact Or.inl ⟨s.crit.bestLb, sol, by simp [Par.bestValue, j1], j1, ⟨ds, j2, j3⟩, ⟨ds, j3⟩, hall⟩

/-- **C104.** In particular the optimum of a feasible problem. -/
theorem narrow_value (L : FrontierLaws cfg.fr) (hg : NarrowCfg cfg S B S' B') (hn : cfg.nbThreads ≤ cfg.custom) (h1 : 1 ≤ cfg.nbThreads) {s : Sys σ cfg.fr.F} (hr : Reachable cfg s)
    (hf : Finished s) (hp : Par.proved cfg s.crit = true) {v : Int} (hv : IsOptimum cfg.p v) : Par.bestValue cfg s.crit = some v := by
  rcases (narrow_optimal L hg hn h1 hr hf hp).2.2 with ⟨v', sol, h2, -, -, h3⟩ | ⟨-, -, h3⟩
  · obtain ⟨ds, hs⟩ := hv.1
    obtain ⟨ds', hs'⟩ := h3.1
    have : v' = v := by have := h3.2 ds v hs; have := hv.2 ds' v' hs'; omega
    rw [h2, this]
  · obtain ⟨ds, hs⟩ := hv.1
    exact absurd hs (h3 ds v)

/-! ### With barriers -/

/-- **C104.** The same with barriers, however the accesses of the threads to them interleave: no second node (the counter is looked at while
the lock is free), no relaxed diagram... -/
theorem narrow_barrier_first_node_only (L : FrontierLaws cfg.fr) (hg : NarrowCfg cfg S B S' B') (hn : cfg.nbThreads ≤ cfg.custom) {s : FSys σ cfg.fr.F} (hr : FReachable cfg s) :
    (s.holder = none → s.sys.crit.explored ≤ 1) ∧ ∀ t ∈ s.sys.threads, ∀ n lb dd, t.pc ≠ .relb n dd ∧ t.pc ≠ .relx n lb dd := by
  constructor
  · intro hh
    obtain ⟨c, h1, h2⟩ := Fine.reachable_rel L hg.base hn hr
    have := (Fine.reachable_lone L hg hn h1).few
    rw [← h2.free hh]; omega
  · intro t ht n lb dd
    have := Fine.freachable_plain L hg hn hr t ht
    constructor <;> intro h <;> rw [h] at this <;> cases this

/-- **C104.** ...and a run that ends with `Proved` has explored one node and returns the optimum, or nothing if the problem is infeasible: also with several threads, for which this may fail otherwise
(`barrier_two_threads_not_optimal`). -/
theorem narrow_barrier_optimal (L : FrontierLaws cfg.fr) (hg : NarrowCfg cfg S B S' B') (hn : cfg.nbThreads ≤ cfg.custom) (h1 : 1 ≤ cfg.nbThreads) {s : FSys σ cfg.fr.F}
    (hr : FReachable cfg s) (hf : FFinished s) (hp : Bar.proved cfg s.sys.crit = true) :
    s.sys.crit.explored = 1 ∧ Bar.bestUpperBound cfg s.sys.crit = Bar.bestLowerBound cfg s.sys.crit ∧
    ((∃ v sol, Bar.bestValue cfg s.sys.crit = some v ∧ Bar.bestSolution cfg s.sys.crit = some sol ∧ IsSolutionOf cfg.p sol v ∧ IsOptimum cfg.p v) ∨
      (Bar.bestValue cfg s.sys.crit = none ∧ Bar.bestSolution cfg s.sys.crit = none ∧ Infeasible cfg.p)) := by
  obtain ⟨⟨hex, hub, hall⟩, hinc⟩ := Fine.finished_narrow L hg h1 hn hr hf (by simpa [Bar.proved] using hp)
  refine ⟨hex, hub, ?_⟩
  rcases hinc with ⟨j1, j2⟩ | ⟨sol, j1, ds, j2, j3⟩
  · refine Or.inr ⟨by simp [Bar.bestValue, j1], j1, ?_⟩
    intro ds v hs
    have := hall ds v hs
    have := (Par.solution_bounds hg.wf hs).1
    omega
  · exact Or.inl ⟨s.sys.crit.bestLb, sol, by simp [Bar.bestValue, j1], j1, ⟨ds, j2, j3⟩, ⟨ds, j3⟩, hall⟩

/-- **C104.** In particular the optimum of a feasible problem. -/
theorem narrow_barrier_value (L : FrontierLaws cfg.fr) (hg : NarrowCfg cfg S B S' B') (hn : cfg.nbThreads ≤ cfg.custom) (h1 : 1 ≤ cfg.nbThreads) {s : FSys σ cfg.fr.F}
    (hr : FReachable cfg s) (hf : FFinished s) (hp : Bar.proved cfg s.sys.crit = true) {v : Int} (hv : IsOptimum cfg.p v) : Bar.bestValue cfg s.sys.crit = some v := by
  rcases (narrow_barrier_optimal L hg hn h1 hr hf hp).2.2 with ⟨v', sol, h2, -, -, h3⟩ | ⟨-, -, h3⟩
  · obtain ⟨ds, hs⟩ := hv.1
    obtain ⟨ds', hs'⟩ := h3.1
    have : v' = v := by have := h3.2 ds v hs; have := hv.2 ds' v' hs'; omega
    rw [h2, this]
  · obtain ⟨ds, hs⟩ := hv.1
    exact absurd hs (h3 ds v)

end

/-! ### The programs -/

section
open Tsptw
variable {I : Tsptw.Inst} {B : Nat}

/-- The states reached without merging are layers of their own. -/
theorem tsptwExact_wellFormed (hn : 1 ≤ I.n) (hB : Bounded I B) : WellFormed (problem I) (tsptwExact (B := B) I) B := by
  have hwf := wellFormed hn hB
  exact
    { ok_init := ⟨0, 0, exact_init hn, ok_init hn⟩
      ok_trans := by
        rintro s x d ⟨i, t, h1, h2⟩ hx hd
        obtain ⟨j, _, _, h3, _⟩ := h1.next hx hd
        exact ⟨j, _, h3, hwf.ok_trans s x d h2 hx hd⟩
      lvl_init := rfl
      lvl_trans := fun _ _ _ _ _ _ => rfl
      next_nil := rfl
      next_var := fun l k hl hk => hwf.next_var l k hl fun s hs => ⟨(hk s hs).1.choose_spec.choose_spec.2, (hk s hs).2⟩
      init_bound := hwf.init_bound
      cost_bound := fun s x d hs => hwf.cost_bound s x d hs.choose_spec.choose_spec.2
      no_overflow := hwf.no_overflow }

theorem tsptw_narrowCfg (hn : 1 ≤ I.n) (hB : Bounded I B) (h00 : I.dist 0 0 = 0) (hw0 : I.earliest 0 ≤ I.latest 0) {w : Nat} (hw : 1 ≤ w) (hu : I.n * w < 2 ^ 48)
    (hN : Narrow (problem I) (I.n * w)) (n : Nat) (c : CutsetType) : NarrowCfg (cfgOf I w n c) (layering I B) B (tsptwExact (B := B) I) B := by
  refine ⟨cfgOf_base hn hw hu hB n c, tsptwExact_wellFormed hn hB, tsptw_admissible_exact_partial h00 hw0, ?_⟩
  have e : width I.n w (problem I).init = I.n * w := by
    show I.n * (0 % 2 ^ 16 + 1) * w % 2 ^ 64 = I.n * w
    rw [show I.n * (0 % 2 ^ 16 + 1) * w = I.n * w by simp]
    exact Nat.mod_eq_of_lt (by omega)
  show Narrow (problem I) (width I.n w (problem I).init)
  rw [e]; exact hN

/-- **C104.** The program `tsptw`, whose relaxation is not sound and which may fail (`tsptw_not_optimal`), returns a shortest tour if the argument `--width` is large enough: with any number of
threads, any cutset, without barriers... -/
theorem tsptw_narrow_optimal (hn : 1 ≤ I.n) (hB : Bounded I B) (htri : Triangle I) (h00 : I.dist 0 0 = 0) (hw0 : I.earliest 0 ≤ I.latest 0) {w : Nat} (hw : 1 ≤ w) (hu : I.n * w < 2 ^ 48)
    (hN : Narrow (problem I) (I.n * w)) {n : Nat} (h1 : 1 ≤ n) {c : CutsetType} {s : Sys State (cfgOf I w n c).fr.F} (hr : Reachable (cfgOf I w n c) s) (hf : Finished s)
    (hp : Par.proved (cfgOf I w n c) s.crit = true) {T : Nat} (hT : Shortest I T) : Par.bestValue (cfgOf I w n c) s.crit = some (-(T : Int)) :=
  narrow_value (cfg := cfgOf I w n c) (laws I w n c) (tsptw_narrowCfg hn hB h00 hw0 hw hu hN n c) (Nat.le_refl _) h1 hr hf hp ((tsptw_optimum_partial hn htri _).2 ⟨T, rfl, hT⟩)

/-- **C104.** ...and with them. -/
theorem tsptw_narrow_barrier_optimal (hn : 1 ≤ I.n) (hB : Bounded I B) (htri : Triangle I) (h00 : I.dist 0 0 = 0) (hw0 : I.earliest 0 ≤ I.latest 0) {w : Nat} (hw : 1 ≤ w)
    (hu : I.n * w < 2 ^ 48) (hN : Narrow (problem I) (I.n * w)) {n : Nat} (h1 : 1 ≤ n) {c : CutsetType} {s : FSys State (cfgOf I w n c).fr.F} (hr : FReachable (cfgOf I w n c) s)
    (hf : FFinished s) (hp : Bar.proved (cfgOf I w n c) s.sys.crit = true) {T : Nat} (hT : Shortest I T) : Bar.bestValue (cfgOf I w n c) s.sys.crit = some (-(T : Int)) :=
  narrow_barrier_value (cfg := cfgOf I w n c) (laws I w n c) (tsptw_narrowCfg hn hB h00 hw0 hw hu hN n c) (Nat.le_refl _) h1 hr hf hp ((tsptw_optimum_partial hn htri _).2 ⟨T, rfl, hT⟩)

/-- The instance for which the program returns a tour of duration 6 with `--width 1`: with `--width 2` two threads and a barrier find the one of duration 5. -/
example : Bounded greedy 1000 ∧ Triangle greedy ∧ greedy.dist 0 0 = 0 ∧ greedy.earliest 0 ≤ greedy.latest 0 ∧ Narrow (problem greedy) (greedy.n * 2) ∧
    ∃ s, FReachableMaxAlong (cfgOf greedy 2 2 .frontier) FUncapped s ∧ FFinished s ∧ Bar.bestValue (cfgOf greedy 2 2 .frontier) s.sys.crit = some (-5) := by
  refine ⟨boundedB_spec (by decide), triangleB_spec (by decide), rfl, by decide, Verif.Inst.narrowB_spec (by decide +kernel), ?_⟩
  obtain ⟨s, h1, h2⟩ := Verif.Inst.fturns_reach (cfg := cfgOf greedy 2 2 .frontier) (Q := FUncapped) (fuel := 200)
    (f := fun s => Verif.Inst.bAllDone s.sys && (Bar.bestValue (cfgOf greedy 2 2 .frontier) s.sys.crit == some (-5))) (by decide +kernel)
  simp only [Bool.and_eq_true, beq_iff_eq] at h2
  exact ⟨s, h1, Verif.Inst.bAllDone_spec h2.1, h2.2⟩

end

section
open Psp
variable {I : Psp.Inst} {σ : List Psp.Edge → List Psp.Edge} {B : Nat}

theorem psp_narrowCfg (hn : 1 ≤ I.periods) (hB : Bounded I B) {w : Nat} (hw : I.periods * w % 2 ^ 64 ≠ 0) (hN : Narrow (problem I σ) (I.periods * w % 2 ^ 64)) (n : Nat) (c : CutsetType) :
    NarrowCfg (cfgOf I σ w n c) (layering I) B (layering I) B :=
  ⟨cfgOf_base hn hB hw n c, wellFormed hn hB, psp_admissible, hN⟩

/-- **C104.** The program `psp` finds a cheapest plan if the argument `--width` is large enough, with any cutset and even if the changeover costs violate the triangle inequality... -/
theorem psp_narrow_optimal (hn : 1 ≤ I.periods) (hB : Bounded I B) (hu : UnitDemand I) {w : Nat} (hw : I.periods * w % 2 ^ 64 ≠ 0) (hN : Narrow (problem I σ) (I.periods * w % 2 ^ 64))
    {n : Nat} (h1 : 1 ≤ n) {c : CutsetType} {s : Sys State (cfgOf I σ w n c).fr.F} (hr : Reachable (cfgOf I σ w n c) s) (hf : Finished s)
    (hp : Par.proved (cfgOf I σ w n c) s.crit = true) {C : Nat} (hC : Cheapest I C) : Par.bestValue (cfgOf I σ w n c) s.crit = some (-(C : Int)) :=
  narrow_value (cfg := cfgOf I σ w n c) (laws I σ w n c) (psp_narrowCfg hn hB hw hN n c) (Nat.le_refl _) h1 hr hf hp ((psp_optimum_partial hn hu _).2 ⟨C, rfl, hC⟩)

/-- **C104.** ...with barriers as well. -/
theorem psp_narrow_barrier_optimal (hn : 1 ≤ I.periods) (hB : Bounded I B) (hu : UnitDemand I) {w : Nat} (hw : I.periods * w % 2 ^ 64 ≠ 0)
    (hN : Narrow (problem I σ) (I.periods * w % 2 ^ 64)) {n : Nat} (h1 : 1 ≤ n) {c : CutsetType} {s : FSys State (cfgOf I σ w n c).fr.F} (hr : FReachable (cfgOf I σ w n c) s)
    (hf : FFinished s) (hp : Bar.proved (cfgOf I σ w n c) s.sys.crit = true) {C : Nat} (hC : Cheapest I C) : Bar.bestValue (cfgOf I σ w n c) s.sys.crit = some (-(C : Int)) :=
  narrow_barrier_value (cfg := cfgOf I σ w n c) (laws I σ w n c) (psp_narrowCfg hn hB hw hN n c) (Nat.le_refl _) h1 hr hf hp ((psp_optimum_partial hn hu _).2 ⟨C, rfl, hC⟩)

/-- `--width 2` is enough for the instance `tri`. -/
example : Narrow (problem tri id) (tri.periods * 2 % 2 ^ 64) ∧ ∃ s, ReachableMax (cfgOf tri id 2 1 .frontier) s ∧ Finished s ∧ Par.bestValue (cfgOf tri id 2 1 .frontier) s.crit = some (-4) := by
  refine ⟨Verif.Inst.narrowB_spec (by decide +kernel), ?_⟩
  obtain ⟨s, h1, h2⟩ := Verif.Inst.test_spec_max (cfg := cfgOf tri id 2 1 .frontier) (l := List.replicate 5 (0, false))
    (f := fun s => Verif.Inst.allDone s && (Par.bestValue (cfgOf tri id 2 1 .frontier) s.crit == some (-4))) (by decide) (by decide +kernel)
  simp only [Bool.and_eq_true, beq_iff_eq] at h2
  exact ⟨s, h1, Verif.Inst.allDone_spec h2.1, h2.2⟩

end

section
open Srflp
variable {I : Srflp.Inst} {F L : Nat}

/-- **C104.** The program `srflp` finds a cheapest layout if the argument `--width` is large enough, also with several threads, barriers and any cutset. -/
theorem srflp_narrow_optimal (hB : Bounded I F L) (hs : Symmetric I) (hfl : Flows I) (hl : Lengths I) (hprec : Precise I F L) {w : Nat} (hw : I.n * w % 2 ^ 64 ≠ 0)
    (hN : Narrow (problem I) (I.n * w % 2 ^ 64)) {n : Nat} (h1 : 1 ≤ n) {c : CutsetType} {s : FSys State (cfgOf I w n c).fr.F} (hr : FReachable (cfgOf I w n c) s) (hf : FFinished s)
    (hp : Bar.proved (cfgOf I w n c) s.sys.crit = true) {C : Int} (hC : Cheapest2 I C) :
    ∃ v, Bar.bestValue (cfgOf I w n c) s.sys.crit = some v ∧ 2 * v = fixed2 I - C := by
  have hg := srflp_good hB hs hfl hl hprec hw n c
  obtain ⟨⟨l, h2, h3⟩, hbest⟩ := hC
  have h4 := cost2_eq hl hs h2
  have hopt : IsOptimum (problem I) (-walk I [] l) := (srflp_optimum hB hl hs _).2 (by
    have e : fixed2 I - 2 * -walk I [] l = C := by omega
    rw [e]; exact ⟨⟨l, h2, h3⟩, hbest⟩)
  exact ⟨_, narrow_barrier_value (cfg := cfgOf I w n c) (laws I w n c) ⟨hg.base, hg.wf, hg.adm, hN⟩ (Nat.le_refl _) h1 hr hf hp hopt, by omega⟩

/-- **C104.** How large is enough for any instance of `srflp`: what was placed counts, not in which order, so that a layer has at most as many states as there are sets of half of the departments. -/
theorem srflp_enough_width (I : Srflp.Inst) : Narrow (problem I) (I.n.choose (I.n / 2)) := narrow

/-- **C104.** So the program finds a cheapest layout with every width of at least this size. -/
theorem srflp_enough_width_optimal (hB : Bounded I F L) (hs : Symmetric I) (hfl : Flows I) (hl : Lengths I) (hprec : Precise I F L) {w : Nat}
    (hw : I.n.choose (I.n / 2) ≤ I.n * w % 2 ^ 64) {n : Nat} (h1 : 1 ≤ n) {c : CutsetType} {s : FSys State (cfgOf I w n c).fr.F} (hr : FReachable (cfgOf I w n c) s) (hf : FFinished s)
    (hp : Bar.proved (cfgOf I w n c) s.sys.crit = true) {C : Int} (hC : Cheapest2 I C) :
    s.sys.crit.explored = 1 ∧ ∃ v, Bar.bestValue (cfgOf I w n c) s.sys.crit = some v ∧ 2 * v = fixed2 I - C := by
  have h0 : 0 < I.n.choose (I.n / 2) := Nat.choose_pos (Nat.div_le_self _ _)
  have hw' : I.n * w % 2 ^ 64 ≠ 0 := by omega
  have hN := Narrow.mono (srflp_enough_width I) hw
  have hg := srflp_good hB hs hfl hl hprec hw' n c
  exact ⟨(narrow_barrier_optimal (cfg := cfgOf I w n c) (laws I w n c) ⟨hg.base, hg.wf, hg.adm, hN⟩ (Nat.le_refl _) h1 hr hf hp).1,
    srflp_narrow_optimal hB hs hfl hl hprec hw' hN h1 hr hf hp hC⟩

/-- Four departments: six states at most, and `--width 2` allows eight. -/
example : four.n.choose (four.n / 2) = 6 ∧ four.n.choose (four.n / 2) ≤ four.n * 2 % 2 ^ 64 := by decide

/-- With three departments the bound is attained by the default width. -/
example : (3 : Nat).choose (3 / 2) = 3 * 1 % 2 ^ 64 := by decide

/-- `--width 2` is enough for the instance `four`. -/
example : Narrow (problem four) (four.n * 2 % 2 ^ 64) ∧ ∃ s, FReachableMaxAlong (cfgOf four 2 2 .frontier) FUncapped s ∧ FFinished s ∧ s.sys.crit.explored = 1 := by
  refine ⟨Verif.Inst.narrowB_spec (by decide +kernel), ?_⟩
  obtain ⟨s, h1, h2⟩ := Verif.Inst.fturns_reach (cfg := cfgOf four 2 2 .frontier) (Q := FUncapped) (fuel := 300)
    (f := fun s => Verif.Inst.bAllDone s.sys && (s.sys.crit.explored == 1)) (by decide +kernel)
  simp only [Bool.and_eq_true, beq_iff_eq] at h2
  exact ⟨s, h1, Verif.Inst.bAllDone_spec h2.1, h2.2⟩

end

end Verif.Props
