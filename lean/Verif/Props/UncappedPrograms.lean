import Verif.Props.UncappedFine
import Verif.Props.Psp
import Verif.Props.Srflp
import Verif.Props.Program
/-!
C65, C72, C99: the programs with several threads and a barrier.
-/
set_option autoImplicit false

namespace Verif.Props
open Verif Spec

section
open Psp
variable {I : Psp.Inst} {σ : List Psp.Edge → List Psp.Edge} {B : Nat}

/-- **C65 (partial).** With several threads and a barrier, however their accesses interleave, `Proved` means that the value is that of a cheapest plan, as long as no improving bound is lowered to that of the parent.
Missing: runs in which one is. -/
theorem psp_threads_optimal_partial (hn : 1 ≤ I.periods) (hB : Bounded I B) (htri : Triangle I) (hu : UnitDemand I) {w : Nat} (hw : I.periods * w % 2 ^ 64 ≠ 0) {n : Nat} (h1 : 1 ≤ n)
    {s : FSys State (cfgOf I σ w n .lastExactLayer).fr.F} (hs : FReachableAlong (cfgOf I σ w n .lastExactLayer) FUncapped s) (hf : FFinished s)
    (hp : Bar.proved (cfgOf I σ w n .lastExactLayer) s.sys.crit = true) {C : Nat} (hC : Cheapest I C) :
    Bar.bestValue (cfgOf I σ w n .lastExactLayer) s.sys.crit = some (-(C : Int)) :=
  (lock_uncapped_proved_partial (cfg := cfgOf I σ w n .lastExactLayer) (laws I σ w n .lastExactLayer)
    ⟨wellFormed hn hB, psp_admissible, sound hn hB htri, (cfgOf_base (σ := σ) hn hB hw n .lastExactLayer).width⟩ (Or.inl rfl) h1 (Nat.le_refl _) hs hf hp
    ((psp_optimum_partial hn hu _).2 ⟨C, rfl, hC⟩)).1

/-- Two threads that take turns at every access find the cheapest plan of `tri`, and no bound is lowered. -/
example : ∃ s, FReachableMaxAlong (cfgOf tri id 1 2 .lastExactLayer) FUncapped s ∧ FFinished s ∧ Bar.bestValue (cfgOf tri id 1 2 .lastExactLayer) s.sys.crit = some (-4) := by
  obtain ⟨s, h1, h2⟩ := Verif.Inst.fturns_reach (cfg := cfgOf tri id 1 2 .lastExactLayer) (Q := FUncapped) (fuel := 600)
    (f := fun s => Verif.Inst.bAllDone s.sys && (Bar.bestValue (cfgOf tri id 1 2 .lastExactLayer) s.sys.crit == some (-4))) (by decide +kernel)
  simp only [Bool.and_eq_true, beq_iff_eq] at h2
  exact ⟨s, h1, Verif.Inst.bAllDone_spec h2.1, h2.2⟩

end

section
open Srflp
variable {I : Srflp.Inst} {F L : Nat}

/-- **C72 (partial).** With several threads and a barrier, however their accesses interleave, `Proved` means that the value is that of a cheapest layout, as long as no improving bound is lowered to that of the parent.
Missing: runs in which one is. -/
theorem srflp_threads_optimal_partial (hB : Bounded I F L) (hs : Symmetric I) (hf : Flows I) (hl : Lengths I) (hprec : Precise I F L) {w : Nat} (hw : I.n * w % 2 ^ 64 ≠ 0) {n : Nat} (h1 : 1 ≤ n)
    {s : FSys State (cfgOf I w n .lastExactLayer).fr.F} (hr : FReachableAlong (cfgOf I w n .lastExactLayer) FUncapped s) (hfin : FFinished s)
    (hp : Bar.proved (cfgOf I w n .lastExactLayer) s.sys.crit = true) {C : Int} (hC : Cheapest2 I C) :
    ∃ v, Bar.bestValue (cfgOf I w n .lastExactLayer) s.sys.crit = some v ∧ 2 * v = fixed2 I - C := by
  obtain ⟨⟨l, h2, h3⟩, hbest⟩ := hC
  have h4 := cost2_eq hl hs h2
  have hopt : IsOptimum (problem I) (-walk I [] l) := (srflp_optimum hB hl hs _).2 (by
    have e : fixed2 I - 2 * -walk I [] l = C := by omega
    rw [e]; exact ⟨⟨l, h2, h3⟩, hbest⟩)
  exact ⟨_, (lock_uncapped_proved_partial (cfg := cfgOf I w n .lastExactLayer) (laws I w n .lastExactLayer) (srflp_good hB hs hf hl hprec hw n _) (Or.inl rfl) h1 (Nat.le_refl _) hr hfin hp hopt).1,
    by omega⟩

/-- Two threads that take turns at every access, on `four`: no bound is lowered. -/
example : ∃ s, FReachableMaxAlong (cfgOf four 1 2 .lastExactLayer) FUncapped s ∧ FFinished s ∧ Bar.proved (cfgOf four 1 2 .lastExactLayer) s.sys.crit = true := by
  obtain ⟨s, h1, h2⟩ := Verif.Inst.fturns_reach (cfg := cfgOf four 1 2 .lastExactLayer) (Q := FUncapped) (fuel := 600)
    (f := fun s => Verif.Inst.bAllDone s.sys && Bar.proved (cfgOf four 1 2 .lastExactLayer) s.sys.crit) (by decide +kernel)
  simp only [Bool.and_eq_true] at h2
  exact ⟨s, h1, Verif.Inst.bAllDone_spec h2.1, h2.2⟩

end

section
open Text Print F32 Program Files
variable {σ : Type} [DecidableEq σ] [Inhabited σ] {cfg : SolverCfg σ} {S : Layering σ} {B : Int} {name out : List Char}

/-- **C99 (partial).** What is printed after a run of the solver `barrier` with any number of threads whose accesses interleave in any way, interrupted or not: a line whose best value is that of a solution,
and if it says `Proved`, and no improving bound has been lowered to that of the parent, then this is the optimum, and both bounds are equal to it.  Missing: runs in which a bound is lowered. -/
theorem prints_threads_partial (L : FrontierLaws cfg.fr) (hg : GoodCfg cfg S B) (hc : CutOK cfg S) (hn : cfg.nbThreads ≤ cfg.custom) (h1 : 1 ≤ cfg.nbThreads) (hna : CellText name)
    {s : FSys σ cfg.fr.F} (hr : FReachableAlong cfg FUncapped s) (hf : FFinished s) {time ram : Nat × Nat} (ho : barrierLine cfg name time ram s.sys = some out) :
    ∃ p v u, Says out name .barrier p v u ∧ (∃ ds, Solution cfg.p ds v) ∧ (p = true → IsOptimum cfg.p v ∧ u = v) := by
  obtain ⟨b, hb⟩ := Fine.finished_honest L hg.base hn hr hf
  have hr' : BReachable cfg ({ s.sys with bars := b } : BSys σ cfg.fr.F) := by
    obtain ⟨s0, ls, g1, g2, _, g4⟩ := hb
    exact ⟨s0, ls, g1, fun l hl => (g2 l hl).1, g4⟩
  obtain ⟨r, h4, rfl⟩ := Option.map_eq_some_iff.1 ho
  unfold Bar.report at h4
  obtain ⟨g, hgap, rfl⟩ := Option.map_eq_some_iff.1 h4
  rcases barrier_incumbent_real L hg.base hn hr' with ⟨_, h5⟩ | ⟨sol, v, _, h6, h7, ds, _, h8⟩
  · rcases (Bar.reachable_inv L hg.base hn hr').inc with ⟨_, h2⟩ | ⟨sol, h1, _⟩
    · rw [(gap_overflow (Bar.bestLowerBound cfg s.sys.crit) _).2 (Or.inl h2)] at hgap; cases hgap
    · have h1 : s.sys.crit.bestSol = some sol := h1
      simp [Bar.bestValue, h1] at h5
  · refine ⟨_, v, _, line_says hna _ _ _ h6 h7 hgap, ⟨ds, h8⟩, fun hp => ?_⟩
    obtain ⟨g1, g2⟩ := uncapped_report L hg hc h1 hn hb hf hp
    rcases g2 with ⟨v', _, g3, _, _, g4⟩ | ⟨g3, _⟩
    · rw [h6] at g3; cases g3; exact ⟨g4, g1.trans h7⟩
    · rw [h6] at g3; cases g3

/-- For instance, two threads that take turns at every access print a line for the instance `four` of `srflp`, and it says `Proved`. -/
example : ∃ s out, FReachableAlong (Srflp.cfgOf Srflp.four 1 2 .lastExactLayer) FUncapped s ∧ FFinished s ∧
    barrierLine (Srflp.cfgOf Srflp.four 1 2 .lastExactLayer) "four".toList (0, 1) (0, 1) s.sys = some out ∧ Bar.proved (Srflp.cfgOf Srflp.four 1 2 .lastExactLayer) s.sys.crit = true := by
  obtain ⟨s, h1, h2⟩ := Verif.Inst.fturns_reach (cfg := Srflp.cfgOf Srflp.four 1 2 .lastExactLayer) (Q := FUncapped) (fuel := 600)
    (f := fun s => Verif.Inst.bAllDone s.sys && (Bar.proved (Srflp.cfgOf Srflp.four 1 2 .lastExactLayer) s.sys.crit &&
      (barrierLine (Srflp.cfgOf Srflp.four 1 2 .lastExactLayer) "four".toList (0, 1) (0, 1) s.sys).isSome)) (by decide +kernel)
  simp only [Bool.and_eq_true, Option.isSome_iff_exists] at h2
  obtain ⟨h2, h3, out, h4⟩ := h2
  exact ⟨s, out, Fine.max_along h1, Verif.Inst.bAllDone_spec h2, h4, h3⟩

end

end Verif.Props
