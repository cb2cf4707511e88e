import Verif.Props.Shipped
/-! C105: if the width is enough and the time is not over, a line that says `Proved` is printed. -/
set_option autoImplicit false

namespace Verif.Props
open Verif Spec Text Print F32 Program Files

section
variable {σ : Type} [DecidableEq σ] [Inhabited σ] {cfg : SolverCfg σ} {S S' : Layering σ} {B B' : Int} {name : List Char}

/-- **C105.** If the width is enough, the time is not over before the run is finished, and there is a solution, the line is printed and says `Proved` and the optimum, whatever happens in between... -/
theorem narrow_line (L : FrontierLaws cfg.fr) (hg : NarrowCfg cfg S B S' B') (hn : cfg.nbThreads ≤ cfg.custom) (h1 : 1 ≤ cfg.nbThreads) (hna : CellText name) {s : Sys σ cfg.fr.F}
    (hr : ReachableMax cfg s) (hf : Finished s) {v : Int} (hv : IsOptimum cfg.p v) (time ram : Nat × Nat) :
    ∃ out, parallelLine cfg name time ram s = some out ∧ Says out name .parallel true v v := by
  have hp : Par.proved cfg s.crit = true := by simp [Par.proved, hr.noint]
  have hb := narrow_value L hg hn h1 hr.reachable hf hp hv
  obtain ⟨_, h2, _⟩ := narrow_optimal L hg hn h1 hr.reachable hf hp
  have hlb : Par.bestLowerBound cfg s.crit = v := by
    rcases incumbent_real L hg.base hn hr.reachable with ⟨_, h⟩ | ⟨_, v', _, h3, h4, _⟩
    · rw [h] at hb; cases hb
    · rw [h3] at hb; cases hb; exact h4
  have hne : v ≠ isizeMin := by
    obtain ⟨ds, hs⟩ := hv.1
    have := Par.solution_bounds hg.base.wf hs
    omega
  obtain ⟨g, hgap⟩ : ∃ g, gap v v = some g := by rw [gap_eq hne hne]; exact ⟨_, rfl⟩
  obtain ⟨r, hrep, e1, e2, e3, e4, e5⟩ : ∃ r, Par.report cfg s = some r ∧ r.proved = true ∧ r.best = some v ∧ r.lb = v ∧ r.ub = v ∧ gap r.lb r.ub = some r.gap :=
    ⟨_, by rw [Par.report, h2, hlb, hgap]; rfl, hp, hb, rfl, rfl, hgap⟩
  refine ⟨_, by unfold parallelLine; rw [hrep]; rfl, ?_⟩
  have := line_says hna .parallel time ram e2 e3 e5
  rwa [e1, e4] at this

/-- **C105.** ...also with barriers. -/
theorem narrow_barrier_line (L : FrontierLaws cfg.fr) (hg : NarrowCfg cfg S B S' B') (hn : cfg.nbThreads ≤ cfg.custom) (h1 : 1 ≤ cfg.nbThreads) (hna : CellText name) {s : FSys σ cfg.fr.F}
    (hr : FReachable cfg s) (hf : FFinished s) (hp : Bar.proved cfg s.sys.crit = true) {v : Int} (hv : IsOptimum cfg.p v) (time ram : Nat × Nat) :
    ∃ out, barrierLine cfg name time ram s.sys = some out ∧ Says out name .barrier true v v := by
  have hb := narrow_barrier_value L hg hn h1 hr hf hp hv
  obtain ⟨_, h2, _⟩ := narrow_barrier_optimal L hg hn h1 hr hf hp
  have hlb : Bar.bestLowerBound cfg s.sys.crit = v := by
    rcases lock_incumbent_real L hg.base hn hr with ⟨_, h⟩ | ⟨_, v', _, h3, h4, _⟩
    · rw [h] at hb; cases hb
    · rw [h3] at hb; cases hb; exact h4
  have hne : v ≠ isizeMin := by
    obtain ⟨ds, hs⟩ := hv.1
    have := Par.solution_bounds hg.base.wf hs
    omega
  obtain ⟨g, hgap⟩ : ∃ g, gap v v = some g := by rw [gap_eq hne hne]; exact ⟨_, rfl⟩
  obtain ⟨r, hrep, e1, e2, e3, e4, e5⟩ : ∃ r, Bar.report cfg s.sys = some r ∧ r.proved = true ∧ r.best = some v ∧ r.lb = v ∧ r.ub = v ∧ gap r.lb r.ub = some r.gap :=
    ⟨_, by rw [Bar.report, h2, hlb, hgap]; rfl, hp, hb, rfl, rfl, hgap⟩
  refine ⟨_, by unfold barrierLine; rw [hrep]; rfl, ?_⟩
  have := line_says hna .barrier time ram e2 e3 e5
  rwa [e1, e4] at this

/-- **C105.** Such a run exists. -/
theorem narrow_can_print (L : FrontierLaws cfg.fr) (hg : NarrowCfg cfg S B S' B') (hn : cfg.nbThreads ≤ cfg.custom) (h1 : 1 ≤ cfg.nbThreads) (hna : CellText name) {v : Int} (hv : IsOptimum cfg.p v) :
    ∃ out, Prints cfg .parallel name out ∧ Says out name .parallel true v v := by
  obtain ⟨s0, g1, _⟩ := never_panics L hg.base hn
  obtain ⟨ls, s, g2, g3, hf⟩ := can_finish (s := s0) L hg.base hn ⟨s0, [], g1, by simp, rfl⟩
  have hr : ReachableMax cfg s := ⟨s0, ls, g1, fun l hl => (g2 l hl).1, fun l hl i b o e => by
    obtain ⟨_, _, _, h⟩ := g2 l hl
    rw [e] at h; cases h; rfl, g3⟩
  obtain ⟨out, h2, h3⟩ := narrow_line L hg hn h1 hna hr hf hv (0, 1) (0, 1)
  exact ⟨out, ⟨s, (0, 1), (0, 1), hr.reachable, hf, h2⟩, h3⟩

end

/-- **C105.** For the file `rc_206.1.txt` and `--width 2` or more: if the time is not over, the line says `Proved` and 117.8479. -/
theorem rc206_line {o : Options} {cpus : Nat} (hw : 2 ≤ o.width.getD 1) (hu : o.width.getD 1 < 2 ^ 46) (h1 : 1 ≤ o.threads.getD cpus)
    {s : Sys Tsptw.State (Program.tsptw o cpus rc206).fr.F} (hr : ReachableMax (Program.tsptw o cpus rc206) s) (hf : Finished s) (time ram : Nat × Nat) :
    ∃ out, parallelLine (Program.tsptw o cpus rc206) (runName "resources/tsptw/SolomonPotvinBengio/rc_206.1.txt".toList) time ram s = some out ∧
      Says out "rc_206.1".toList .parallel true (-1178479) (-1178479) := by
  rw [rc206_name]
  have hn : 1 ≤ rc206.n := by rw [rc206_read.2.1]; decide
  exact narrow_line (cfg := Program.tsptw o cpus rc206) (noDup_laws (rank := Tsptw.rank)) (rc206_cfg hw hu) (Nat.le_refl _) h1 rc206_cell hr hf
    ((tsptw_optimum_partial hn rc206_conditions.2.1 (-1178479)).2 ⟨1178479, rfl, rc206_shortest⟩) time ram

/-- There is such a run. -/
example : ∃ out, Prints (Program.tsptw ⟨[], some 2, 60, some 3, .parallel, .frontier⟩ 8 rc206) .parallel "rc_206.1".toList out ∧ Says out "rc_206.1".toList .parallel true (-1178479) (-1178479) :=
  narrow_can_print (cfg := Program.tsptw ⟨[], some 2, 60, some 3, .parallel, .frontier⟩ 8 rc206) (noDup_laws (rank := Tsptw.rank)) (rc206_cfg (by decide) (by decide)) (Nat.le_refl _) (by decide) rc206_cell
    ((tsptw_optimum_partial (by rw [rc206_read.2.1]; decide) rc206_conditions.2.1 (-1178479)).2 ⟨1178479, rfl, rc206_shortest⟩)

end Verif.Props
