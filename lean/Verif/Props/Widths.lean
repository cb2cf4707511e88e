import Verif.Model.Program
import Verif.Model.Widths
import Verif.Proofs.Widths
import Verif.Props.Psp
import Verif.Props.Session
import Verif.Props.Srflp
import Verif.Props.Tsptw
/-! C100: width heuristics. -/
set_option autoImplicit false

namespace Verif.Props
open Verif Spec
variable {σ : Type} [DecidableEq σ] [Inhabited σ] {cfg : SolverCfg σ} {S : Layering σ} {B : Int}

/-! ### Where the width matters -/

/-- **C100.** The width of a state without free variables does not matter: two widths that agree on the others give the same runs... -/
theorem width_where_free {f : σ → Nat} (h : SameWidth cfg f) (s : Sys σ cfg.fr.F) :
    (Reachable { cfg with width := f } s ↔ Reachable cfg s) ∧ (ReachableMax { cfg with width := f } s ↔ ReachableMax cfg s) := by
  unfold Reachable ReachableMax
  rw [Par.init_same]
  constructor
  · constructor <;> rintro ⟨s0, ls, h0, hv, hr⟩
    · exact ⟨s0, ls, h0, hv, by rw [← hr]; exact (Par.runs_same h ls s0 hv).symm⟩
    · exact ⟨s0, ls, h0, hv, by rw [← hr]; exact Par.runs_same h ls s0 hv⟩
  · constructor <;> rintro ⟨s0, ls, h0, hv, hi, hr⟩
    · exact ⟨s0, ls, h0, hv, hi, by rw [← hr]; exact (Par.runs_same h ls s0 hv).symm⟩
    · exact ⟨s0, ls, h0, hv, hi, by rw [← hr]; exact Par.runs_same h ls s0 hv⟩

/-- **C100.** ...also with barriers. -/
theorem barrier_width_where_free {f : σ → Nat} (h : SameWidth cfg f) (s : BSys σ cfg.fr.F) :
    (BReachable { cfg with width := f } s ↔ BReachable cfg s) ∧ (SharpReachableMax { cfg with width := f } s ↔ SharpReachableMax cfg s) := by
  unfold BReachable SharpReachableMax
  rw [Bar.init_same]
  constructor
  · constructor <;> rintro ⟨s0, ls, h0, hv, hr⟩
    · exact ⟨s0, ls, h0, hv, by rw [← hr]; exact (Bar.runs_same h ls s0 hv).symm⟩
    · exact ⟨s0, ls, h0, hv, by rw [← hr]; exact Bar.runs_same h ls s0 hv⟩
  · constructor <;> rintro ⟨s0, ls, h0, hv, hr⟩
    · exact ⟨s0, ls, h0, hv, by rw [← hr]; exact (Bar.runs_same h ls s0 fun l hl => (hv l hl).1).symm⟩
    · exact ⟨s0, ls, h0, hv, by rw [← hr]; exact Bar.runs_same h ls s0 fun l hl => (hv l hl).1⟩

/-- **C100.** So a width of at least one is needed only where a variable is free: then `maximize()` returns the optimum... -/
theorem width_free_optimal (L : FrontierLaws cfg.fr) (hwf : WellFormed cfg.p S B) (hadm : Admissible cfg.p S) (hrel : SoundRelaxation cfg.p cfg.r S B)
    (hw : ∀ s, cfg.p.nextVar [s] ≠ none → 1 ≤ cfg.width s) (hc : CutOK cfg S) (hn : cfg.nbThreads ≤ cfg.custom) (h1 : 1 ≤ cfg.nbThreads) {s : Sys σ cfg.fr.F}
    (hr : ReachableMax cfg s) (hf : Finished s) {v : Int} (hv : IsOptimum cfg.p v) : Par.bestValue cfg s.crit = some v := by
  have h : SameWidth cfg fun s => max 1 (cfg.width s) := fun s hs => Nat.max_eq_right (hw s hs)
  have hg : GoodCfg { cfg with width := fun s => max 1 (cfg.width s) } S B := ⟨hwf, hadm, hrel, fun s => Nat.le_max_left _ _⟩
  exact (maximize_optimal (cfg := { cfg with width := fun s => max 1 (cfg.width s) }) L hg hc hn h1 ((width_where_free h s).2.2 hr) hf hv).1

/-- **C100.** ...with one thread also the solver with barriers. -/
theorem barrier_width_free_optimal (L : FrontierLaws cfg.fr) (hwf : WellFormed cfg.p S B) (hadm : Admissible cfg.p S) (hrel : SoundRelaxation cfg.p cfg.r S B)
    (hw : ∀ s, cfg.p.nextVar [s] ≠ none → 1 ≤ cfg.width s) (hc : CutOK cfg S) (h1 : cfg.nbThreads = 1) (hn : cfg.nbThreads ≤ cfg.custom) {s : BSys σ cfg.fr.F}
    (hr : SharpReachableMax cfg s) (hf : BFinished s) {v : Int} (hv : IsOptimum cfg.p v) : Bar.bestValue cfg s.crit = some v := by
  have h : SameWidth cfg fun s => max 1 (cfg.width s) := fun s hs => Nat.max_eq_right (hw s hs)
  have hg : GoodCfg { cfg with width := fun s => max 1 (cfg.width s) } S B := ⟨hwf, hadm, hrel, fun s => Nat.le_max_left _ _⟩
  exact (barrier_optimal (cfg := { cfg with width := fun s => max 1 (cfg.width s) }) L hg hc h1 hn ((barrier_width_where_free h s).2.2 hr) hf hv).1

/-! ### The heuristics of the library -/

/-- **C100.** `Fixed(w)` with `w ≥ 1` suits every problem: `maximize()` returns the optimum. -/
theorem fixed_width_optimal (L : FrontierLaws cfg.fr) (hg : GoodCfg cfg S B) {w : Nat} (hw : 1 ≤ w) (hc : CutOK cfg S) (hn : cfg.nbThreads ≤ cfg.custom) (h1 : 1 ≤ cfg.nbThreads)
    {s : Sys σ cfg.fr.F} (hr : ReachableMax { cfg with width := fixedWidth w } s) (hf : Finished s) {v : Int} (hv : IsOptimum cfg.p v) : Par.bestValue cfg s.crit = some v :=
  (maximize_optimal (cfg := { cfg with width := fixedWidth w }) L ⟨hg.wf, hg.adm, hg.rel, fun _ => hw⟩ hc hn h1 hr hf hv).1

section
variable {I : Psp.Inst} {σ : List Psp.Edge → List Psp.Edge} {B : Nat}

/-- **C100.** `NbUnassigned` of the example `psp` is the number of variables that have no value yet... -/
theorem psp_unassigned_left {s : Psp.State} {ds : List Decision} {v : Int} (h : Reach (Psp.problem I σ) s ds v) : Psp.nbUnassigned s + ds.length = (Psp.problem I σ).nbVars := by
  have key : ∀ {a b : Psp.State} {ds : List Decision} {v : Int}, Run (Psp.problem I σ) a ds v b → b.time + ds.length = a.time := by
    intro a b ds v h
    induction h with
    | nil s => simp
    | cons hx hd _ ih =>
      rename_i s t x d ds v _
      have h1 : 0 < s.time := by
        by_contra hc
        have hx' : Psp.nextVar [s] = some x := hx
        rw [show Psp.nextVar [s] = none from if_neg hc] at hx'
        cases hx'
      have h2 : ((Psp.problem I σ).trans s d).time = s.time - 1 := by
        show (Psp.trans I s d).time = _
        unfold Psp.trans
        split <;> rfl
      simp only [List.length_cons]
      omega
  obtain ⟨u, h1, _⟩ := h
  exact key h1

/-- **C100.** ...also in a merged state... -/
theorem psp_unassigned_merged {l : List Psp.State} (hl : l ≠ []) {k : Nat} (h : ∀ s ∈ l, Psp.nbUnassigned s = k) : Psp.nbUnassigned (Psp.merge l) = k := Psp.merge_time hl h

/-- **C100 (partial).** ...and with it, although it is 0 in the end, the example `psp` finds a cheapest plan under the conditions of C65, with any number of threads... -/
theorem psp_unassigned_optimal_partial (hn : 1 ≤ I.periods) (hB : Psp.Bounded I B) (htri : Psp.Triangle I) (hu : Psp.UnitDemand I) {w n : Nat} (h1 : 1 ≤ n)
    {s : Sys Psp.State (Psp.cfgOf I σ w n .lastExactLayer).fr.F} (hs : ReachableMax { Psp.cfgOf I σ w n .lastExactLayer with width := Psp.nbUnassigned } s) (hf : Finished s) {C : Nat}
    (hC : Psp.Cheapest I C) : Par.bestValue (Psp.cfgOf I σ w n .lastExactLayer) s.crit = some (-(C : Int)) := by
  refine width_free_optimal (cfg := { Psp.cfgOf I σ w n .lastExactLayer with width := Psp.nbUnassigned }) (Psp.laws I σ w n .lastExactLayer) (Psp.wellFormed hn hB) psp_admissible (Psp.sound hn hB htri) ?_
    (Or.inl rfl) (Nat.le_refl _) h1 hs hf ((psp_optimum_partial hn hu _).2 ⟨C, rfl, hC⟩)
  intro s hs
  by_contra hc
  refine hs (if_neg ?_)
  show ¬ 0 < s.time
  have hc : ¬ 1 ≤ s.time := hc
  omega

/-- **C100 (partial).** ...and with barriers and one thread. -/
theorem psp_unassigned_barrier_optimal_partial (hn : 1 ≤ I.periods) (hB : Psp.Bounded I B) (htri : Psp.Triangle I) (hu : Psp.UnitDemand I) {w : Nat}
    {s : BSys Psp.State (Psp.cfgOf I σ w 1 .lastExactLayer).fr.F} (hs : SharpReachableMax { Psp.cfgOf I σ w 1 .lastExactLayer with width := Psp.nbUnassigned } s) (hf : BFinished s) {C : Nat}
    (hC : Psp.Cheapest I C) : Bar.bestValue (Psp.cfgOf I σ w 1 .lastExactLayer) s.crit = some (-(C : Int)) := by
  refine barrier_width_free_optimal (cfg := { Psp.cfgOf I σ w 1 .lastExactLayer with width := Psp.nbUnassigned }) (Psp.laws I σ w 1 .lastExactLayer) (Psp.wellFormed hn hB) psp_admissible (Psp.sound hn hB htri) ?_
    (Or.inl rfl) rfl (Nat.le_refl _) hs hf ((psp_optimum_partial hn hu _).2 ⟨C, rfl, hC⟩)
  intro s hs
  by_contra hc
  refine hs (if_neg ?_)
  show ¬ 0 < s.time
  have hc : ¬ 1 ≤ s.time := hc
  omega

end

/-- With this width the program does find the cheapest plan of the instance `tri`. -/
example : ∃ s, ReachableMax { Psp.cfgOf Psp.tri id 1 1 .lastExactLayer with width := Psp.nbUnassigned } s ∧ Finished s := by
  obtain ⟨s, h1, h2⟩ := Inst.test_spec_max (cfg := { Psp.cfgOf Psp.tri id 1 1 .lastExactLayer with width := Psp.nbUnassigned }) (l := List.replicate 12 (0, false)) (f := Inst.allDone) (by decide) (by decide +kernel)
  exact ⟨s, h1, Inst.allDone_spec h2⟩

/-! ### The heuristics of the programs -/

/-- **C100 (partial).** The widths of the programs `srflp` and `psp` are the product of the number of variables and the argument, as long as the product is a `usize`... -/
theorem product_width_partial {n w : Nat} (h : n * w < 2 ^ 64) (s : Srflp.State) (t : Psp.State) : Srflp.width n w s = n * w ∧ Psp.width n w t = n * w :=
  ⟨Nat.mod_eq_of_lt h, Nat.mod_eq_of_lt h⟩

/-- **C100 (partial).** ...and that of `tsptw` grows with the number of cities that have been visited. -/
theorem tsptw_width_partial {n w : Nat} {s : Tsptw.State} (hd : s.depth < 2 ^ 16) (h : n * (s.depth + 1) * w < 2 ^ 64) : Tsptw.width n w s = n * (s.depth + 1) * w := by
  unfold Tsptw.width
  rw [Nat.mod_eq_of_lt hd, Nat.mod_eq_of_lt h]

/-- **C100.** The parameters of the solvers of the three programs: without the option `--width` the width of `srflp` and `psp` is the number of variables and that of `tsptw` at the root is the number of
nodes; the number of threads is the argument or, without it, the number of processors, also for the vector of upper bounds; the cutset is the argument. -/
theorem program_parameters (o : Program.Options) (cpus : Nat) (I : Srflp.Inst) (J : Psp.Inst) (σ : List Psp.Edge → List Psp.Edge) (K : Tsptw.Inst) (hI : I.n < 2 ^ 64) (hJ : J.periods < 2 ^ 64)
    (hK : K.n < 2 ^ 64) :
    (o.width = none → (∀ s, (Program.srflp o cpus I).width s = I.n) ∧ (∀ s, (Program.psp o cpus J σ).width s = J.periods) ∧ (Program.tsptw o cpus K).width (Tsptw.problem K).init = K.n) ∧
    (∀ w, o.width = some w → (I.n * w < 2 ^ 64 → ∀ s, (Program.srflp o cpus I).width s = I.n * w) ∧ (J.periods * w < 2 ^ 64 → ∀ s, (Program.psp o cpus J σ).width s = J.periods * w) ∧
      (K.n * w < 2 ^ 64 → (Program.tsptw o cpus K).width (Tsptw.problem K).init = K.n * w)) ∧
    (o.threads = none → (Program.srflp o cpus I).nbThreads = cpus ∧ (Program.psp o cpus J σ).nbThreads = cpus ∧ (Program.tsptw o cpus K).nbThreads = cpus) ∧
    (∀ t, o.threads = some t → (Program.srflp o cpus I).nbThreads = t ∧ (Program.psp o cpus J σ).nbThreads = t ∧ (Program.tsptw o cpus K).nbThreads = t) ∧
    ((Program.srflp o cpus I).custom = (Program.srflp o cpus I).nbThreads ∧ (Program.psp o cpus J σ).custom = (Program.psp o cpus J σ).nbThreads ∧
      (Program.tsptw o cpus K).custom = (Program.tsptw o cpus K).nbThreads) ∧
    (Program.srflp o cpus I).cutset = o.cutset ∧ (Program.psp o cpus J σ).cutset = o.cutset ∧ (Program.tsptw o cpus K).cutset = o.cutset := by
  have e0 : (Tsptw.problem K).init.depth = 0 := rfl
  refine ⟨fun h => ⟨fun s => ?_, fun s => ?_, ?_⟩, fun w h => ⟨fun hw s => ?_, fun hw s => ?_, fun hw => ?_⟩, fun h => ?_, fun t h => ?_, ⟨rfl, rfl, rfl⟩, rfl, rfl, rfl⟩
  · simpa [Program.srflp, h, Srflp.width] using hI
  · simpa [Program.psp, h, Psp.width] using hJ
  · have := tsptw_width_partial (n := K.n) (w := 1) (s := (Tsptw.problem K).init) (by rw [e0]; decide) (by rw [e0]; omega)
    simpa [Program.tsptw, h, e0] using this
  · simpa [Program.srflp, h] using (product_width_partial hw s default).1
  · simpa [Program.psp, h] using (product_width_partial hw default s).2
  · have := tsptw_width_partial (n := K.n) (w := w) (s := (Tsptw.problem K).init) (by rw [e0]; decide) (by rw [e0]; simpa using hw)
    simpa [Program.tsptw, h, e0] using this
  · exact ⟨by simp [Program.srflp, h], by simp [Program.psp, h], by simp [Program.tsptw, h]⟩
  · exact ⟨by simp [Program.srflp, h], by simp [Program.psp, h], by simp [Program.tsptw, h]⟩

example : (Program.srflp ⟨[], none, 60, none, .parallel, .lastExactLayer⟩ 8 Srflp.four).width default = Srflp.four.n ∧ (Program.srflp ⟨[], none, 60, none, .parallel, .lastExactLayer⟩ 8 Srflp.four).nbThreads = 8 :=
  ⟨((program_parameters ⟨[], none, 60, none, .parallel, .lastExactLayer⟩ 8 Srflp.four Psp.skip id Tsptw.waits (by decide) (by decide) (by decide)).1 rfl).1 default, rfl⟩

def panicsB (cfg : SolverCfg σ) (l : List (Nat × Bool)) : Bool :=
  match Par.init cfg with
  | none => false
  | some s => match Par.runs cfg s (Inst.sched l) with
    | .panic => true
    | _ => false

theorem panicsB_spec {l : List (Nat × Bool)} (hl : l.all (fun x => !x.2) = true) (h : panicsB cfg l = true) : Panics cfg := by
  unfold panicsB at h
  split at h
  · cases h
  · rename_i s0 h0
    split at h
    · rename_i h1
      refine ⟨s0, _, h0, Inst.sched_valid l, ?_, h1⟩
      intro x hx i intr o e
      obtain ⟨y, hy, rfl⟩ := List.mem_map.1 hx
      cases e
      simpa using List.all_eq_true.1 hl y hy
    · cases h

def bpanicsB (cfg : SolverCfg σ) (l : List (Nat × Bool)) : Bool :=
  match Bar.init cfg with
  | none => false
  | some s => match Bar.runs cfg s (Inst.bsched l) with
    | .panic => true
    | _ => false

theorem bpanicsB_spec {l : List (Nat × Bool)} (hl : l.all (fun x => !x.2) = true) (h : bpanicsB cfg l = true) : BPanics cfg := by
  unfold bpanicsB at h
  split at h
  · cases h
  · rename_i s0 h0
    split at h
    · rename_i h1
      exact ⟨s0, _, h0, fun x hx => ⟨(Inst.bsched_valid l x hx).1, (Inst.bsched_valid l x hx).2, Inst.bsched_noint hl x hx⟩, h1⟩
    · cases h

/-- **C100 is false for large arguments**: with four departments and `--width 4611686018427387904` the width is 0, and the program `srflp` panics with either solver... -/
theorem srflp_large_width_panics : Panics (Program.srflp ⟨[], some (2 ^ 62), 60, some 1, .parallel, .lastExactLayer⟩ 1 Srflp.four) ∧
    BPanics (Program.srflp ⟨[], some (2 ^ 62), 60, some 1, .barrier, .lastExactLayer⟩ 1 Srflp.four) :=
  ⟨panicsB_spec (l := List.replicate 5 (0, false)) (by decide) (by decide +kernel), bpanicsB_spec (l := List.replicate 5 (0, false)) (by decide) (by decide +kernel)⟩

/-- **C100 is false for large arguments**: ...as do `psp`, here with six periods and twice this argument... -/
theorem psp_large_width_panics : Panics (Program.psp ⟨[], some (2 ^ 63), 60, some 1, .parallel, .lastExactLayer⟩ 1 Psp.skip id) ∧
    BPanics (Program.psp ⟨[], some (2 ^ 63), 60, some 1, .barrier, .lastExactLayer⟩ 1 Psp.skip id) :=
  ⟨panicsB_spec (l := List.replicate 5 (0, false)) (by decide) (by decide +kernel), bpanicsB_spec (l := List.replicate 5 (0, false)) (by decide) (by decide +kernel)⟩

/-- **C100 is false for large arguments**: ...and `tsptw` with four cities. -/
theorem tsptw_large_width_panics : Panics (Program.tsptw ⟨[], some (2 ^ 62), 60, some 1, .parallel, .lastExactLayer⟩ 1 Tsptw.waits) ∧
    BPanics (Program.tsptw ⟨[], some (2 ^ 62), 60, some 1, .barrier, .lastExactLayer⟩ 1 Tsptw.waits) :=
  ⟨panicsB_spec (l := List.replicate 5 (0, false)) (by decide) (by decide +kernel), bpanicsB_spec (l := List.replicate 5 (0, false)) (by decide) (by decide +kernel)⟩

/-- ...whereas `2 ^ 62 - 1` is fine. -/
example (s : Srflp.State) : Srflp.width 4 (2 ^ 62 - 1) s = 2 ^ 64 - 4 := rfl

end Verif.Props
