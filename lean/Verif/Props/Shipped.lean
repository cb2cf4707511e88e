import Mathlib.Data.List.Permutation
import Verif.Props.Bytes
import Verif.Props.BarrierFine
import Verif.Props.Narrow
import Verif.Props.Program
/-! C105: what is printed if the width is enough, in particular for one of the files that come with the program. -/
set_option autoImplicit false

namespace Verif.Props
open Verif Spec Text Print F32 Program Files

section
variable {σ : Type} [DecidableEq σ] [Inhabited σ] {cfg : SolverCfg σ} {S S' : Layering σ} {B B' : Int} {name out : List Char}

/-- **C105.** If the width is enough, a line that says `Proved` gives the optimum, whatever the relaxation, the cutset and the number of threads... -/
theorem narrow_prints (L : FrontierLaws cfg.fr) (hg : NarrowCfg cfg S B S' B') (hn : cfg.nbThreads ≤ cfg.custom) (h1 : 1 ≤ cfg.nbThreads) (hna : CellText name)
    (h : Prints cfg .parallel name out) :
    ∃ p v u, Says out name .parallel p v u ∧ (∃ ds, Solution cfg.p ds v) ∧ (p = true → IsOptimum cfg.p v ∧ u = v) := by
  obtain ⟨s, time, ram, hr, hf, h3⟩ := h
  obtain ⟨r, h4, rfl⟩ := Option.map_eq_some_iff.1 h3
  rcases incumbent_real L hg.base hn hr with ⟨_, h5⟩ | ⟨sol, v, _, h6, h7, ds, _, h8⟩
  · rw [report_none_panics L hg.base hn hr h5] at h4; cases h4
  · unfold Par.report at h4
    obtain ⟨g, hgap, rfl⟩ := Option.map_eq_some_iff.1 h4
    refine ⟨_, v, _, line_says hna _ _ _ h6 h7 hgap, ⟨ds, h8⟩, fun hp => ?_⟩
    obtain ⟨_, g1, g2⟩ := narrow_optimal L hg hn h1 hr hf hp
    rcases g2 with ⟨v', _, g3, _, _, g4⟩ | ⟨g3, _⟩
    · rw [h6] at g3; cases g3; exact ⟨g4, g1.trans h7⟩
    · rw [h6] at g3; cases g3

/-- **C105.** ...also with barriers, and then with several threads as well. -/
theorem narrow_barrier_prints (L : FrontierLaws cfg.fr) (hg : NarrowCfg cfg S B S' B') (hn : cfg.nbThreads ≤ cfg.custom) (h1 : 1 ≤ cfg.nbThreads) (hna : CellText name)
    {s : FSys σ cfg.fr.F} (hr : FReachable cfg s) (hf : FFinished s) {time ram : Nat × Nat} (h : barrierLine cfg name time ram s.sys = some out) :
    ∃ p v u, Says out name .barrier p v u ∧ (∃ ds, Solution cfg.p ds v) ∧ (p = true → IsOptimum cfg.p v ∧ u = v) := by
  obtain ⟨r, h4, rfl⟩ := Option.map_eq_some_iff.1 h
  unfold Bar.report at h4
  obtain ⟨g, hgap, rfl⟩ := Option.map_eq_some_iff.1 h4
  rcases lock_incumbent_real L hg.base hn hr with ⟨h5, _⟩ | ⟨sol, v, _, h6, h7, ds, _, h8⟩
  · obtain ⟨c, k1, k2⟩ := Fine.reachable_rel L hg.base hn hr
    rcases (Bar.reachable_inv L hg.base hn k1).inc with ⟨_, h2⟩ | ⟨sol, h2, _⟩
    · rw [(gap_overflow (Bar.bestLowerBound cfg s.sys.crit) _).2 (Or.inl (k2.inc.1.symm.trans h2))] at hgap; cases hgap
    · have := k2.inc.2.symm.trans h2
      simp [Bar.bestSolution, this] at h5
  · refine ⟨_, v, _, line_says hna _ _ _ h6 h7 hgap, ⟨ds, h8⟩, fun hp => ?_⟩
    obtain ⟨_, g1, g2⟩ := narrow_barrier_optimal L hg hn h1 hr hf hp
    rcases g2 with ⟨v', _, g3, _, _, g4⟩ | ⟨g3, _⟩
    · rw [h6] at g3; cases g3; exact ⟨g4, g1.trans h7⟩
    · rw [h6] at g3; cases g3

end

section
open Tsptw
variable {I : Tsptw.Inst} {B : Nat} {o : Options} {cpus : Nat} {name out : List Char}

theorem tsptw_narrow_program (hn : 1 ≤ I.n) (hB : Bounded I B) (h00 : I.dist 0 0 = 0) (hw0 : I.earliest 0 ≤ I.latest 0) (hw : 1 ≤ o.width.getD 1) (hu : I.n * o.width.getD 1 < 2 ^ 48)
    (hN : Narrow (problem I) (I.n * o.width.getD 1)) : NarrowCfg (Program.tsptw o cpus I) (layering I B) B (tsptwExact (B := B) I) B :=
  have h := tsptw_narrowCfg hn hB h00 hw0 hw hu hN (o.threads.getD cpus) o.cutset
  ⟨⟨h.base.wf, h.base.lay, h.base.width⟩, h.wf, h.adm, h.narrow⟩

/-- **C105.** The program `tsptw` with a width that is enough: if the line says `Proved`, the best value is that of a shortest tour. -/
theorem tsptw_narrow_prints (hn : 1 ≤ I.n) (hB : Bounded I B) (htri : Triangle I) (h00 : I.dist 0 0 = 0) (hw0 : I.earliest 0 ≤ I.latest 0) (hw : 1 ≤ o.width.getD 1)
    (hu : I.n * o.width.getD 1 < 2 ^ 48) (hN : Narrow (problem I) (I.n * o.width.getD 1)) (h1 : 1 ≤ o.threads.getD cpus) (hna : CellText name)
    (h : Prints (Program.tsptw o cpus I) .parallel name out) :
    ∃ p v u, Says out name .parallel p v u ∧ (∃ l T, Tour I l T ∧ v = -(T : Int)) ∧ (p = true → u = v ∧ ∃ T : Nat, v = -(T : Int) ∧ Shortest I T) := by
  obtain ⟨p, v, u, g1, ⟨ds, g2⟩, g3⟩ := narrow_prints (cfg := Program.tsptw o cpus I) (noDup_laws (rank := Tsptw.rank)) (tsptw_narrow_program hn hB h00 hw0 hw hu hN) (Nat.le_refl _) h1 hna h
  obtain ⟨l, T, k1, _, k3⟩ := tsptw_solution_is_tour hn g2
  exact ⟨p, v, u, g1, ⟨l, T, k1, k3⟩, fun hp => ⟨(g3 hp).2, (tsptw_optimum_partial hn htri v).1 (g3 hp).1⟩⟩

/-! ### The file `resources/tsptw/SolomonPotvinBengio/rc_206.1.txt` -/

/-- The file -/
def rc206Text : List Char := ("4\n0 43.0116 36.0555 33.541\n53.0116 10 17.0711 21.1803\n46.0555 17.0711 10 15\n43.541 21.1803 15 10\n" ++
  "0         960      \n43        283      \n36        276      \n33        273      \n").toList

/-- The instance that is read from it -/
def rc206 : Tsptw.Inst := (Read.tsptw (lines rc206Text)).getD ⟨0, fun _ _ => 0, fun _ => 0, fun _ => 0⟩

/-- **C105.** The program can read the file, and all numbers are read as they are written, in units of a ten-thousandth: nothing gets lost in `f32`. -/
theorem rc206_read : Bytes.tsptw (encode rc206Text) = some rc206 ∧ rc206.n = 4 ∧
    ((List.range 4).map fun i => (List.range 4).map (rc206.dist i)) =
      [[0, 430116, 360555, 335410], [530116, 100000, 170711, 211803], [460555, 170711, 100000, 150000], [435410, 211803, 150000, 100000]] ∧
    ((List.range 4).map fun i => (rc206.earliest i, rc206.latest i)) = [(0, 9600000), (430000, 2830000), (360000, 2760000), (330000, 2730000)] := by
  refine ⟨tsptw_bytes.2 ⟨_, rfl, ?_⟩, by decide +kernel, by decide +kernel, by decide +kernel⟩
  have h : (Read.tsptw (lines rc206Text)).isSome = true := by decide +kernel
  obtain ⟨I, hI⟩ := Option.isSome_iff_exists.1 h
  unfold rc206
  rw [hI]; rfl

theorem drive_complete {l : List Nat} {t i T : Nat} (h : Drive I t i l T) : drive I t i l = some T := by
  induction h with
  | stop => rfl
  | go h _ ih => unfold drive; rw [if_pos h]; exact ih

/-- **C105.** The shortest tour takes 117.8479. -/
theorem rc206_shortest : Shortest rc206 1178479 := by
  refine ⟨⟨[2, 1, 3], tourB_spec (by decide +kernel)⟩, fun l T h => ?_⟩
  have h1 : l ∈ List.permutations' [1, 2, 3] := by
    rw [List.mem_permutations']
    have := h.1
    rw [rc206_read.2.1] at this
    exact this
  have h2 : ((List.permutations' [1, 2, 3]).all fun l => match drive rc206 0 0 (l ++ [0]) with | some T => decide (1178479 ≤ T) | none => true) = true := by decide +kernel
  have h3 := List.all_eq_true.1 h2 l h1
  rw [drive_complete h.2] at h3
  simpa using h3

theorem rc206_conditions : Bounded rc206 10000000 ∧ Triangle rc206 ∧ rc206.dist 0 0 = 0 ∧ rc206.earliest 0 ≤ rc206.latest 0 ∧ Narrow (problem rc206) 8 :=
  ⟨boundedB_spec (by decide +kernel), triangleB_spec (by decide +kernel), by decide +kernel, by decide +kernel, Verif.Inst.narrowB_spec (by decide +kernel)⟩

theorem shortest_unique {T T' : Nat} (h : Shortest I T) (h' : Shortest I T') : T = T' := by
  obtain ⟨l, hl⟩ := h.1
  obtain ⟨l', hl'⟩ := h'.1
  exact Nat.le_antisymm (h.2 _ _ hl') (h'.2 _ _ hl)

/-- The line says that the best value is that of a tour; if it also says `Proved`, this value, and the upper bound as well, is that of the shortest one. -/
def SaysRc206 (out : List Char) (solver : SolverType) : Prop :=
  ∃ p v u, Says out "rc_206.1".toList solver p v u ∧ (∃ l T, Tour rc206 l T ∧ v = -(T : Int)) ∧ (p = true → v = -1178479 ∧ u = -1178479)

theorem rc206_name : runName "resources/tsptw/SolomonPotvinBengio/rc_206.1.txt".toList = "rc_206.1".toList := by decide +kernel

theorem rc206_cell : CellText "rc_206.1".toList := plain_cell (by decide)

theorem rc206_cfg {o : Options} {cpus : Nat} (hw : 2 ≤ o.width.getD 1) (hu : o.width.getD 1 < 2 ^ 46) :
    NarrowCfg (Program.tsptw o cpus rc206) (layering rc206 10000000) 10000000 (tsptwExact (B := 10000000) rc206) 10000000 := by
  obtain ⟨h1, _, h3, h4, h5⟩ := rc206_conditions
  have e : rc206.n = 4 := rc206_read.2.1
  exact tsptw_narrow_program (by omega) h1 h3 h4 (by omega) (by rw [e]; omega) (Narrow.mono h5 (by rw [e]; omega))

/-- **C105.** For this file and `--width 2` or more, with any number of threads and any cutset: a line that says `Proved` gives 117.8479, for the solver without barriers... -/
theorem rc206_prints {o : Options} {cpus : Nat} (hw : 2 ≤ o.width.getD 1) (hu : o.width.getD 1 < 2 ^ 46) (h1 : 1 ≤ o.threads.getD cpus) {out : List Char}
    (h : Prints (Program.tsptw o cpus rc206) .parallel (runName "resources/tsptw/SolomonPotvinBengio/rc_206.1.txt".toList) out) : SaysRc206 out .parallel := by
  rw [rc206_name] at h
  have hn : 1 ≤ rc206.n := by rw [rc206_read.2.1]; decide
  obtain ⟨p, v, u, g1, ⟨ds, g2⟩, g3⟩ := narrow_prints (cfg := Program.tsptw o cpus rc206) (noDup_laws (rank := Tsptw.rank)) (rc206_cfg hw hu) (Nat.le_refl _) h1 rc206_cell h
  obtain ⟨l, T, k1, _, k3⟩ := tsptw_solution_is_tour hn g2
  refine ⟨p, v, u, g1, ⟨l, T, k1, k3⟩, fun hp => ?_⟩
  obtain ⟨T, e, hT⟩ := (tsptw_optimum_partial hn rc206_conditions.2.1 v).1 (g3 hp).1
  have := shortest_unique hT rc206_shortest
  have := (g3 hp).2
  omega

/-- **C105.** ...and for the one with barriers. -/
theorem rc206_barrier_prints {o : Options} {cpus : Nat} (hw : 2 ≤ o.width.getD 1) (hu : o.width.getD 1 < 2 ^ 46) (h1 : 1 ≤ o.threads.getD cpus) {out : List Char}
    {s : FSys State (Program.tsptw o cpus rc206).fr.F} (hr : FReachable (Program.tsptw o cpus rc206) s) (hf : FFinished s) {time ram : Nat × Nat}
    (h : barrierLine (Program.tsptw o cpus rc206) (runName "resources/tsptw/SolomonPotvinBengio/rc_206.1.txt".toList) time ram s.sys = some out) : SaysRc206 out .barrier := by
  rw [rc206_name] at h
  have hn : 1 ≤ rc206.n := by rw [rc206_read.2.1]; decide
  obtain ⟨p, v, u, g1, ⟨ds, g2⟩, g3⟩ :=
    narrow_barrier_prints (cfg := Program.tsptw o cpus rc206) (noDup_laws (rank := Tsptw.rank)) (rc206_cfg hw hu) (Nat.le_refl _) h1 rc206_cell hr hf h
  obtain ⟨l, T, k1, _, k3⟩ := tsptw_solution_is_tour hn g2
  refine ⟨p, v, u, g1, ⟨l, T, k1, k3⟩, fun hp => ?_⟩
  obtain ⟨T, e, hT⟩ := (tsptw_optimum_partial hn rc206_conditions.2.1 v).1 (g3 hp).1
  have := shortest_unique hT rc206_shortest
  have := (g3 hp).2
  omega

/-- What is printed with one thread, `--width 2` and the cutset `frontier` if the run took an eighth of a second. -/
example : Prints (Program.tsptw ⟨[], some 2, 60, some 1, .parallel, .frontier⟩ 1 rc206) .parallel (runName "resources/tsptw/SolomonPotvinBengio/rc_206.1.txt".toList)
    "                      rc_206.1 | parallel | Proved |     0.12 |     2.12 |        -1178479 |        -1178479 |        -1178479 | 0.0000 |               1 |              16".toList := by
  obtain ⟨s, h1, h2⟩ := Verif.Inst.test_spec (cfg := Program.tsptw ⟨[], some 2, 60, some 1, .parallel, .frontier⟩ 1 rc206) (l := List.replicate 5 (0, false))
    (f := fun s => Verif.Inst.allDone s && (parallelLine _ (runName "resources/tsptw/SolomonPotvinBengio/rc_206.1.txt".toList) (1, 8) (17, 8) s == some
    "                      rc_206.1 | parallel | Proved |     0.12 |     2.12 |        -1178479 |        -1178479 |        -1178479 | 0.0000 |               1 |              16".toList)) (by decide +kernel)
  rw [Bool.and_eq_true, beq_iff_eq] at h2
  exact ⟨s, (1, 8), (17, 8), h1, Verif.Inst.allDone_spec h2.1, h2.2⟩

end

section
open Srflp

/-! ### The file `resources/srflp/Cl5` -/

/-- The file -/
def cl5Text : List Char := "5\n40,20,50,30,10\n0,5,2,4,1\n5,0,3,0,2\n2,3,0,0,0\n4,0,0,0,5\n1,2,0,5,0\n".toList

/-- The instance that is read from it -/
def cl5 : Srflp.Inst := (Read.srflp (lines cl5Text)).getD ⟨0, fun _ => 0, fun _ _ => 0⟩

/-- **C105.** The program can read the file, with these numbers. -/
theorem cl5_read : Bytes.srflp (encode cl5Text) = some cl5 ∧ cl5.n = 5 ∧ (List.range 5).map cl5.len = [40, 20, 50, 30, 10] ∧
    ((List.range 5).map fun i => (List.range 5).map (cl5.flow i)) = [[0, 5, 2, 4, 1], [5, 0, 3, 0, 2], [2, 3, 0, 0, 0], [4, 0, 0, 0, 5], [1, 2, 0, 5, 0]] := by
  refine ⟨srflp_bytes.2 ⟨_, rfl, ?_⟩, by decide +kernel, by decide +kernel, by decide +kernel⟩
  have h : (Read.srflp (lines cl5Text)).isSome = true := by decide +kernel
  obtain ⟨I, hI⟩ := Option.isSome_iff_exists.1 h
  unfold cl5
  rw [hI]; rfl

/-- **C105.** A cheapest layout costs 800, of which 640 are the same for all layouts. -/
theorem cl5_cheapest : Cheapest2 cl5 1600 ∧ fixed2 cl5 = 1280 := by
  refine ⟨⟨⟨[3, 4, 0, 1, 2], ?_, by decide +kernel⟩, fun l h => ?_⟩, by decide +kernel⟩
  · unfold Layout; rw [cl5_read.2.1]; decide
  · have h1 : l ∈ List.permutations' (List.range 5) := by
      rw [List.mem_permutations']
      have := h
      unfold Layout at this
      rw [cl5_read.2.1] at this
      exact this
    have h2 : ((List.permutations' (List.range 5)).all fun l => decide (1600 ≤ cost2 cl5 l)) = true := by decide +kernel
    simpa using List.all_eq_true.1 h2 l h1

theorem cl5_conditions : Bounded cl5 5 50 ∧ Symmetric cl5 ∧ Flows cl5 ∧ Lengths cl5 ∧ Precise cl5 5 50 :=
  ⟨boundedB_spec (by decide +kernel), symmetricB_spec (by decide +kernel), flowsB_spec (by decide +kernel), lengthsB_spec (by decide +kernel), by unfold Precise; decide +kernel⟩

theorem cl5_name : runName "resources/srflp/Cl5".toList = "Cl5".toList := by decide +kernel

theorem cl5_cell : CellText "Cl5".toList := plain_cell (by decide)

theorem cl5_optimum {v : Int} (h : IsOptimum (problem cl5) v) : v = -160 := by
  obtain ⟨h1, h2, _, h4, _⟩ := cl5_conditions
  have := (srflp_optimum h1 h4 h2 v).1 h
  obtain ⟨l, k1, k2⟩ := this.1
  obtain ⟨l', k1', k2'⟩ := cl5_cheapest.1.1
  have := this.2 l' k1'
  have := cl5_cheapest.1.2 l k1
  have := cl5_cheapest.2
  omega

/-- The line says that the best value is that of a layout; if it also says `Proved`, this value, and the upper bound as well, is that of a cheapest one: 160 above the part that is the same for all. -/
def SaysCl5 (out : List Char) (solver : SolverType) : Prop :=
  ∃ p v u, Says out "Cl5".toList solver p v u ∧ (∃ l, Layout cl5 l ∧ cost2 cl5 l = fixed2 cl5 - 2 * v) ∧ (p = true → v = -160 ∧ u = -160)

theorem cl5_says {out : List Char} {solver : SolverType} (h : ∃ p v u, Says out "Cl5".toList solver p v u ∧ (∃ ds, Solution (problem cl5) ds v) ∧ (p = true → IsOptimum (problem cl5) v ∧ u = v)) :
    SaysCl5 out solver := by
  obtain ⟨p, v, u, g1, ⟨ds, g2⟩, g3⟩ := h
  obtain ⟨h1, h2, _, h4, _⟩ := cl5_conditions
  obtain ⟨l, k1, _, k3⟩ := (srflp_solution_iff_layout h1 h4 h2 _ _).1 g2
  refine ⟨p, v, u, g1, ⟨l, k1, by omega⟩, fun hp => ?_⟩
  have := cl5_optimum (g3 hp).1
  have := (g3 hp).2
  omega

/-- **C105.** For this file, the solver without barriers and the cutset `lel`, any number of threads and any width that is not 0 in `usize` will do. -/
theorem cl5_prints {o : Options} {cpus : Nat} (hc : o.cutset = .lastExactLayer) (hw : 5 * o.width.getD 1 % 2 ^ 64 ≠ 0) (h1 : 1 ≤ o.threads.getD cpus) {out : List Char}
    (h : Prints (Program.srflp o cpus cl5) .parallel (runName "resources/srflp/Cl5".toList) out) : SaysCl5 out .parallel := by
  rw [cl5_name] at h
  obtain ⟨g1, g2, g3, g4, g5⟩ := cl5_conditions
  have hg := srflp_good g1 g2 g3 g4 g5 (w := o.width.getD 1) (by rw [cl5_read.2.1]; exact hw) (o.threads.getD cpus) .lastExactLayer
  have e : Program.srflp o cpus cl5 = cfgOf cl5 (o.width.getD 1) (o.threads.getD cpus) .lastExactLayer := by simp only [Program.srflp, cfgOf, hc]
  rw [e] at h
  obtain ⟨p, v, u, k1, k2, k3, _⟩ := prints_optimum (cfg := cfgOf cl5 (o.width.getD 1) (o.threads.getD cpus) .lastExactLayer) (laws _ _ _ _) hg (Or.inl rfl) (Nat.le_refl _) h1 (by simp) cl5_cell h
  exact cl5_says ⟨p, v, u, k1, k2, k3⟩

theorem cl5_cfg {o : Options} {cpus : Nat} (hw : 2 ≤ o.width.getD 1) (hu : o.width.getD 1 < 2 ^ 61) :
    NarrowCfg (Program.srflp o cpus cl5) (layeringPos cl5 5) (costMax cl5 5 50) (layeringPos cl5 5) (costMax cl5 5 50) := by
  obtain ⟨g1, g2, g3, g4, g5⟩ := cl5_conditions
  have e : cl5.n = 5 := cl5_read.2.1
  have e2 : cl5.n * o.width.getD 1 % 2 ^ 64 = 5 * o.width.getD 1 := by rw [e]; exact Nat.mod_eq_of_lt (by omega)
  have hg := srflp_good g1 g2 g3 g4 g5 (w := o.width.getD 1) (by rw [e2]; omega) (o.threads.getD cpus) o.cutset
  refine ⟨hg.base, hg.wf, hg.adm, Narrow.mono (srflp_enough_width cl5) ?_⟩
  show _ ≤ cl5.n * o.width.getD 1 % 2 ^ 64
  rw [e2, e]
  show 10 ≤ _
  omega

/-- **C105.** With `--width 2` or more the same holds for every cutset... -/
theorem cl5_wide_prints {o : Options} {cpus : Nat} (hw : 2 ≤ o.width.getD 1) (hu : o.width.getD 1 < 2 ^ 61) (h1 : 1 ≤ o.threads.getD cpus) {out : List Char}
    (h : Prints (Program.srflp o cpus cl5) .parallel (runName "resources/srflp/Cl5".toList) out) : SaysCl5 out .parallel := by
  rw [cl5_name] at h
  exact cl5_says (narrow_prints (cfg := Program.srflp o cpus cl5) (noDup_laws (rank := Srflp.rank)) (cl5_cfg hw hu) (Nat.le_refl _) h1 cl5_cell h)

/-- **C105.** ...and for the solver with barriers, also if there are several threads. -/
theorem cl5_barrier_prints {o : Options} {cpus : Nat} (hw : 2 ≤ o.width.getD 1) (hu : o.width.getD 1 < 2 ^ 61) (h1 : 1 ≤ o.threads.getD cpus) {out : List Char}
    {s : FSys State (Program.srflp o cpus cl5).fr.F} (hr : FReachable (Program.srflp o cpus cl5) s) (hf : FFinished s) {time ram : Nat × Nat}
    (h : barrierLine (Program.srflp o cpus cl5) (runName "resources/srflp/Cl5".toList) time ram s.sys = some out) : SaysCl5 out .barrier := by
  rw [cl5_name] at h
  exact cl5_says (narrow_barrier_prints (cfg := Program.srflp o cpus cl5) (noDup_laws (rank := Srflp.rank)) (cl5_cfg hw hu) (Nat.le_refl _) h1 cl5_cell hr hf h)

/-- What is printed with one thread and the default width, for which the first diagram is not exact. -/
example : Prints (Program.srflp ⟨[], none, 60, some 1, .parallel, .lastExactLayer⟩ 1 cl5) .parallel (runName "resources/srflp/Cl5".toList)
    "                           Cl5 | parallel | Proved |     0.12 |     2.12 |            -160 |            -160 |            -160 | 0.0000 |               1 |              26".toList := by
  obtain ⟨s, h1, h2⟩ := Verif.Inst.test_spec (cfg := Program.srflp ⟨[], none, 60, some 1, .parallel, .lastExactLayer⟩ 1 cl5) (l := List.replicate 7 (0, false))
    (f := fun s => Verif.Inst.allDone s && (parallelLine _ (runName "resources/srflp/Cl5".toList) (1, 8) (17, 8) s == some
    "                           Cl5 | parallel | Proved |     0.12 |     2.12 |            -160 |            -160 |            -160 | 0.0000 |               1 |              26".toList)) (by decide +kernel)
  rw [Bool.and_eq_true, beq_iff_eq] at h2
  exact ⟨s, (1, 8), (17, 8), h1, Verif.Inst.allDone_spec h2.1, h2.2⟩

end

end Verif.Props
