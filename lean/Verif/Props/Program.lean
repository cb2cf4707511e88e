import Verif.Proofs.Program
import Verif.Props.Lines
import Verif.Props.Names
import Verif.Props.Print
/-! C99: from the arguments and the file to the printed line. -/
set_option autoImplicit false

namespace Verif.Props
open Verif Spec Text Print F32 Program Files

/-! ### The name of the run -/

/-- **C99.** A run is listed under the name of its file, without directories and extension... -/
theorem run_name {path f w : List Char} (h : Names path f) (hw : IsStem f w) : runName path = w := by
  unfold runName
  rw [fileName_iff.2 h]
  exact stem_iff.2 hw

/-- **C99.** ...or as unknown if the path does not name a file. -/
theorem run_name_unknown {path : List Char} (h : ∀ f, ¬ Names path f) : runName path = "-- unknown --".toList := by
  unfold runName
  cases hf : fileName path with
  | none => rfl
  | some f => exact absurd (fileName_iff.1 hf) (h f)

/-- A path names at most one file, and a name has exactly one stem. -/
theorem run_name_unique {path f f' : List Char} (h : Names path f) (h' : Names path f') : f = f' ∧ ∃ w, IsStem f w ∧ ∀ w', IsStem f w' → w' = w := by
  have := (fileName_iff.2 h).symm.trans (fileName_iff.2 h')
  exact ⟨Option.some.inj this, _, stem_is f, fun w' hw' => stem_unique hw' (stem_is f)⟩

example : runName "data/Cl5.v2.txt".toList = "Cl5.v2".toList ∧ runName "/a/b.d//./".toList = "b".toList ∧ runName ".hidden".toList = ".hidden".toList ∧ runName "..".toList = "-- unknown --".toList ∧
    runName "a/..".toList = "-- unknown --".toList ∧ runName "/".toList = "-- unknown --".toList ∧ runName "x.".toList = "x".toList ∧ runName "..a".toList = ".".toList := by decide +kernel

example : Names "data/Cl5.v2.txt".toList "Cl5.v2.txt".toList ∧ IsStem "Cl5.v2.txt".toList "Cl5.v2".toList ∧ Names "/a/b.d//./".toList "b.d".toList ∧ ¬ ∃ f, Names "a/..".toList f :=
  ⟨fileName_iff.1 (by decide +kernel), stem_iff.1 (by decide +kernel), fileName_iff.1 (by decide +kernel), fun ⟨f, h⟩ => by
    have := fileName_iff.2 h
    rw [show fileName "a/..".toList = none by decide +kernel] at this
    cases this⟩

/-! ### The options -/

theorem solver_word {l : List Char} {s : SolverType} : SolverType.fromStr (String.ofList l) = some s ↔ l = solverWord s := by
  unfold SolverType.fromStr
  constructor
  · intro h
    split at h
    · rename_i e
      cases h
      rw [← String.toList_ofList (l := l), e]; rfl
    · split at h
      · rename_i e
        cases h
        rw [← String.toList_ofList (l := l), e]; rfl
      · cases h
  · rintro rfl
    cases s <;> decide

theorem cutset_word {l : List Char} {s : CutsetType} : CutsetType.fromStr (String.ofList l) = some s ↔ l = cutsetWord s := by
  unfold CutsetType.fromStr
  constructor
  · intro h
    split at h
    · rename_i e
      cases h
      rw [← String.toList_ofList (l := l), e]; rfl
    · split at h
      · rename_i e
        cases h
        rw [← String.toList_ofList (l := l), e]; rfl
      · cases h
  · rintro rfl
    cases s <;> decide

/-- **C99.** The arguments are accepted exactly if a file is given and all that is given is well-formed; without a value the time is 60 seconds, the solver `parallel` and the cutset `lel`. -/
theorem options_iff {value : Key → Option (List Char)} {o : Options} :
    options value = some o ↔ value .file = some o.file ∧ Given (value .width) o.width ∧ Given (value .threads) o.threads ∧
      ((value .timeout = none ∧ o.timeout = 60) ∨ ∃ w, value .timeout = some w ∧ Unsigned w o.timeout ∧ o.timeout ≤ usizeMax) ∧
      ((value .solver = none ∧ o.solver = .parallel) ∨ value .solver = some (solverWord o.solver)) ∧
      ((value .cutset = none ∧ o.cutset = .lastExactLayer) ∨ value .cutset = some (cutsetWord o.cutset)) := by
  have e1 : (parseNat usizeMax ((value .timeout).getD "60".toList) = some o.timeout) ↔
      ((value .timeout = none ∧ o.timeout = 60) ∨ ∃ w, value .timeout = some w ∧ Unsigned w o.timeout ∧ o.timeout ≤ usizeMax) := by
    cases value .timeout with
    | none =>
      rw [Option.getD_none, show parseNat usizeMax "60".toList = some 60 by decide +kernel]
      constructor
      · intro h; exact Or.inl ⟨rfl, (Option.some.inj h).symm⟩
      · rintro (⟨_, h⟩ | ⟨_, h, _⟩)
        · rw [h]
        · cases h
    | some w =>
      rw [Option.getD_some, parseNat_iff]
      constructor
      · intro h; exact Or.inr ⟨w, rfl, h⟩
      · rintro (⟨h, _⟩ | ⟨_, h, h'⟩)
        · cases h
        · cases h; exact h'
  have e2 : SolverType.fromStr (String.ofList ((value .solver).getD "parallel".toList)) = some o.solver ↔
      ((value .solver = none ∧ o.solver = .parallel) ∨ value .solver = some (solverWord o.solver)) := by
    rw [solver_word]
    cases value .solver with
    | none => cases o.solver <;> decide
    | some w => simp
  have e3 : CutsetType.fromStr (String.ofList ((value .cutset).getD "lel".toList)) = some o.cutset ↔
      ((value .cutset = none ∧ o.cutset = .lastExactLayer) ∨ value .cutset = some (cutsetWord o.cutset)) := by
    rw [cutset_word]
    cases value .cutset with
    | none => cases o.cutset <;> decide
    | some w => simp
  rw [← e1, ← e2, ← e3, ← optional_iff, ← optional_iff]
  unfold options
  constructor
  · intro h
    split at h
    · rename_i g1 g2 g3 g4 g5 g6
      cases h
      exact ⟨g1, g2, g4, g3, g5, g6⟩
    · cases h
  · rintro ⟨g1, g2, g4, g3, g5, g6⟩
    rw [g1, g2, g3, g4, g5, g6]

example : options (fun k => if k = .file then some "a.txt".toList else none) = some ⟨"a.txt".toList, none, 60, none, .parallel, .lastExactLayer⟩ ∧
    options (fun _ => none) = none ∧
    options (fun k => match k with | .file => some "a".toList | .width => some "10".toList | .timeout => some "5".toList | .threads => some "2".toList | .solver => some "barrier".toList | .cutset => some "frontier".toList) =
      some ⟨"a".toList, some 10, 5, some 2, .barrier, .frontier⟩ ∧
    options (fun k => match k with | .file => some "a".toList | .width => some "-1".toList | _ => none) = none := by decide +kernel

/-! ### The printed line -/

/-- **C99.** What a line says is unambiguous. -/
theorem says_unique {out name name' : List Char} {solver solver' : SolverType} {p p' : Bool} {v v' u u' : Int} (h : Says out name solver p v u) (h' : Says out name' solver' p' v' u') :
    name = name' ∧ solver = solver' ∧ p = p' ∧ v = v' ∧ u = u' := by
  obtain ⟨_, _, _, _, _, _, _, _, h1, h2, _, h4, _⟩ := h
  obtain ⟨_, _, _, _, _, _, _, _, g1, g2, _, g4, _⟩ := h'
  have := cells_unique h1 g1
  simp only [List.cons.injEq, and_true] at this
  obtain ⟨e1, e2, e3, _, _, e4, _, e6, _⟩ := this
  subst e4 e6
  refine ⟨e1, ?_, ?_, signed_unique h2 g2, signed_unique h4 g4⟩
  · cases solver <;> cases solver' <;> first | rfl | exact absurd e2 (by decide)
  · cases p <;> cases p' <;> first | rfl | exact absurd e3 (by decide)

theorem line_says {name : List Char} (hna : CellText name) (solver : SolverType) (time ram : Nat × Nat) {r : Report} {v : Int} (hb : r.best = some v) (hlb : r.lb = v) (hg : gap r.lb r.ub = some r.gap) :
    Says (line name solver time ram r) name solver r.proved v r.ub := by
  have h := line_cells hna solver time ram r
  rw [hb, hlb] at h
  have e : showStatus r.proved = if r.proved then "Proved".toList else "Timeout".toList := by unfold showStatus; cases r.proved <;> rfl
  have e' : solver.fmt.toList = solverWord solver := by cases solver <;> rfl
  rw [e, e'] at h
  refine ⟨_, _, _, _, _, _, _, _, h, showInt_signed v, showInt_signed v, showInt_signed r.ub, ?_⟩
  · intro e h0
    rw [e, hlb] at hg
    have : v ≠ isizeMin := fun h => by rw [(gap_overflow _ _).2 (Or.inl h)] at hg; cases hg
    rw [gap_eq this this] at hg
    have e : (max v.natAbs v.natAbs - min v.natAbs v.natAbs : Nat) = 0 := by omega
    have h0 : ((max v.natAbs v.natAbs : Nat) : Int) ≠ 0 := by omega
    rw [e] at hg
    unfold ratio at hg
    rw [if_neg h0, if_pos (by rfl)] at hg
    rw [← Option.some.inj hg]
    decide +kernel

variable {σ : Type} [DecidableEq σ] [Inhabited σ] {cfg : SolverCfg σ} {S : Layering σ} {B : Int} {solver : SolverType} {name out : List Char}

/-- **C99.** Whatever is printed, at any time and with any options, the best value is that of a solution. -/
theorem prints_real (L : FrontierLaws cfg.fr) (hg : BaseCfg cfg S B) (hn : cfg.nbThreads ≤ cfg.custom) (hna : CellText name) (h : Prints cfg solver name out) :
    ∃ p v u, Says out name solver p v u ∧ ∃ ds, Solution cfg.p ds v := by
  cases solver with
  | parallel =>
    obtain ⟨s, time, ram, h1, _, h3⟩ := h
    obtain ⟨r, h4, rfl⟩ := Option.map_eq_some_iff.1 h3
    rcases incumbent_real L hg hn h1 with ⟨_, h5⟩ | ⟨sol, v, _, h6, h7, ds, _, h8⟩
    · rw [report_none_panics L hg hn h1 h5] at h4; cases h4
    · unfold Par.report at h4
      obtain ⟨g, hg, rfl⟩ := Option.map_eq_some_iff.1 h4
      exact ⟨_, v, _, line_says hna _ _ _ h6 h7 hg, ds, h8⟩
  | barrier =>
    obtain ⟨s, time, ram, h1, _, _, h3⟩ := h
    obtain ⟨r, h4, rfl⟩ := Option.map_eq_some_iff.1 h3
    unfold Bar.report at h4
    obtain ⟨g, hgap, rfl⟩ := Option.map_eq_some_iff.1 h4
    rcases barrier_incumbent_real L hg hn h1 with ⟨_, h5⟩ | ⟨sol, v, _, h6, h7, ds, _, h8⟩
    · rcases (Bar.reachable_inv L hg hn h1).inc with ⟨_, h2⟩ | ⟨sol, h1, _⟩
      · rw [(gap_overflow (Bar.bestLowerBound cfg s.crit) _).2 (Or.inl h2)] at hgap; cases hgap
      · simp [Bar.bestValue, h1] at h5
    · exact ⟨_, v, _, line_says hna _ _ _ h6 h7 hgap, ds, h8⟩

/-- **C99.** With a sound relaxation and a cutset that covers all solutions, with at least one thread, and exactly one if the solver uses a barrier: if `Proved` is printed, the best value is the optimum, and equal to both
bounds; if `Timeout` is printed, and there is one thread, no solution is better than the larger of the two bounds. -/
theorem prints_optimum (L : FrontierLaws cfg.fr) (hg : GoodCfg cfg S B) (hc : CutOK cfg S) (hn : cfg.nbThreads ≤ cfg.custom) (h1 : 1 ≤ cfg.nbThreads) (hb : solver = .barrier → cfg.nbThreads = 1)
    (hna : CellText name) (h : Prints cfg solver name out) :
    ∃ p v u, Says out name solver p v u ∧ (∃ ds, Solution cfg.p ds v) ∧ (p = true → IsOptimum cfg.p v ∧ u = v) ∧
      (p = false → cfg.nbThreads = 1 → ∀ ds w, Solution cfg.p ds w → w ≤ max v u) := by
  cases solver with
  | parallel =>
    obtain ⟨s, time, ram, hr, hf, h3⟩ := h
    obtain ⟨r, h4, rfl⟩ := Option.map_eq_some_iff.1 h3
    rcases incumbent_real L hg.base hn hr with ⟨_, h5⟩ | ⟨sol, v, _, h6, h7, ds, _, h8⟩
    · rw [report_none_panics L hg.base hn hr h5] at h4; cases h4
    · unfold Par.report at h4
      obtain ⟨g, hgap, rfl⟩ := Option.map_eq_some_iff.1 h4
      refine ⟨_, v, _, line_says hna _ _ _ h6 h7 hgap, ⟨ds, h8⟩, fun hp => ?_, fun hp ht ds w hs => ?_⟩
      · obtain ⟨g1, g2⟩ := finished_optimal L hg hc hn h1 hr hf hp
        rcases g2 with ⟨v', _, g3, _, _, g4, _⟩ | ⟨g3, _⟩
        · rw [h6] at g3; cases g3; exact ⟨g4, g1.trans h7⟩
        · rw [h6] at g3; cases g3
      · rw [← h7]; exact (interrupted_bounds_partial L hg hc hn ht hr hp).1 ds w hs
  | barrier =>
    obtain ⟨s, time, ram, hr, hs, hf, h3⟩ := h
    obtain ⟨r, h4, rfl⟩ := Option.map_eq_some_iff.1 h3
    unfold Bar.report at h4
    obtain ⟨g, hgap, rfl⟩ := Option.map_eq_some_iff.1 h4
    rcases barrier_incumbent_real L hg.base hn hr with ⟨_, h5⟩ | ⟨sol, v, _, h6, h7, ds, _, h8⟩
    · rcases (Bar.reachable_inv L hg.base hn hr).inc with ⟨_, h2⟩ | ⟨sol, h1, _⟩
      · rw [(gap_overflow (Bar.bestLowerBound cfg s.crit) _).2 (Or.inl h2)] at hgap; cases hgap
      · simp [Bar.bestValue, h1] at h5
    · have ht := hb rfl
      have hs := hs ht
      refine ⟨_, v, _, line_says hna _ _ _ h6 h7 hgap, ⟨ds, h8⟩, fun hp => ?_, fun hp _ ds w hw => ?_⟩
      · obtain ⟨g1, g2⟩ := barrier_finished L hg hc ht hn (Bar.reachable_inv L hg.base hn hr) (Bar.reachable_single L hg hc ht hn hs) hf hp
        rcases g2 with ⟨v', _, g3, _, _, g4, _⟩ | ⟨g3, _⟩
        · rw [h6] at g3; cases g3; exact ⟨g4, g1.trans h7⟩
        · rw [h6] at g3; cases g3
      · rw [← h7]; exact (barrier_interrupted_bounds_partial L hg hc hn ht hs hp).1 ds w hw

/-- **C99.** Under the same conditions, if there is a solution, a line can be printed, and `Proved` in it. -/
theorem can_print (L : FrontierLaws cfg.fr) (hg : GoodCfg cfg S B) (hc : CutOK cfg S) (hn : cfg.nbThreads ≤ cfg.custom) (h1 : 1 ≤ cfg.nbThreads) (hb : solver = .barrier → cfg.nbThreads = 1)
    (hna : CellText name) (hs : ∃ ds v, Solution cfg.p ds v) : ∃ out v, Prints cfg solver name out ∧ Says out name solver true v v ∧ IsOptimum cfg.p v := by
  cases solver with
  | parallel =>
    obtain ⟨s0, g1, _⟩ := never_panics L hg.base hn
    obtain ⟨ls, s, g2, g3, hf⟩ := can_finish (s := s0) L hg.base hn ⟨s0, [], g1, by simp, rfl⟩
    have hr : ReachableMax cfg s := ⟨s0, ls, g1, fun l hl => (g2 l hl).1, fun l hl i b o e => by
      obtain ⟨_, _, _, h⟩ := g2 l hl
      rw [e] at h; cases h; rfl, g3⟩
    obtain ⟨h2, h3⟩ := finished_optimal L hg hc hn h1 hr.reachable hf (by simp [Par.proved, hr.noint])
    rcases h3 with ⟨v, _, h4, _, _, h5, h6⟩ | ⟨_, _, h5⟩
    · obtain ⟨r, e1, e2, e3, e4, e5, _⟩ := report_optimum_partial L hg hc hn h1 hr hf h5
      have hgap : gap r.lb r.ub = some r.gap := by
        have e := e1
        unfold Par.report at e
        obtain ⟨g, hg, rfl⟩ := Option.map_eq_some_iff.1 e
        exact hg
      refine ⟨line name .parallel (0, 1) (0, 1) r, v, ⟨s, (0, 1), (0, 1), hr.reachable, hf, by unfold parallelLine; rw [e1]; rfl⟩, ?_, h5⟩
      have := line_says hna .parallel (0, 1) (0, 1) e3 e4 hgap
      rwa [e2, e5] at this
    · obtain ⟨ds, v, h⟩ := hs; exact absurd h (h5 ds v)
  | barrier =>
    have ht := hb rfl
    obtain ⟨s0, g1, _⟩ := barrier_never_panics L hg.base hn
    obtain ⟨ls, s, g2, g3, hf⟩ := barrier_can_finish (s := s0) L hg.base hn ⟨s0, [], g1, by simp, rfl⟩
    have hr : SharpReachableMax cfg s := ⟨s0, ls, g1, fun l hl => by
      obtain ⟨hv, i, o, rfl⟩ := g2 l hl
      exact ⟨hv, rfl, rfl⟩, g3⟩
    have hp : Bar.proved cfg s.crit = true := by simp [Bar.proved, hr.noint]
    obtain ⟨h2, h3⟩ := barrier_finished L hg hc ht hn (Bar.reachable_inv L hg.base hn hr.sharp.reachable) (Bar.reachable_single L hg hc ht hn hr.sharp) hf hp
    rcases h3 with ⟨v, _, h4, _, _, h5, h6⟩ | ⟨_, _, h5⟩
    · obtain ⟨r, e1, e2, e3, e4, e5, _⟩ := barrier_report_optimum_partial L hg hc ht hn hr.sharp hf hp h5
      have hgap : gap r.lb r.ub = some r.gap := by
        have e := e1
        unfold Bar.report at e
        obtain ⟨g, hg, rfl⟩ := Option.map_eq_some_iff.1 e
        exact hg
      refine ⟨line name .barrier (0, 1) (0, 1) r, v, ⟨s, (0, 1), (0, 1), hr.sharp.reachable, fun _ => hr.sharp, hf, by unfold barrierLine; rw [e1]; rfl⟩, ?_, h5⟩
      have := line_says hna .barrier (0, 1) (0, 1) e3 e4 hgap
      rwa [e2, e5] at this
    · obtain ⟨ds, v, h⟩ := hs; exact absurd h (h5 ds v)

/-! ### The three programs -/

/-- **C99 (partial).** The program `srflp` on a text with a well-formed file whose numbers are not negative and small enough, with the cutset `lel`, any width that is not 0 in `usize` (`hw`), and any number of threads but 0 (one, if the solver is
`barrier`): a line is printed under the name of the file; its best value is that of a layout (twice the cost of the layout is `fixed2 I - 2 * v`), and if it says `Proved` then this is a cheapest layout.
Missing: the cutset `frontier`, larger numbers, and several threads with a barrier, for which it is false (C72, C43). -/
theorem srflp_prints_partial {t path f w : List Char} {ls : List (List Char)} {lens : List Int} {flows : List (List Int)} (ht : LinesOf t ls) (hfile : SrflpFile ls lens flows)
    (hpath : Names path f) (hstem : IsStem f w) (hname : CellText w) {F L : Nat} (hlen : ∀ z ∈ lens, 0 ≤ z ∧ z ≤ L) (hflow : ∀ r ∈ flows, ∀ z ∈ r, 0 ≤ z ∧ z ≤ F)
    (hsmall : 4 * (lens.length + 2) * (lens.length * lens.length * (2 * F) * (L + 1)) ≤ 2 ^ 63 - 1) (hprec : lens.length * (2 * F) * L < 2 ^ 23)
    {o : Options} (hc : o.cutset = .lastExactLayer) (hw : lens.length * o.width.getD 1 % 2 ^ 64 ≠ 0) {cpus : Nat} (hn : 1 ≤ o.threads.getD cpus) (hb : o.solver = .barrier → o.threads.getD cpus = 1) :
    ∃ I, Read.srflp (lines t) = some I ∧ (∃ out, Prints (Program.srflp o cpus I) o.solver (runName path) out) ∧
      ∀ out, Prints (Program.srflp o cpus I) o.solver (runName path) out → ∃ p v u, Says out w o.solver p v u ∧ (∃ l, Srflp.Layout I l ∧ Srflp.cost2 I l = Srflp.fixed2 I - 2 * v) ∧
        (p = true → Srflp.Cheapest2 I (Srflp.fixed2 I - 2 * v) ∧ u = v) := by
  rw [run_name hpath hstem, lines_of ht]
  obtain ⟨I, h1, h2, h3, h4, h5, h6, h7⟩ := srflp_file_conditions hfile hlen hflow hsmall hprec
  have hg := srflp_good h3 h4 h5 h6 h7 (h2 ▸ hw) (o.threads.getD cpus) .lastExactLayer
  have e : Program.srflp o cpus I = Srflp.cfgOf I (o.width.getD 1) (o.threads.getD cpus) .lastExactLayer := by simp only [Program.srflp, Srflp.cfgOf, hc]
  refine ⟨I, h1, ?_⟩
  rw [e]
  refine ⟨?_, fun out h => ?_⟩
  · have hfeas : ∃ ds v, Solution (Srflp.problem I) ds v := by
      refine ⟨_, -Srflp.walk I [] (List.range I.n), (srflp_solution_iff_layout h3 h6 h4 _ _).2 ⟨List.range I.n, List.Perm.refl _, rfl, ?_⟩⟩
      have := Srflp.cost2_eq h6 h4 (l := List.range I.n) (List.Perm.refl _)
      omega
    obtain ⟨out, _, h, _⟩ := can_print (Srflp.laws I _ _ _) hg (Or.inl rfl) (Nat.le_refl _) hn hb hname hfeas
    exact ⟨out, h⟩
  · obtain ⟨p, v, u, g1, ⟨ds, g2⟩, g3, _⟩ := prints_optimum (Srflp.laws I _ _ _) hg (Or.inl rfl) (Nat.le_refl _) hn hb hname h
    obtain ⟨l, k1, _, k3⟩ := (srflp_solution_iff_layout h3 h6 h4 _ _).1 g2
    refine ⟨p, v, u, g1, ⟨l, k1, by omega⟩, fun hp => ?_⟩
    exact ⟨(srflp_optimum h3 h6 h4 v).1 (g3 hp).1, (g3 hp).2⟩

/-- **C99 (partial).** The program `psp` on a text with a well-formed file with demands 0 and 1, costs that satisfy the triangle inequality and small enough, with the cutset `lel`, any width that is not 0 in `usize` (`hw`), and any number of threads
but 0 (one, if the solver is `barrier`): a line can be printed if there is a plan; the best value of a line is that of a plan, and if it says `Proved` then this is a cheapest plan.
Missing: the other cases, for which it is false (C65, C43). -/
theorem psp_prints_partial {t path f w : List Char} {ls : List (List Char)} {periods orders : Nat} {changeover : List (List Nat)} {stocking : List Nat} {demand : List (List Nat)} {optimum : Option Nat}
    (ht : LinesOf t ls) (hfile : PspFile ls periods orders changeover stocking demand optimum) (hpath : Names path f) (hstem : IsStem f w) (hname : CellText w)
    (hunit : ∀ r ∈ demand, ∀ d ∈ r, d ≤ 1)
    (htri : ∀ a b c, a < stocking.length → b < stocking.length → c < stocking.length → entry changeover a c ≤ entry changeover a b + entry changeover b c) {X Y : Nat}
    (hX : ∀ r ∈ changeover, ∀ x ∈ r, x ≤ X) (hY : ∀ y ∈ stocking, y ≤ Y) (hsmall : 4 * (periods + 2) * (X + Y * periods) ≤ 2 ^ 63 - 1)
    {o : Options} (hc : o.cutset = .lastExactLayer) (hw : periods * o.width.getD 1 % 2 ^ 64 ≠ 0) {cpus : Nat} (hn : 1 ≤ o.threads.getD cpus) (hb : o.solver = .barrier → o.threads.getD cpus = 1)
    {sort : List Psp.Edge → List Psp.Edge} :
    ∃ P, Read.psp (lines t) = some P ∧ ∃ I : Psp.Inst, I.periods = P.periods ∧ I.items = P.items ∧ I.changeover = P.changeover ∧ (∀ i, I.stocking i = P.stocking.getD i 0) ∧ I.demand = entry demand ∧
      (∀ i, i < P.items → ∀ p, Psp.prevDemand I i p = P.prev i p ∧ Psp.remDemand I i p = P.rem i p) ∧
      ((∃ f, Psp.Feasible I f) → ∃ out, Prints (Program.psp o cpus I sort) o.solver (runName path) out) ∧
      ∀ out, Prints (Program.psp o cpus I sort) o.solver (runName path) out → ∃ p v u, Says out w o.solver p v u ∧ (∃ f, Psp.Feasible I f ∧ v = -(Psp.planCost I f : Int)) ∧
        (p = true → (∃ C : Nat, v = -(C : Int) ∧ Psp.Cheapest I C) ∧ u = v) := by
  rw [run_name hpath hstem, lines_of ht]
  obtain ⟨P, h1, h2, h3, _, _, h4, h5, h6⟩ := psp_file hfile
  obtain ⟨g1, g2, g3, g4⟩ := psp_file_conditions hfile hunit htri hX hY hsmall
  refine ⟨P, h1, pspInst periods changeover stocking demand, h2.symm, h3.symm, h4.symm, fun i => by rw [h5]; rfl, rfl, fun i hi p => ⟨(h6 i hi p).1.symm, (h6 i hi p).2.symm⟩, ?_⟩
  have hw' : (pspInst periods changeover stocking demand).periods * o.width.getD 1 % 2 ^ 64 ≠ 0 := hw
  generalize pspInst periods changeover stocking demand = I at *
  have hg : GoodCfg (Psp.cfgOf I sort (o.width.getD 1) (o.threads.getD cpus) .lastExactLayer) (Psp.layering I) ((X + Y * periods : Nat) : Int) :=
    ⟨Psp.wellFormed g1 g2, psp_admissible, Psp.sound g1 g2 g3, (Psp.cfgOf_base (σ := sort) g1 g2 hw' _ _).width⟩
  have e : Program.psp o cpus I sort = Psp.cfgOf I sort (o.width.getD 1) (o.threads.getD cpus) .lastExactLayer := by simp only [Program.psp, Psp.cfgOf, hc]
  rw [e]
  refine ⟨fun ⟨f, hf⟩ => ?_, fun out h => ?_⟩
  · obtain ⟨out, _, h, _⟩ := can_print (Psp.laws I sort _ _ _) hg (Or.inl rfl) (Nat.le_refl _) hn hb hname ⟨_, _, psp_plan_is_solution_partial g1 g4 hf⟩
    exact ⟨out, h⟩
  · obtain ⟨p, v, u, k1, ⟨ds, k2⟩, k3, _⟩ := prints_optimum (Psp.laws I sort _ _ _) hg (Or.inl rfl) (Nat.le_refl _) hn hb hname h
    obtain ⟨f, l1, _, l3⟩ := psp_solution_is_plan_partial g1 g4 k2
    exact ⟨p, v, u, k1, ⟨f, l1, l3⟩, fun hp => ⟨(psp_optimum_partial g1 g4 v).1 (k3 hp).1, (k3 hp).2⟩⟩

/-- **C99 (partial).** The program `tsptw` on a text with a well-formed file whose numbers are small enough, with any options but width 0 or one that is too large: the best value of a line that is printed is that of a tour.
Missing: that this is a shortest tour if the line says `Proved`, which is false (C56). -/
theorem tsptw_prints_partial {t path f w : List Char} {ls : List (List Char)} {dist : List (List (Nat × Nat))} {windows : List ((Nat × Nat) × (Nat × Nat))} (ht : LinesOf t ls)
    (hfile : TsptwFile ls dist windows) (hn : 1 ≤ dist.length) (hpath : Names path f) (hstem : IsStem f w) (hname : CellText w) {o : Options} (hw : o.width ≠ some 0) (hs : dist.length * o.width.getD 1 < 2 ^ 48) {cpus : Nat} :
    ∃ I, Read.tsptw (lines t) = some I ∧ I.n = dist.length ∧ ∀ {B : Nat}, Tsptw.Bounded I B →
      ∀ out, Prints (Program.tsptw o cpus I) o.solver (runName path) out → ∃ p v u, Says out w o.solver p v u ∧ ∃ l T, Tsptw.Tour I l T ∧ v = -(T : Int) := by
  rw [run_name hpath hstem, lines_of ht]
  obtain ⟨I, h1, h2⟩ : ∃ I, Read.tsptw ls = some I ∧ I.n = dist.length := ⟨_, Read.tsptw_of hfile, rfl⟩
  refine ⟨I, h1, h2, fun {B} hB out h => ?_⟩
  rw [← h2] at hn
  have hw' : 1 ≤ o.width.getD 1 := by
    cases h : o.width with
    | none => simp
    | some k =>
      rw [h] at hw
      have : k ≠ 0 := fun e => hw (by rw [e])
      simp only [Option.getD_some]; omega
  have hg : BaseCfg (Program.tsptw o cpus I) (Tsptw.layering I B) B :=
    ⟨Tsptw.wellFormed hn hB, Tsptw.layered hn hB, fun s => Tsptw.width_pos hn hw' (by rw [h2]; exact hs) s⟩
  obtain ⟨p, v, u, g1, ds, g2⟩ := prints_real (noDup_laws (rank := Tsptw.rank)) hg (Nat.le_refl _) hname h
  obtain ⟨l, T, k1, _, k3⟩ := tsptw_solution_is_tour hn g2
  exact ⟨p, v, u, g1, l, T, k1, k3⟩

/-- The file of C77 as a text with Windows line ends -/
def smallText : List Char := written srflpText (srflpText.map fun _ => ['\r', '\n'])

theorem smallText_lines : lines smallText = srflpText := text_written (by decide +kernel) (by decide +kernel) (by decide)

/-- The theorem applies to it, for instance with two threads and width 5... -/
example : ∃ I, Read.srflp (lines smallText) = some I ∧ ∀ out, Prints (Program.srflp ⟨"dir/small.txt".toList, some 5, 60, some 2, .parallel, .lastExactLayer⟩ 8 I) .parallel (runName "dir/small.txt".toList) out →
    ∃ p v u, Says out "small".toList .parallel p v u ∧ (p = true → Srflp.Cheapest2 I (Srflp.fixed2 I - 2 * v) ∧ u = v) := by
  obtain ⟨I, h1, _, h2⟩ := srflp_prints_partial (lines_iff.2 smallText_lines) srflpText_file (path := "dir/small.txt".toList) (f := "small.txt".toList) (fileName_iff.1 (by decide +kernel)) (stem_iff.1 (by decide +kernel))
    (w := "small".toList) ⟨by decide, by decide, by decide⟩ (F := 4) (L := 3) (by decide) (by decide) (by decide) (by decide)
    (o := ⟨"dir/small.txt".toList, some 5, 60, some 2, .parallel, .lastExactLayer⟩) rfl (by decide) (cpus := 8) (by decide) (by decide)
  exact ⟨I, h1, fun out h => (h2 out h).imp fun p h => h.imp fun v h => h.imp fun u h => ⟨h.1, h.2.2⟩⟩

def noInst : Srflp.Inst := ⟨0, fun _ => 0, fun _ _ => 0⟩

/-- ...and this is what is printed, with one thread and the default width, by both solvers. -/
example : Prints (Program.srflp ⟨[], none, 60, some 1, .parallel, .lastExactLayer⟩ 8 ((Read.srflp (lines smallText)).getD noInst)) .parallel (runName "dir/small.txt".toList)
    "                         small | parallel | Proved |     1.50 |     2.12 |              -3 |              -3 |              -3 | 0.0000 |               1 |               7".toList := by
  obtain ⟨s, h1, h2⟩ := Inst.test_spec (cfg := Program.srflp ⟨[], none, 60, some 1, .parallel, .lastExactLayer⟩ 8 ((Read.srflp (lines smallText)).getD noInst)) (l := List.replicate 5 (0, false))
    (f := fun s => Inst.allDone s && (parallelLine _ (runName "dir/small.txt".toList) (3, 2) (17, 8) s == some
    "                         small | parallel | Proved |     1.50 |     2.12 |              -3 |              -3 |              -3 | 0.0000 |               1 |               7".toList)) (by decide +kernel)
  rw [Bool.and_eq_true, beq_iff_eq] at h2
  exact ⟨s, (3, 2), (17, 8), h1, Inst.allDone_spec h2.1, h2.2⟩

example : Prints (Program.srflp ⟨[], none, 60, some 1, .barrier, .lastExactLayer⟩ 8 ((Read.srflp (lines smallText)).getD noInst)) .barrier (runName "dir/small.txt".toList)
    "                         small | barrier | Proved |     1.50 |     2.12 |              -3 |              -3 |              -3 | 0.0000 |               1 |               7".toList := by
  obtain ⟨s, h1, h2⟩ := Inst.btest_spec (cfg := Program.srflp ⟨[], none, 60, some 1, .barrier, .lastExactLayer⟩ 8 ((Read.srflp (lines smallText)).getD noInst)) (l := List.replicate 5 (0, false))
    (f := fun s => Inst.bAllDone s && (barrierLine _ (runName "dir/small.txt".toList) (3, 2) (17, 8) s == some
    "                         small | barrier | Proved |     1.50 |     2.12 |              -3 |              -3 |              -3 | 0.0000 |               1 |               7".toList)) (by decide +kernel)
  rw [Bool.and_eq_true, beq_iff_eq] at h2
  exact ⟨s, (3, 2), (17, 8), h1.reachable, fun _ => h1, Inst.bAllDone_spec h2.1, h2.2⟩

end Verif.Props
