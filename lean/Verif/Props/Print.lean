import Verif.Proofs.Print
import Verif.Props.Report
/-! C93: the line printed at the end of a run.  C94: the header of the table. -/
set_option autoImplicit false

namespace Verif.Props
open Verif Spec Text Print F32

/-! ### C93 -/

theorem gap_nonneg {lb ub : Int} {g : Nat × Int} (h : gap lb ub = some g) : 0 ≤ g.2 := by
  have h1' : lb ≠ isizeMin := fun h' => by rw [(gap_overflow _ _).2 (Or.inl h')] at h; cases h
  have h2' : ub ≠ isizeMin := fun h' => by rw [(gap_overflow _ _).2 (Or.inr h')] at h; cases h
  rw [gap_eq h1' h2'] at h
  cases h
  rcases Nat.eq_zero_or_pos (max ub.natAbs lb.natAbs - min ub.natAbs lb.natAbs) with h0 | h0
  · rw [h0]; unfold ratio; split <;> simp
  · rw [ratio_pos h0 (by omega)]; exact Int.natCast_nonneg _

/-- **C93.** The line consists of eleven cells: the name, the solver, the status, the time and the memory to two digits, the best value, the bounds, the gap to four digits, and the two counters. -/
theorem printed_line {name : List Char} (hn : CellText name) (solver : SolverType) {time ram : Nat × Nat} (ht : 0 < time.2) (hm : 0 < ram.2) {r : Report}
    (h1 : InISize r.lb) (h2 : InISize r.ub) (hg : gap r.lb r.ub = some r.gap) :
    ∃ t m b lo hi g e d, Cells (line name solver time ram r) [name, solver.fmt.toList, (if r.proved then "Proved" else "Timeout").toList, t, m, b, lo, hi, g, e, d] ∧
      Rounded 2 t (time.1 / time.2) ∧ Rounded 2 m (ram.1 / ram.2) ∧
      (∀ v, r.best = some v → Signed b v) ∧ (r.best = none → b = "not found".toList) ∧ Signed lo r.lb ∧ Signed hi r.ub ∧
      (r.lb = 0 ∧ r.ub = 0 → g = "NaN".toList) ∧ (¬ (r.lb = 0 ∧ r.ub = 0) → ∃ q, gapValue r.gap = some q ∧ Rounded 4 g q) ∧
      Unsigned e r.explored ∧ Unsigned d r.exploredDd := by
  refine ⟨_, _, _, _, _, _, _, _, line_cells hn solver time ram r, showFixed_rounded 1 _ ht, showFixed_rounded 1 _ hm, ?_, ?_, showInt_signed _, showInt_signed _, ?_, ?_,
    Or.inl (showNat_digits _), Or.inl (showNat_digits _)⟩
  · intro v hv; rw [hv]; exact showInt_signed v
  · intro hv; rw [hv]; rfl
  · rintro ⟨e1, e2⟩
    rw [e1, e2, gap_zero.1] at hg
    rw [← Option.some.inj hg]; rfl
  · intro h0
    have h1' : r.lb ≠ isizeMin := fun h => by rw [(gap_overflow _ _).2 (Or.inl h)] at hg; cases hg
    have h2' : r.ub ≠ isizeMin := fun h => by rw [(gap_overflow _ _).2 (Or.inr h)] at hg; cases hg
    obtain ⟨g, q, e1, e2, e3, _⟩ := gap_number h1 h2 h1' h2' h0
    rw [hg] at e1
    cases e1
    refine ⟨q, e2, ?_⟩
    have hp := gap_nonneg hg
    unfold gapValue at e2
    split at e2
    · rename_i h
      unfold showGap
      rw [if_neg (by omega), if_neg (by omega), if_neg (by omega)]
      split at e2
      · rename_i hz
        rw [if_pos hz]
        cases e2
        simpa using showFixed_rounded 3 0 (y := 1) (by omega)
      · rename_i hz
        rw [if_neg hz, if_neg (by omega)]
        cases e2
        have := showFixed_rounded 3 (scaled r.gap.2.natAbs) (y := 2 ^ 128) (by norm_num)
        rw [show value r.gap.2.natAbs = (scaled r.gap.2.natAbs : ℚ) / ((2 ^ 128 : ℕ) : ℚ) by unfold value; norm_num]
        exact this
    · cases e2

/-- **C93.** Two runs whose lines are equal have the same name, solver, status, best value, bounds and counters. -/
theorem printed_line_determines {name name' : List Char} (hn : CellText name) (hn' : CellText name') {solver solver' : SolverType} {time ram time' ram' : Nat × Nat} {r r' : Report}
    (h : line name solver time ram r = line name' solver' time' ram' r') :
    name = name' ∧ solver = solver' ∧ r.proved = r'.proved ∧ r.best = r'.best ∧ r.lb = r'.lb ∧ r.ub = r'.ub ∧ r.explored = r'.explored ∧ r.exploredDd = r'.exploredDd := by
  have := cells_unique (line_cells hn solver time ram r) (h ▸ line_cells hn' solver' time' ram' r')
  simp only [List.cons.injEq, and_true] at this
  obtain ⟨e1, e2, e3, _, _, e4, e5, e6, _, e7, e8⟩ := this
  exact ⟨e1, solver_inj e2, showStatus_inj e3, showBest_inj e4, showInt_inj e5, showInt_inj e6, showNat_inj e7, showNat_inj e8⟩

variable {σ : Type} [DecidableEq σ] [Inhabited σ] {cfg : SolverCfg σ} {S : Layering σ} {B : Int}

/-- What is printed for a problem that was solved: the optimum three times, and the gap 0.0000 -/
theorem printed_solved {name : List Char} (hn : CellText name) (solver : SolverType) (time ram : Nat × Nat) {r : Report} {v : Int} (hp : r.proved = true) (hb : r.best = some v)
    (h1 : r.lb = v) (h2 : r.ub = v) (hg : gapValue r.gap = some 0) :
    ∃ t m b e d, Cells (line name solver time ram r) [name, solver.fmt.toList, "Proved".toList, t, m, b, b, b, "0.0000".toList, e, d] ∧ Signed b v ∧
      Unsigned e r.explored ∧ Unsigned d r.exploredDd := by
  have h := line_cells hn solver time ram r
  have hs : showGap r.gap = "0.0000".toList := by
    unfold gapValue at hg
    split at hg
    · rename_i h
      split at hg
      · rename_i hz
        unfold showGap
        rw [if_neg (by omega), if_neg (by omega), if_neg (by omega), if_pos hz]
        decide +kernel
      · exact absurd (Option.some.inj hg) (value_pos _).ne'
    · cases hg
  rw [hp, hb, h1, h2, hs] at h
  exact ⟨_, _, _, _, _, h, showInt_signed v, Or.inl (showNat_digits _), Or.inl (showNat_digits _)⟩

/-- **C93.** The line printed at the end of a run that was not interrupted says `Proved` and gives the optimum as best value and as both bounds (unless it is 0: see C75). -/
theorem printed_optimum (L : FrontierLaws cfg.fr) (hg : GoodCfg cfg S B) (hc : CutOK cfg S) (hn : cfg.nbThreads ≤ cfg.custom) (h1 : 1 ≤ cfg.nbThreads)
    {s : Sys σ cfg.fr.F} (hr : ReachableMax cfg s) (hf : Finished s) {v : Int} (hv : IsOptimum cfg.p v) (h0 : v ≠ 0) {name : List Char} (hna : CellText name) (time ram : Nat × Nat) :
    ∃ r, Par.report cfg s = some r ∧ ∃ t m b e d, Cells (line name .parallel time ram r) [name, "parallel".toList, "Proved".toList, t, m, b, b, b, "0.0000".toList, e, d] ∧ Signed b v ∧
      Unsigned e (Par.getExplored cfg s.crit) ∧ Unsigned d (Par.getExploredDd cfg s.crit) := by
  obtain ⟨r, h2, h3, h4, h5, h6, h7⟩ := report_optimum_partial L hg hc hn h1 hr hf hv
  have e : r.explored = Par.getExplored cfg s.crit ∧ r.exploredDd = Par.getExploredDd cfg s.crit := by
    unfold Par.report at h2
    obtain ⟨g, _, rfl⟩ := Option.map_eq_some_iff.1 h2
    exact ⟨rfl, rfl⟩
  refine ⟨r, h2, ?_⟩
  rw [← e.1, ← e.2]
  exact printed_solved hna .parallel time ram h3 h4 h5 h6 (h7 h0)

/-- **C93.** The same for the barrier solver with one thread. -/
theorem barrier_printed_optimum (L : FrontierLaws cfg.fr) (hg : GoodCfg cfg S B) (hco : CutOK cfg S) (h1 : cfg.nbThreads = 1) (hn : cfg.nbThreads ≤ cfg.custom)
    {s : BSys σ cfg.fr.F} (hr : SharpReachable cfg s) (hf : BFinished s) (hp : Bar.proved cfg s.crit = true) {v : Int} (hv : IsOptimum cfg.p v) (h0 : v ≠ 0)
    {name : List Char} (hna : CellText name) (time ram : Nat × Nat) :
    ∃ r, Bar.report cfg s = some r ∧ ∃ t m b e d, Cells (line name .barrier time ram r) [name, "barrier".toList, "Proved".toList, t, m, b, b, b, "0.0000".toList, e, d] ∧ Signed b v ∧
      Unsigned e (Bar.getExplored cfg s.crit) ∧ Unsigned d (Bar.getExploredDd cfg s.crit) := by
  obtain ⟨r, h2, h3, h4, h5, h6, h7⟩ := barrier_report_optimum_partial L hg hco h1 hn hr hf hp hv
  have e : r.explored = Bar.getExplored cfg s.crit ∧ r.exploredDd = Bar.getExploredDd cfg s.crit := by
    unfold Bar.report at h2
    obtain ⟨g, _, rfl⟩ := Option.map_eq_some_iff.1 h2
    exact ⟨rfl, rfl⟩
  refine ⟨r, h2, ?_⟩
  rw [← e.1, ← e.2]
  exact printed_solved hna .barrier time ram h3 h4 h5 h6 (h7 h0)

/-- The line of a run of two threads on the knapsack (1.5 seconds, 2.125 megabytes); ties are rounded to the even digit. -/
example : ∃ s, ReachableMax (Inst.kpCfg 2) s ∧ Finished s ∧ ∃ r, Par.report (Inst.kpCfg 2) s = some r ∧ line "kp".toList .parallel (3, 2) (17, 8) r =
    "                            kp | parallel | Proved |     1.50 |     2.12 |               9 |               9 |               9 | 0.0000 |               6 |              41".toList := by
  obtain ⟨s, h1, h2⟩ := Inst.test_spec_max (cfg := Inst.kpCfg 2) (l := Inst.kpRun2)
    (f := fun s => Inst.allDone s && (match Par.report (Inst.kpCfg 2) s with
      | some r => line "kp".toList .parallel (3, 2) (17, 8) r ==
    "                            kp | parallel | Proved |     1.50 |     2.12 |               9 |               9 |               9 | 0.0000 |               6 |              41".toList
      | none => false)) (by decide) (by decide +kernel)
  rw [Bool.and_eq_true] at h2
  refine ⟨s, h1, Inst.allDone_spec h2.1, ?_⟩
  have h3 := h2.2
  split at h3
  · rename_i r hr
    exact ⟨r, hr, beq_iff_eq.1 h3⟩
  · cases h3

/-- A printed gap of 0.0000 does not mean that the bounds agree. -/
example : ∃ g, gap 99999 100000 = some g ∧ showGap g = "0.0000".toList := ⟨_, rfl, by decide +kernel⟩

/-! ### C94 -/

/-- **C94 (partial).** The header has as many columns as the lines. -/
theorem header_columns_partial : Cells header (["NAME", "SOLVER", "STATUS", "DURATION", "RAM_(MB)", "BEST-VAL", "LB", "UB", "GAP", "NODES B&B", "NODES DD"].map String.toList) := by
  refine cells_join ?_ (by simp)
  have h : ∀ w ∈ ["NAME", "SOLVER", "STATUS", "DURATION", "RAM_(MB)", "BEST-VAL", "LB", "UB", "GAP", "NODES B&B", "NODES DD"], CellText w.toList := by
    intro w hw
    refine ⟨?_, ?_, ?_⟩ <;> revert w <;> decide
  simp only [List.map_cons, List.map_nil]
  exact .cons (padded_left (h _ (by simp)) _) (.cons (padded_left (h _ (by simp)) _) (.cons (padded_left (h _ (by simp)) _) (.cons (padded_left (h _ (by simp)) _)
    (.cons (padded_left (h _ (by simp)) _) (.cons (padded_left (h _ (by simp)) _) (.cons (padded_left (h _ (by simp)) _) (.cons (padded_left (h _ (by simp)) _)
    (.cons (padded_left (h _ (by simp)) _) (.cons (padded_left (h _ (by simp)) _) (.cons (padded_left (h _ (by simp)) _) .nil))))))))))

/-- **C94 is false.** No line ever lines up with the header: the names of the solver and the status are printed without the spaces that the format asks for. -/
theorem columns_never_line_up {name : List Char} (hn : '|' ∉ name) (solver : SolverType) (time ram : Nat × Nat) (r : Report) : ¬ LinedUp (line name solver time ram r) header := by
  intro h
  obtain ⟨rest, hl⟩ : ∃ rest, line name solver time ram r = padLeft 30 name ++ ' ' :: '|' :: ' ' :: (solver.fmt.toList ++ ' ' :: '|' :: rest) := ⟨_, rfl⟩
  rw [hl] at h
  have hA : '|' ∉ padLeft 30 name := by
    intro hm
    rcases List.mem_append.1 hm with hm | hm
    · exact absurd (List.mem_replicate.1 hm).2 (by decide)
    · exact hn hm
  have hlen : 30 ≤ (padLeft 30 name).length := by
    unfold padLeft
    rw [List.length_append, List.length_replicate]; omega
  generalize padLeft 30 name = A at h hA hlen
  have h31 := (h 31).2 (by decide +kernel)
  have hle : A.length ≤ 30 := by
    by_contra hgt
    rcases Nat.lt_or_ge 31 A.length with hlt | hge
    · rw [List.getElem?_append_left hlt] at h31
      exact hA (List.mem_of_getElem? h31)
    · rw [List.getElem?_append_right hge, show 31 - A.length = 0 by omega] at h31
      exact absurd h31 (by simp)
  have hA30 : A.length = 30 := by omega
  have e : ∀ j, (A ++ ' ' :: '|' :: ' ' :: (solver.fmt.toList ++ ' ' :: '|' :: rest))[33 + j]? = (solver.fmt.toList ++ ' ' :: '|' :: rest)[j]? := by
    intro j
    rw [List.getElem?_append_right (by omega), hA30, show 33 + j - 30 = j + 1 + 1 + 1 by omega]
    rfl
  cases solver with
  | parallel => exact absurd ((h 42).1 (by rw [e 9]; rfl)) (by decide +kernel)
  | barrier => exact absurd ((h 41).1 (by rw [e 8]; rfl)) (by decide +kernel)

end Verif.Props
