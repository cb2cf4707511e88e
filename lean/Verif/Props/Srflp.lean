import Verif.Examples.Srflp
import Verif.Proofs.Srflp.Range
import Verif.Props.Parallel
import Verif.Props.Barrier
/-!
C68-C73: the example `srflp`, the single row facility layout problem.
-/
set_option autoImplicit false

namespace Verif.Props
open Verif Spec Srflp
variable {I : Inst} {F L : Nat}

/-! ### C68: reading the flows -/

theorem symStep_eq (f : Nat → Nat → Int) (a b : Nat) (i j : Nat) (hab : a ≠ b) : symStep f (a, b) i j =
    if (i = a ∧ j = b) ∨ (i = b ∧ j = a) then (if f a b ≠ f b a then f a b + f b a else f a b) else f i j := by
  unfold symStep store
  simp only
  by_cases h : f a b = f b a
  · simp only [h, ne_eq, not_true_eq_false, if_false]
    split
    · rename_i h1
      rcases h1 with ⟨rfl, rfl⟩ | ⟨rfl, rfl⟩ <;> simp [h]
    · rfl
  · simp only [ne_eq, h, not_false_eq_true, if_true]
    by_cases h1 : i = b ∧ j = a
    · obtain ⟨rfl, rfl⟩ := h1; simp
    · simp only [h1, if_false, or_false]

/-- What the loops have done when they have passed the pairs of a list -/
theorem symFold_eq (l : List (Nat × Nat)) : ∀ (f : Nat → Nat → Int), (∀ p ∈ l, p.1 < p.2) → l.Nodup → ∀ i j,
    l.foldl symStep f i j = if (i, j) ∈ l ∨ (j, i) ∈ l then (if f i j ≠ f j i then f i j + f j i else f i j) else f i j := by
  induction l with
  | nil => intro f _ _ i j; simp
  | cons p l ih =>
    intro f hlt hnd i j
    obtain ⟨a, b⟩ := p
    have hab : a < b := hlt (a, b) (by simp)
    obtain ⟨hnot, hnd⟩ := List.nodup_cons.1 hnd
    rw [List.foldl_cons, ih _ (fun q hq => hlt q (by simp [hq])) hnd, symStep_eq f a b i j (by omega), symStep_eq f a b j i (by omega)]
    have hnot' : (b, a) ∉ l := fun h => by have := hlt (b, a) (by simp [h]); simp only at this; omega
    simp only [List.mem_cons, Prod.mk.injEq]
    by_cases h1 : i = a ∧ j = b
    · obtain ⟨rfl, rfl⟩ := h1
      simp [hnot, hnot']
    · by_cases h2 : i = b ∧ j = a
      · obtain ⟨rfl, rfl⟩ := h2
        simp only [hnot, hnot', or_self, if_false, and_self, or_true, if_true, true_or]
        by_cases h3 : f j i = f i j
        · simp [h3]
        · have h4 : ¬ f i j = f j i := fun h => h3 h.symm
          simp only [ne_eq, h3, h4, not_false_eq_true, if_true]
          omega
      · have h3 : ¬ (j = a ∧ i = b) := fun h => h2 ⟨h.2, h.1⟩
        have h4 : ¬ (j = b ∧ i = a) := fun h => h1 ⟨h.2, h.1⟩
        simp only [h1, h2, h3, h4, false_or, or_self, if_false]

theorem mem_pairs {n a b : Nat} : (a, b) ∈ pairsOf (List.range n) ↔ a < b ∧ b < n := by
  rw [mem_pairsOf_of_lt List.pairwise_lt_range, List.mem_range, List.mem_range]
  omega

/-- **C68.** When the instance is read, the flow between two departments becomes the sum of the two entries if they differ, and stays what it is if they do not. -/
theorem srflp_symmetrise {n : Nat} (f : Nat → Nat → Int) {i j : Nat} (hi : i < n) (hj : j < n) :
    symmetrise n f i j = if f i j ≠ f j i then f i j + f j i else f i j := by
  unfold symmetrise
  rw [pairs_eq, symFold_eq _ f ?_ ?_]
  · split
    · rfl
    · rename_i h
      have : i = j := by
        rcases Nat.lt_trichotomy i j with h1 | h1 | h1
        · exact absurd (Or.inl (mem_pairs.2 ⟨h1, hj⟩)) h
        · exact h1
        · exact absurd (Or.inr (mem_pairs.2 ⟨h1, hi⟩)) h
      subst this
      simp
  · intro p hp; exact (mem_pairs.1 (show (p.1, p.2) ∈ _ from hp)).1
  · exact nodup_pairsOf List.nodup_range

/-- **C68.** The flows are symmetric afterwards, whatever was read. -/
theorem srflp_symmetric (n : Nat) (len : Nat → Int) (f : Nat → Nat → Int) : Symmetric { n := n, len := len, flow := symmetrise n f } := by
  intro i j hi hj
  show symmetrise n f i j = symmetrise n f j i
  rw [srflp_symmetrise f hi hj, srflp_symmetrise f hj hi]
  by_cases h : f i j = f j i
  · simp [h]
  · have h' : ¬ f j i = f i j := fun e => h e.symm
    simp only [ne_eq, h, h', not_false_eq_true, if_true]
    omega

/-- Entries 3 and 3 are read as a flow of 3, entries 3 and 4 as one of 7. -/
theorem srflp_equal_entries_not_added : given 0 1 = 3 ∧ given 1 0 = 3 ∧ symmetrise 3 given 0 1 = 3 ∧ given 0 2 = 3 ∧ given 2 0 = 4 ∧ symmetrise 3 given 0 2 = 7 := by decide

/-! ### C69: layouts -/

/-- **C69.** The solutions of the dynamic program are the layouts, and twice the value of a solution is what the layout costs beyond the part that is the same for all of them, with the
sign changed. -/
theorem srflp_solution_iff_layout (hB : Bounded I F L) (hl : Lengths I) (hs : Symmetric I) (ds : List Decision) (v : Int) :
    Solution (problem I) ds v ↔ ∃ l, Layout I l ∧ ds = places 0 l ∧ 2 * v = fixed2 I - cost2 I l := by
  rw [solution_iff hB]
  constructor
  · rintro ⟨l, h1, h2, h3⟩
    have := cost2_eq hl hs h1
    exact ⟨l, h1, h2, by omega⟩
  · rintro ⟨l, h1, h2, h3⟩
    have := cost2_eq hl hs h1
    exact ⟨l, h1, h2, by omega⟩

/-- **C69.** So the optimum is the cost of a cheapest layout, less the fixed part. -/
theorem srflp_optimum (hB : Bounded I F L) (hl : Lengths I) (hs : Symmetric I) (v : Int) : IsOptimum (problem I) v ↔ Cheapest2 I (fixed2 I - 2 * v) := by
  constructor
  · rintro ⟨⟨ds, h⟩, hbest⟩
    obtain ⟨l, h1, _, h3⟩ := (srflp_solution_iff_layout hB hl hs _ _).1 h
    refine ⟨⟨l, h1, by omega⟩, fun m hm => ?_⟩
    have h4 := cost2_eq hl hs hm
    have := hbest _ _ ((srflp_solution_iff_layout hB hl hs (places 0 m) (-walk I [] m)).2 ⟨m, hm, rfl, by omega⟩)
    omega
  · rintro ⟨⟨l, h1, h2⟩, hbest⟩
    refine ⟨⟨places 0 l, (srflp_solution_iff_layout hB hl hs _ _).2 ⟨l, h1, rfl, by omega⟩⟩, fun ds u h => ?_⟩
    obtain ⟨m, h3, _, h5⟩ := (srflp_solution_iff_layout hB hl hs _ _).1 h
    have := hbest m h3
    omega

/-- With the longest department in the middle, `three` costs 3 more than the fixed 15.5. -/
example : Layout three [0, 2, 1] ∧ cost2 three [0, 2, 1] = 37 ∧ fixed2 three = 31 ∧ Solution (problem three) (places 0 [0, 2, 1]) (-3) := by
  refine ⟨by unfold Layout; decide, by decide, by decide, Inst.complete_solution (p := problem three) (v := -3) (by decide)⟩

/-! ### C70: the relaxation -/

/-- **C70 (partial).** If no length is negative, the relaxation is sound. -/
theorem srflp_relaxation_sound_partial (hB : Bounded I F L) (hl : Lengths I) : SoundRelaxation (problem I) (relaxation I) (layering I F) (costMax I F L) := sound hB hl

example : SoundRelaxation (problem four) (relaxation four) (layering four 3) (costMax four 3 3) := srflp_relaxation_sound_partial (boundedB_spec (by decide)) (lengthsB_spec (by decide))

/-- The states of the first layer -/
def firstLayer (I : Inst) : List State := (List.range I.n).map fun i : Nat => trans I (initial I) ⟨0, (i : Int)⟩

theorem firstLayer_ok (hB : Bounded I F L) : ∀ s ∈ firstLayer I, Ok I F s ∧ s.depth = 1 := by
  intro s hs
  obtain ⟨i, hi, rfl⟩ := List.mem_map.1 hs
  have hi := List.mem_range.1 hi
  refine ⟨Ok.trans hB (ok_init F) (x := 0) ?_, rfl⟩
  exact mem_dom.2 ⟨i, rfl, hi, Or.inl (by show (Bits.full I.n).testBit i = true; rw [Bits.testBit_full]; simpa using hi)⟩

/-- **C70 is false with negative lengths**: departments that have not been placed yet are counted at their smallest cut, which is not the best then. -/
theorem srflp_relaxation_unsound : Bounded negLen 2 2 ∧ Symmetric negLen ∧ Flows negLen ∧ ¬ SoundRelaxation (problem negLen) (relaxation negLen) (layering negLen 2) (costMax negLen 2 2) := by
  have hB : Bounded negLen 2 2 := boundedB_spec (by decide)
  refine ⟨hB, symmetricB_spec (by decide), flowsB_spec (by decide), fun h => ?_⟩
  obtain ⟨ds', v', h1, h2⟩ := h.merge_dom (firstLayer negLen) 1 (firstLayer_ok hB) (initial negLen) 0 ⟨0, 0⟩ (ok_init 2) rfl (by decide) (by decide)
    [⟨1, 2⟩, ⟨2, 1⟩] 4 (Inst.complete_spec (by decide))
  have := Inst.below_spec (k := 4) (b := 0) (by decide) h1
  have e : (relaxation negLen).relax (initial negLen) ((problem negLen).trans (initial negLen) ⟨0, 0⟩) ((relaxation negLen).merge (firstLayer negLen)) ⟨0, 0⟩
    ((problem negLen).cost (initial negLen) ⟨0, 0⟩) = (problem negLen).cost (initial negLen) ⟨0, 0⟩ := rfl
  rw [e] at h2
  omega

/-! ### C71: the rough bound -/

/-- **C71 (partial).** If no length and no flow is negative, the flows are symmetric and the numbers are small enough for single precision, the estimate is never below the value of a
completion, for merged states as well. -/
theorem srflp_admissible_partial (hB : Bounded I F L) (hs : Symmetric I) (hf : Flows I) (hl : Lengths I) (hprec : Precise I F L) : Admissible (problem I) (layeringPos I F) :=
  admissible hB hs hf hl hprec

/-- **C71 (partial).** In particular, no layout is cheaper than the bound of the initial state. -/
theorem srflp_bound_below_layouts_partial (hB : Bounded I F L) (hs : Symmetric I) (hf : Flows I) (hl : Lengths I) (hprec : Precise I F L) {l : List Nat} (h : Layout I l) :
    fixed2 I - 2 * estimate I (initial I) ≤ cost2 I l := by
  have h1 := cost2_eq hl hs h
  obtain ⟨u, hc, hu⟩ := (srflp_solution_iff_layout hB hl hs (places 0 l) (-walk I [] l)).2 ⟨l, h, rfl, by omega⟩
  have h2 : u ≤ estimate I (initial I) := srflp_admissible_partial hB hs hf hl hprec _ ⟨ok_init F, Pos.init⟩ _ _ hc
  have h3 : -walk I [] l = 0 + u := hu
  omega

example : Admissible (problem four) (layeringPos four 3) ∧ estimate four (initial four) = -2 ∧ cost2 four [1, 2, 0, 3] = 48 ∧ fixed2 four = 38 :=
  ⟨srflp_admissible_partial (L := 3) (boundedB_spec (by decide)) (symmetricB_spec (by decide)) (flowsB_spec (by decide)) (lengthsB_spec (by decide)) (by unfold Precise; decide), by decide +kernel, by decide, by decide⟩

/-- **C71 is false with large numbers**: the quotients are rounded to 24 bits, two of them look the same and the department with the smaller one comes first.  The bound is -50331651, and there is a completion worth
-50331648. -/
theorem srflp_rounding_inadmissible : Bounded tie 50331648 3 ∧ Symmetric tie ∧ Flows tie ∧ Lengths tie ∧ ¬ Admissible (problem tie) (layeringPos tie 50331648) := by
  have hB : Bounded tie 50331648 3 := boundedB_spec (by decide)
  have hf : Flows tie := flowsB_spec (by decide)
  refine ⟨hB, symmetricB_spec (by decide), hf, lengthsB_spec (by decide), fun h => ?_⟩
  have hd : (⟨0, 0⟩ : Decision) ∈ dom tie 0 (initial tie) := by decide
  have h1 := h (trans tie (initial tie) ⟨0, 0⟩) ⟨Ok.trans hB (ok_init _) hd, Pos.trans hf (ok_init 50331648) Pos.init hd⟩ [⟨1, 1⟩, ⟨2, 2⟩] (-50331648) (Inst.complete_spec (by decide))
  have h2 : (problem tie).estimate (trans tie (initial tie) ⟨0, 0⟩) = -50331651 := by decide +kernel
  omega

/-- **C71 is false with negative flows**: the largest flows are put where they cost least, but the flow between neighbours costs nothing at all, and that is not the most a negative flow can gain. -/
theorem srflp_negative_inadmissible : Bounded negFlow 1 2 ∧ Symmetric negFlow ∧ Lengths negFlow ∧ Precise negFlow 1 2 ∧ ¬ Admissible (problem negFlow) (layering negFlow 1) := by
  refine ⟨boundedB_spec (by decide), symmetricB_spec (by decide), lengthsB_spec (by decide), by unfold Precise; decide, fun h => ?_⟩
  have h1 := h (initial negFlow) (ok_init 1) [⟨0, 0⟩, ⟨1, 2⟩, ⟨2, 1⟩] 2 (Inst.complete_spec (by decide))
  have h2 : (problem negFlow).estimate (initial negFlow) = 1 := by decide +kernel
  omega

/-! ### C72: the program -/

theorem srflp_good (hB : Bounded I F L) (hs : Symmetric I) (hf : Flows I) (hl : Lengths I) (hprec : Precise I F L) {w : Nat} (hw : I.n * w % 2 ^ 64 ≠ 0) (n : Nat) (c : CutsetType) :
    GoodCfg (cfgOf I w n c) (layeringPos I F) (costMax I F L) :=
  ⟨wellFormedPos hB hf, admissible hB hs hf hl hprec, soundPos hB hl, (cfgOf_base hB hw n c).width⟩

/-- **C72 (partial).** With lengths and flows that are not negative and small enough, the program finds a cheapest layout, with any number of threads and the cutset `LastExactLayer`... -/
theorem srflp_optimal_partial (hB : Bounded I F L) (hs : Symmetric I) (hf : Flows I) (hl : Lengths I) (hprec : Precise I F L) {w : Nat} (hw : I.n * w % 2 ^ 64 ≠ 0) {n : Nat} (h1 : 1 ≤ n)
    {s : Sys State (cfgOf I w n .lastExactLayer).fr.F} (hr : ReachableMax (cfgOf I w n .lastExactLayer) s) (hfin : Finished s) {C : Int} (hC : Cheapest2 I C) :
    ∃ v, Par.bestValue (cfgOf I w n .lastExactLayer) s.crit = some v ∧ 2 * v = fixed2 I - C := by
  obtain ⟨⟨l, h2, h3⟩, hbest⟩ := hC
  have h4 := cost2_eq hl hs h2
  have hopt : IsOptimum (problem I) (-walk I [] l) := (srflp_optimum hB hl hs _).2 (by
    have e : fixed2 I - 2 * -walk I [] l = C := by omega
    rw [e]; exact ⟨⟨l, h2, h3⟩, hbest⟩)
  exact ⟨_, (maximize_optimal (cfg := cfgOf I w n .lastExactLayer) (laws I w n .lastExactLayer) (srflp_good hB hs hf hl hprec hw n _) (Or.inl rfl) (Nat.le_refl _) h1 hr hfin hopt).1, by omega⟩

/-- **C72 (partial).** ...as does the solver with barriers, with one thread... -/
theorem srflp_barrier_optimal_partial (hB : Bounded I F L) (hs : Symmetric I) (hf : Flows I) (hl : Lengths I) (hprec : Precise I F L) {w : Nat} (hw : I.n * w % 2 ^ 64 ≠ 0)
    {s : BSys State (cfgOf I w 1 .lastExactLayer).fr.F} (hr : SharpReachableMax (cfgOf I w 1 .lastExactLayer) s) (hfin : BFinished s) {C : Int} (hC : Cheapest2 I C) :
    ∃ v, Bar.bestValue (cfgOf I w 1 .lastExactLayer) s.crit = some v ∧ 2 * v = fixed2 I - C := by
  obtain ⟨⟨l, h2, h3⟩, hbest⟩ := hC
  have h4 := cost2_eq hl hs h2
  have hopt : IsOptimum (problem I) (-walk I [] l) := (srflp_optimum hB hl hs _).2 (by
    have e : fixed2 I - 2 * -walk I [] l = C := by omega
    rw [e]; exact ⟨⟨l, h2, h3⟩, hbest⟩)
  exact ⟨_, (barrier_optimal (cfg := cfgOf I w 1 .lastExactLayer) (laws I w 1 .lastExactLayer) (srflp_good hB hs hf hl hprec hw 1 _) (Or.inl rfl) rfl (Nat.le_refl _) hr hfin hopt).1, by omega⟩

/-- **C72 (partial).** Whatever the flows are, what the program holds is a layout that costs what it says... -/
theorem srflp_incumbent_layout_partial (hB : Bounded I F L) (hs : Symmetric I) (hl : Lengths I) {w : Nat} (hw : I.n * w % 2 ^ 64 ≠ 0) {n : Nat} {c : CutsetType}
    {s : Sys State (cfgOf I w n c).fr.F} (hr : Reachable (cfgOf I w n c) s) :
    (Par.bestSolution (cfgOf I w n c) s.crit = none ∧ Par.bestValue (cfgOf I w n c) s.crit = none) ∨
      ∃ sol l v, Par.bestSolution (cfgOf I w n c) s.crit = some sol ∧ Par.bestValue (cfgOf I w n c) s.crit = some v ∧ Layout I l ∧ 2 * v = fixed2 I - cost2 I l ∧
        sol.Perm (places 0 l) := by
  rcases incumbent_real (laws I w n c) (cfgOf_base hB hw n c) (Nat.le_refl _) hr with h | ⟨sol, v, h1, h2, _, ds, h4, h5⟩
  · exact Or.inl h
  · obtain ⟨l, g1, rfl, g3⟩ := (srflp_solution_iff_layout hB hl hs _ _).1 h5
    exact Or.inr ⟨sol, l, v, h1, h2, g1, g3, h4⟩

/-- **C72 (partial).** ...and it terminates: in an infinite run there would be spurious wake-ups again and again. -/
theorem srflp_terminates_partial (hB : Bounded I F L) {w : Nat} (hw : I.n * w % 2 ^ 64 ≠ 0) (n : Nat) (c : CutsetType) (st : Nat → Sys State (cfgOf I w n c).fr.F) (ls : Nat → Lbl State)
    (hr : Reachable (cfgOf I w n c) (st 0)) (hv : ∀ k, ValidLbl (ls k)) (hs : ∀ k, Par.step (cfgOf I w n c) (st k) (ls k) = .ok (st (k + 1))) :
    ∀ k, ∃ j, k ≤ j ∧ ∃ i, ls j = .spurious i :=
  runs_terminate (laws I w n c) (cfgOf_base hB hw n c) (Nat.le_refl _) st ls hr hv hs

/-- **C72 is false with large numbers**: with its default parameters, the program claims that -134217734 is the optimum although there is a layout worth -134217733, with both cutsets. -/
theorem srflp_rounding_not_optimal : Bounded blur 134217731 3 ∧ Symmetric blur ∧ Flows blur ∧ Lengths blur ∧
    (∃ s, ReachableMax (cfgOf blur 1 1 .lastExactLayer) s ∧ Finished s ∧ Par.proved (cfgOf blur 1 1 .lastExactLayer) s.crit = true ∧
      Par.bestValue (cfgOf blur 1 1 .lastExactLayer) s.crit = some (-134217734)) ∧
    (∃ s, ReachableMax (cfgOf blur 1 1 .frontier) s ∧ Finished s ∧ Par.proved (cfgOf blur 1 1 .frontier) s.crit = true ∧
      Par.bestValue (cfgOf blur 1 1 .frontier) s.crit = some (-134217734)) ∧ IsOptimum (problem blur) (-134217733) := by
  have h1 : Inst.test (cfgOf blur 1 1 .lastExactLayer) (List.replicate 15 (0, false))
      (fun s => Inst.allDone s && (Par.proved (cfgOf blur 1 1 .lastExactLayer) s.crit && Par.bestValue (cfgOf blur 1 1 .lastExactLayer) s.crit == some (-134217734))) = true := by decide +kernel
  have h2 : Inst.test (cfgOf blur 1 1 .frontier) (List.replicate 15 (0, false))
      (fun s => Inst.allDone s && (Par.proved (cfgOf blur 1 1 .frontier) s.crit && Par.bestValue (cfgOf blur 1 1 .frontier) s.crit == some (-134217734))) = true := by decide +kernel
  obtain ⟨s1, g1, g2⟩ := Inst.test_spec_max (by decide) h1
  obtain ⟨s2, g3, g4⟩ := Inst.test_spec_max (by decide) h2
  simp only [Bool.and_eq_true, beq_iff_eq] at g2 g4
  refine ⟨boundedB_spec (by decide), symmetricB_spec (by decide), flowsB_spec (by decide), lengthsB_spec (by decide), ⟨s1, g1, Inst.allDone_spec g2.1, g2.2.1, g2.2.2⟩,
    ⟨s2, g3, Inst.allDone_spec g4.1, g4.2.1, g4.2.2⟩, ⟨places 0 [3, 4, 0, 2, 1], ?_⟩, ?_⟩
  · exact Inst.complete_solution (p := problem blur) (ds := places 0 [3, 4, 0, 2, 1]) (v := -134217733) (by decide +kernel)
  · rintro ds v ⟨u, hc, rfl⟩
    have := Inst.below_spec (p := problem blur) (k := 6) (b := -134217733) (by decide +kernel) hc
    show 0 + u ≤ _
    omega

/-- **C72 is false with the cutset Frontier**: the program with `--width 2 --cutset frontier --solver parallel` (one thread) claims that -10 is the optimum although there is a layout worth -9;
all numbers are small. -/
theorem srflp_parallel_frontier_not_optimal : Bounded lose 7 4 ∧ Symmetric lose ∧ Flows lose ∧ Lengths lose ∧ Precise lose 7 4 ∧
    (∃ s, ReachableMax (cfgOf lose 2 1 .frontier) s ∧ Finished s ∧ Par.proved (cfgOf lose 2 1 .frontier) s.crit = true ∧
      Par.bestValue (cfgOf lose 2 1 .frontier) s.crit = some (-10)) ∧ IsOptimum (problem lose) (-9) := by
  have h : (match Par.init (cfgOf lose 2 1 .frontier) with
      | none => false
      | some s0 => match Par.runs (cfgOf lose 2 1 .frontier) s0 ((List.range 19).map fun k => .run 0 false (loseOrc k)) with
        | .ok s => Inst.allDone s && (Par.proved (cfgOf lose 2 1 .frontier) s.crit && Par.bestValue (cfgOf lose 2 1 .frontier) s.crit == some (-10))
        | _ => false) = true := by decide +kernel
  refine ⟨boundedB_spec (by decide), symmetricB_spec (by decide), flowsB_spec (by decide), lengthsB_spec (by decide), by unfold Precise; decide, ?_, ⟨places 0 [2, 0, 3, 1, 4, 5], ?_⟩, ?_⟩
  · split at h
    · cases h
    · rename_i s0 h0
      split at h
      · rename_i s hs
        simp only [Bool.and_eq_true, beq_iff_eq] at h
        refine ⟨s, ⟨s0, _, h0, ?_, ?_, hs⟩, Inst.allDone_spec h.1, h.2.1, h.2.2⟩
        · intro l hl
          obtain ⟨k, _, rfl⟩ := List.mem_map.1 hl
          exact loseOrc_valid k
        · intro l hl i intr o e
          obtain ⟨k, _, rfl⟩ := List.mem_map.1 hl
          cases e; rfl
      · cases h
  · exact Inst.complete_solution (p := problem lose) (ds := places 0 [2, 0, 3, 1, 4, 5]) (v := -9) (by decide +kernel)
  · rintro ds v ⟨u, hc, rfl⟩
    have := Inst.below_spec (p := problem lose) (k := 7) (b := -9) (by decide +kernel) hc
    show 0 + u ≤ _
    omega

/-- **C72 is false with the cutset Frontier**: the same with `--solver barrier`. -/
theorem srflp_barrier_frontier_not_optimal : ∃ s, SharpReachableMax (cfgOf lose 2 1 .frontier) s ∧ BFinished s ∧ Bar.proved (cfgOf lose 2 1 .frontier) s.crit = true ∧
    Bar.bestValue (cfgOf lose 2 1 .frontier) s.crit = some (-10) := by
  have h : (match Bar.init (cfgOf lose 2 1 .frontier) with
      | none => false
      | some s0 => match Bar.runs (cfgOf lose 2 1 .frontier) s0 ((List.range 20).map fun k => .run 0 false (loseOrc k) none) with
        | .ok s => Inst.bAllDone s && (Bar.proved (cfgOf lose 2 1 .frontier) s.crit && Bar.bestValue (cfgOf lose 2 1 .frontier) s.crit == some (-10))
        | _ => false) = true := by decide +kernel
  split at h
  · cases h
  · rename_i s0 h0
    split at h
    · rename_i s hs
      simp only [Bool.and_eq_true, beq_iff_eq] at h
      refine ⟨s, ⟨s0, _, h0, ?_, hs⟩, Inst.bAllDone_spec h.1, h.2.1, h.2.2⟩
      intro l hl
      obtain ⟨k, _, rfl⟩ := List.mem_map.1 hl
      exact ⟨loseOrc_valid k, rfl, rfl⟩
    · cases h

/-- The cheapest layout of `four` costs 5 more than the fixed part, and the program finds it. -/
example : Symmetric four ∧ Flows four ∧ Lengths four ∧ Bounded four 3 3 ∧ Precise four 3 3 ∧ Cheapest2 four 48 ∧ fixed2 four = 38 ∧
    ∃ s, ReachableMax (cfgOf four 1 1 .lastExactLayer) s ∧ Finished s ∧ Par.bestValue (cfgOf four 1 1 .lastExactLayer) s.crit = some (-5) := by
  have h : Inst.test (cfgOf four 1 1 .lastExactLayer) (List.replicate 7 (0, false))
      (fun s => Inst.allDone s && Par.bestValue (cfgOf four 1 1 .lastExactLayer) s.crit == some (-5)) = true := by decide +kernel
  obtain ⟨s, h1, h2⟩ := Inst.test_spec_max (by decide) h
  simp only [Bool.and_eq_true, beq_iff_eq] at h2
  have hB : Bounded four 3 3 := boundedB_spec (by decide)
  have hl : Lengths four := lengthsB_spec (by decide)
  have hs : Symmetric four := symmetricB_spec (by decide)
  have hopt : IsOptimum (problem four) (-5) := by
    refine ⟨⟨places 0 [1, 2, 0, 3], Inst.complete_solution (p := problem four) (v := -5) (by decide +kernel)⟩, ?_⟩
    rintro ds v ⟨u, hc, rfl⟩
    have := Inst.below_spec (p := problem four) (k := 5) (b := -5) (by decide +kernel) hc
    show 0 + u ≤ _
    omega
  have hc := (srflp_optimum hB hl hs _).1 hopt
  have e : fixed2 four = 38 := by decide
  rw [e] at hc
  exact ⟨hs, flowsB_spec (by decide), hl, hB, by unfold Precise; decide, hc, e, s, h1, Inst.allDone_spec h2.1, h2.2⟩

/-! ### C73: nothing is out of range -/

/-- The states that come up in a diagram: the initial one, those reached by a legal decision and those made by merging a layer. -/
inductive SrflpMade (I : Inst) : State → Prop
  | init : SrflpMade I (initial I)
  | step {s : State} {x : Nat} {d : Decision} (h : SrflpMade I s) (hx : nextVar I [s] = some x) (hd : d ∈ dom I x s) : SrflpMade I (trans I s d)
  | merged {l : List State} {k : Nat} (hne : l ≠ []) (h : ∀ s ∈ l, SrflpMade I s) (hk : ∀ s ∈ l, s.depth = k) : SrflpMade I (merge I l)

theorem SrflpMade.ok (hB : Bounded I F L) {s : State} (h : SrflpMade I s) : Ok I F s := by
  induction h with
  | init => exact ok_init F
  | step _ _ hd ih => exact Ok.trans hB ih hd
  | merged hne _ hk ih => exact merge_ok hB hne fun s hs => ⟨ih s hs, hk s hs⟩

/-- **C73.** In every state that comes up there is a cut for every department, those of the departments that may still be placed are at most the flow of the departments placed so far,
there are at most as many departments that must be placed as there are places, and together with those that may be placed there are enough. -/
theorem srflp_in_range (hB : Bounded I F L) {s : State} (h : SrflpMade I s) :
    s.depth ≤ I.n ∧ s.cut.length = I.n ∧ Bits.count I.n s.must ≤ I.n - s.depth ∧ I.n - s.depth ≤ Bits.count I.n s.must + (maybes I s).length ∧
    (∀ i, i ∈ Bits.iter I.n s.must ∨ i ∈ maybes I s → i < s.cut.length ∧ -((s.depth * F : Nat) : Int) ≤ s.at i ∧ s.at i ≤ ((s.depth * F : Nat) : Int)) ∧
    ∀ x d, nextVar I [s] = some x → d ∈ dom I x s → ∃ i : Nat, i < s.cut.length ∧ d = ⟨x, (i : Int)⟩ ∧ (i ∈ Bits.iter I.n s.must ∨ i ∈ maybes I s) ∧
      (musts I s i).length ≤ I.n - (s.depth + 1) ∧ s.depth + 1 ≤ I.n := by
  have hok := h.ok hB
  have hfew := hok.few
  have hmany := hok.many
  refine ⟨hok.depth, hok.cut, by omega, ?_, ?_, ?_⟩
  · rw [maybes_eq]; unfold Bits.count at hmany ⊢; omega
  · intro i hi
    rw [maybes_eq, Bits.mem_iter, Bits.mem_iter] at hi
    have hfree : Free s i := hi.imp (·.2) (·.2)
    rw [hok.cut]
    exact ⟨hok.lt hfree, hok.bound i hfree⟩
  · intro x d hx hd
    obtain ⟨T, hT, hlen, _⟩ := cost_choice hok hd
    obtain ⟨i, rfl, hi, hcase⟩ := mem_dom.1 hd
    have e : ((⟨x, (i : Int)⟩ : Decision).value.toNat) = i := rfl
    rw [e] at hlen
    refine ⟨i, by rw [hok.cut]; exact hi, rfl, ?_, by omega, by omega⟩
    rw [maybes_eq, Bits.mem_iter, Bits.mem_iter]
    rcases hcase with h1 | ⟨h1, _⟩
    · exact Or.inl ⟨hi, h1⟩
    · exact Or.inr ⟨hi, h1⟩

/-- **C73.** The vectors that the rough bound builds have the lengths it relies on: there is a length for every place, a length for every place that is not taken by a department that must be placed, a flow
for every pair of places, and enough cuts. -/
theorem srflp_estimate_in_range (hB : Bounded I F L) {s : State} (h : SrflpMade I s) :
    (lengths I s).1.length = completeArrangement I s ∧ (lengths I s).2.length = nFromMaybe I s ∧ (flows I s).length = nFlows I s ∧ nFromMaybe I s ≤ (maybes I s).length ∧
    completeArrangement I s = Bits.count I.n s.must + nFromMaybe I s := by
  have hok := h.ok hB
  have := hok.split
  refine ⟨(lengths_length hok).1, (lengths_length hok).2, flows_length hok, ?_, this.1⟩
  rw [maybes_eq]; exact this.2

/-- **C73.** The index `idx` into the flows stays in range: the two loops take as many flows as there are pairs of places. -/
theorem srflp_flow_index (ca : Nat) : ((List.range (ca - 1)).map fun i => ca - (i + 1)).sum = ca * (ca - 1) / 2 := by
  have key : ∀ k, k ≤ ca - 1 → 2 * ((List.range k).map fun i => ca - (i + 1)).sum + (ca - k) * (ca - k - 1) = ca * (ca - 1) := by
    intro k
    induction k with
    | zero => intro _; simp
    | succ k ih =>
      intro hk
      have := ih (by omega)
      rw [List.range_succ, List.map_append, List.sum_append]
      simp only [List.map_cons, List.map_nil, List.sum_cons, List.sum_nil]
      obtain ⟨m, hm⟩ : ∃ m, ca - k = m + 2 := ⟨ca - k - 2, by omega⟩
      have e1 : ca - (k + 1) = m + 1 := by omega
      rw [hm] at this
      rw [e1]
      have e2 : m + 2 - 1 = m + 1 := rfl
      have e3 : m + 1 - 1 = m := rfl
      rw [e2] at this
      rw [e3]
      have e4 : (m + 2) * (m + 1) = (m + 1) * m + 2 * (m + 1) := by ring
      omega
  have h1 := key (ca - 1) (Nat.le_refl _)
  rcases Nat.eq_zero_or_pos ca with h | h
  · subst h; rfl
  · have e : ca - (ca - 1) = 1 := by omega
    rw [e] at h1
    omega

theorem SrflpMade.pos (hB : Bounded I F L) (hf : Flows I) {s : State} (h : SrflpMade I s) : Pos s := by
  induction h with
  | init => exact Pos.init
  | step h _ hd ih => exact Pos.trans hf (h.ok hB) ih hd
  | merged hne h hk ih => exact Pos.merge hB hne (fun s hs => ⟨(h s hs).ok hB, hk s hs⟩) ih

/-- **C73.** The rough bound fits into 64 bits; the sums it consists of only grow, so that no intermediate result is too large either. -/
theorem srflp_estimate_no_overflow (hB : Bounded I F L) (hf : Flows I) (hl : Lengths I) {s : State} (h : SrflpMade I s) : -(2 ^ 63 - 1) ≤ estimate I s ∧ estimate I s ≤ 0 := by
  have := estimate_range hB hf hl (h.ok hB) (h.pos hB hf)
  omega

/-- **C73 is false for the rough bound**: `n_from_maybe_place - 1` goes below zero whenever all that is left must be placed, and `complete_arrangement - 1` does when nothing is left. -/
theorem srflp_underflow_iff (hB : Bounded I F L) {s : State} (h : SrflpMade I s) : estimateUnderflows I s = true ↔ s.depth = I.n ∨ Bits.count I.n s.must = I.n - s.depth := by
  have hok := h.ok hB
  have h1 := hok.few
  have h2 := hok.depth
  unfold estimateUnderflows nFromMaybe completeArrangement
  rw [Bool.or_eq_true, decide_eq_true_eq, decide_eq_true_eq]
  omega

/-- **C73 is false for the rough bound**: this is so in every state that is reached without merging, the initial one included.  (With overflow checks the program panics before it has
done anything; without them the result is multiplied by 0.) -/
theorem srflp_estimate_underflows (hB : Bounded I F L) {ds : List Decision} {v : Int} {s : State} (h : Run (problem I) (initial I) ds v s) : SrflpMade I s ∧ estimateUnderflows I s = true := by
  have key : ∀ {s0 : State} {ds : List Decision} {v : Int} {s : State}, Run (problem I) s0 ds v s → ∀ pre, Exact I pre s0 → SrflpMade I s0 → ∃ pre', Exact I pre' s ∧ SrflpMade I s := by
    intro s0 ds v s h
    induction h with
    | nil s => intro pre h1 h2; exact ⟨pre, h1, h2⟩
    | cons hx hd _ ih =>
      intro pre h1 h2
      obtain ⟨i, rfl, hi⟩ := h1.dom.1 hd
      exact ih _ (h1.step hi) (h2.step hx hd)
  obtain ⟨pre, h1, h2⟩ := key h [] exact_init .init
  refine ⟨h2, (srflp_underflow_iff hB h2).2 (Or.inr ?_)⟩
  have := h1.count
  omega

/-- **C73.** The factor is 0 then, so that the wrapped number does not matter. -/
theorem srflp_underflow_harmless {s : State} (h : nFromMaybe I s < 1) (wrapped : Nat) : nFromMaybe I s * wrapped / 2 = nFromMaybe I s * (nFromMaybe I s - 1) / 2 := by
  have : nFromMaybe I s = 0 := by omega
  rw [this]; simp

/-- A merged state in which nothing goes below zero. -/
example : SrflpMade four (merge four [trans four (initial four) ⟨0, 0⟩, trans four (initial four) ⟨0, 1⟩]) ∧
    estimateUnderflows four (merge four [trans four (initial four) ⟨0, 0⟩, trans four (initial four) ⟨0, 1⟩]) = false := by
  refine ⟨.merged (k := 1) (by simp) ?_ (by decide), by decide +kernel⟩
  intro s hs
  simp only [List.mem_cons, List.not_mem_nil, or_false] at hs
  rcases hs with rfl | rfl
  · exact .step (x := 0) .init rfl (by decide)
  · exact .step (x := 0) .init rfl (by decide)

end Verif.Props
