import Verif.Proofs.Estimate
import Verif.Proofs.Tsptw.Rough
import Verif.Examples.Tsptw
import Verif.Props.Parallel
/-!
C52-C57: the example `tsptw`, travelling salesman with time windows.
-/
set_option autoImplicit false

namespace Verif.Props
open Verif Spec Tsptw
variable {I : Inst} {B : Nat}

/-! ### C52, C53: the dynamic program and the tours -/

/-- **C52.** Every feasible solution of the dynamic program is a feasible tour, and its objective value is the duration of the tour with the sign changed. -/
theorem tsptw_solution_is_tour (hn : 1 ≤ I.n) {ds : List Decision} {v : Int} (h : Solution (problem I) ds v) :
    ∃ l T, Tour I l T ∧ ds = visits 0 (l ++ [0]) ∧ v = -(T : Int) := by
  obtain ⟨u, ⟨e, hr, he⟩, rfl⟩ := h
  obtain ⟨l, T, h1, h2, h3, h4⟩ := Exact.completion hr he (exact_init hn) (by show 0 < I.n; omega)
  refine ⟨l, T, ⟨?_, h2⟩, h3, ?_⟩
  · have e : Bits.iter I.n (problem I).init.must = List.range' 1 (I.n - 1) := Bits.iter_full_clear_zero I.n
    rw [e] at h1; exact h1
  · show 0 + u = -(T : Int)
    rw [h4]; omega

/-- **C53 (partial).** If the distances satisfy the triangle inequality, every feasible tour is a solution of the dynamic program. -/
theorem tsptw_tour_is_solution_partial (hn : 1 ≤ I.n) (htri : Triangle I) {l : List Nat} {T : Nat} (h : Tour I l T) :
    Solution (problem I) (visits 0 (l ++ [0])) (-(T : Int)) := by
  have hp : l.Perm (Bits.iter I.n (initial I).must) := by
    have e : Bits.iter I.n (initial I).must = List.range' 1 (I.n - 1) := Bits.iter_full_clear_zero I.n
    rw [e]; exact h.1
  have hc := Exact.complete htri l (exact_init hn) (by show 0 < I.n; omega) hp h.2
  refine ⟨_, hc, ?_⟩
  show -(T : Int) = 0 + (((0 : Nat) : Int) - T)
  omega

/-- **C53 (partial).** With the triangle inequality, the optimum of the dynamic program is the duration of a shortest tour. -/
theorem tsptw_optimum_partial (hn : 1 ≤ I.n) (htri : Triangle I) (v : Int) : IsOptimum (problem I) v ↔ ∃ T : Nat, v = -(T : Int) ∧ Shortest I T := by
  constructor
  · rintro ⟨⟨ds, hs⟩, hbest⟩
    obtain ⟨l, T, h1, _, h3⟩ := tsptw_solution_is_tour hn hs
    refine ⟨T, h3, ⟨l, h1⟩, ?_⟩
    intro l' T' h'
    have := hbest _ _ (tsptw_tour_is_solution_partial hn htri h')
    omega
  · rintro ⟨T, rfl, ⟨l, hl⟩, hbest⟩
    refine ⟨⟨_, tsptw_tour_is_solution_partial hn htri hl⟩, ?_⟩
    intro ds v hs
    obtain ⟨l', T', h1, _, h3⟩ := tsptw_solution_is_tour hn hs
    have := hbest l' T' h1
    omega

/-- **C53 is false in general**: without the triangle inequality the dynamic program may have no solution although there is a feasible tour. -/
theorem tsptw_misses_tours : ∃ I : Inst, 1 ≤ I.n ∧ (∃ l T, Tour I l T) ∧ Infeasible (problem I) := by
  refine ⟨shortcut, by decide, ⟨[1, 2], 3, tourB_spec (by decide)⟩, ?_⟩
  rintro ds v ⟨u, ⟨e, hr, he⟩, rfl⟩
  cases hr with
  | nil _ => exact absurd (nextVar_none he) (by decide)
  | cons hx hd _ =>
    have hx' := (nextVar_some hx).1
    subst hx'
    have : (problem shortcut).dom (problem shortcut).init.depth (problem shortcut).init = [] := by decide
    rw [this] at hd
    cases hd

/-- A tour of four cities of duration 5, seen as a solution. -/
example : Triangle greedy ∧ Tour greedy [2, 3, 1] 5 ∧ Solution (problem greedy) [⟨0, 2⟩, ⟨1, 3⟩, ⟨2, 1⟩, ⟨3, 0⟩] (-5) :=
  ⟨triangleB_spec (by decide), tourB_spec (by decide), Inst.complete_solution (p := problem greedy) (v := -5) (by decide)⟩

/-! ### C54: the rough bound -/

/-- **C54 (partial).** On every state that is reached without merging, before the last step, the estimate is an upper bound on what can still be gained. -/
theorem tsptw_estimate_exact_partial (hn : 1 ≤ I.n) {s : State} {ds : List Decision} {v : Int} (hr : Reach (problem I) s ds v) (hd : s.depth < I.n)
    {ds' : List Decision} {u : Int} (hc : Completion (problem I) s ds' u) : u ≤ (problem I).estimate s := by
  obtain ⟨w, hrun, _⟩ := hr
  have key : ∀ {s e : State} {ds : List Decision} {v : Int}, Run (problem I) s ds v e → ∀ {i t : Nat}, Exact I s i t → ∃ i' t', Exact I e i' t' := by
    intro s e ds v h
    induction h with
    | nil s => intro i t h; exact ⟨i, t, h⟩
    | cons hx hd _ ih =>
      intro i t h
      obtain ⟨j, _, _, hex, _⟩ := h.next hx hd
      exact ih hex
  obtain ⟨i, t, hex⟩ := key hrun (exact_init hn)
  obtain ⟨e, hr, he⟩ := hc
  obtain ⟨l, T, h1, h2, _, h4⟩ := Exact.completion hr he hex hd
  rw [h4]
  exact hex.estimate h1 h2

/-- The states reached without merging. -/
def tsptwExact (I : Inst) : Layering State := { ok := fun s => ∃ i t, Exact I s i t ∧ Ok I B s, lvl := State.depth, var := id }

/-- **C54 (partial).** With the usual conventions for the depot (it is at distance 0 from itself and its window is not empty), the estimate is admissible on
all states reached without merging. -/
theorem tsptw_admissible_exact_partial (h00 : I.dist 0 0 = 0) (hw : I.earliest 0 ≤ I.latest 0) : Admissible (problem I) (tsptwExact (B := B) I) := by
  rintro s ⟨i, t, hex, _⟩ ds v ⟨e, hr, he⟩
  by_cases hd : s.depth < I.n
  · obtain ⟨l, T, h1, h2, _, h4⟩ := Exact.completion hr he hex hd
    rw [h4]
    exact hex.estimate h1 h2
  · rcases hex.cnt with h | ⟨h1, h2, rfl, h4⟩
    · omega
    · cases hr with
      | nil _ =>
        show (0 : Int) ≤ estimate I s
        rw [hex.estimate_eq, h2, Bits.iter_zero]
        simp only [List.any_nil, List.map_nil, List.sum_nil, List.foldl_nil, if_true, h00, Nat.min_zero, Nat.add_zero]
        rw [if_neg (by simp), if_neg (by omega)]
        simp
      | cons hx _ _ => exact absurd h1 (nextVar_some hx).2

/-- Two states that have visited two of three cities. -/
def greedyLayer : List State := [[1, 2], [1, 3]].map fun l => ((Inst.follow (problem greedy) (initial greedy) (visits 0 l)).map (·.2)).getD default

/-- **C54 is false for merged states**: with three cities to visit, merge the two states that have visited 1 and 2, and 1 and 3.  One city and the way home remain, which
takes 2; the estimate is the cost of *two* cities and the way home. -/
theorem tsptw_estimate_merged_wrong : Triangle greedy ∧ (∀ s ∈ greedyLayer, s.depth = 2 ∧ ∃ ds v, Reach (problem greedy) s ds v) ∧
    ∃ ds v, Completion (problem greedy) (merge greedy greedyLayer) ds v ∧ (problem greedy).estimate (merge greedy greedyLayer) < v := by
  refine ⟨triangleB_spec (by decide), ?_, visits 2 [2, 0], -2, Inst.complete_spec (by decide), by decide⟩
  have reach : ∀ l : List Nat, ∀ v t, Inst.follow (problem greedy) (initial greedy) (visits 0 l) = some (v, t) → ∃ ds v, Reach (problem greedy) t ds v :=
    fun l v t h => ⟨_, _, v, Inst.follow_run _ _ h, rfl⟩
  intro s hs
  simp only [greedyLayer, List.map_cons, List.map_nil, List.mem_cons, List.not_mem_nil, or_false] at hs
  rcases hs with rfl | rfl
  · exact ⟨by decide, reach [1, 2] _ _ (show _ = some (-3, _) from by decide)⟩
  · exact ⟨by decide, reach [1, 3] _ _ (show _ = some (-2, _) from by decide)⟩

/-! ### C55: the relaxation -/

/-- **C55 (partial).** Whatever can be completed from a state can be completed, by the same decisions, from the state it is merged into, and the relaxed salesman is home no
later.  The value of the completion is worse by at most the time the merged state is ahead of the original. -/
theorem tsptw_merge_ends_earlier_partial {l : List State} {k : Nat} (hl : ∀ s ∈ l, Ok I B s ∧ s.depth = k) {s : State} (hs : s ∈ l)
    {ds : List Decision} {v : Int} {e : State} (hr : Run (problem I) s ds v e) (he : (problem I).nextVar [e] = none) :
    ∃ v' e', Run (problem I) (merge I l) ds v' e' ∧ (problem I).nextVar [e'] = none ∧ e'.elapsed.earliest ≤ e.elapsed.earliest ∧
      v ≤ v' + ((s.elapsed.earliest : Int) - (merge I l).elapsed.earliest) := by
  obtain ⟨v', e', h1, h2⟩ := Above.run hr (merge_above hl hs)
  refine ⟨v', e', h1, h2.terminal he, h2.early, ?_⟩
  have := run_value hr
  have := run_value h1
  have := h2.early
  omega

/-- **C55 (partial).** If no city ever opens late (so that there is no waiting), the relaxation is sound. -/
theorem tsptw_relaxation_sound_partial (hn : 1 ≤ I.n) (hB : Bounded I B) (hw : ∀ j, I.earliest j = 0) :
    SoundRelaxation (problem I) (relaxation I) (layering I B) B := by
  refine ⟨layered hn hB, ?_⟩
  intro l k hl s x d hs hx hd hm ds v ⟨e, hr, he⟩
  obtain ⟨v', e', h1, h2, h3⟩ := Above.run_nowait hw hr (merge_above (B := B) hl hm)
  refine ⟨ds, v', ⟨e', h1, h2.terminal he⟩, ?_⟩
  show (problem I).cost s d + v ≤ (problem I).cost s d + v'
  omega

/-- The relaxation with a cost that makes up for the time a merged state is ahead: this is not what the code does. -/
def tsptwRepaired (I : Inst) : Relaxation State :=
  { merge := merge I, relax := fun _ dst new _ c => c + ((dst.elapsed.earliest : Int) - new.elapsed.earliest) }

/-- With that cost, the relaxation is sound for every instance.  (The bound on costs grows: a relaxed cost can make up for all the time spent so far.) -/
theorem tsptw_repaired_sound :
    SoundRelaxation (problem I) (tsptwRepaired I) (layering I B) (((I.n + 1) * B : Nat) : Int) := by
  refine ⟨⟨fun l k hne hl => merge_ok hne hl, ?_⟩, ?_⟩
  · intro l k hl s x d hs hx hd hm
    have he := merge_earliest (I := I) hm
    have hc := cost_eq (I := I) s d
    have h1 : s.elapsed.earliest ≤ s.depth * B := hs.early
    have h2 : s.depth * B ≤ I.n * B := Nat.mul_le_mul_right _ hs.depth
    have h3 : (I.n + 1) * B = I.n * B + B := by rw [Nat.add_mul, Nat.one_mul]
    change (problem I).cost s d = _ - (((problem I).trans s d).elapsed.earliest : Int) at hc
    refine ⟨?_, ?_⟩
    · show (problem I).cost s d ≤ (problem I).cost s d + ((((problem I).trans s d).elapsed.earliest : Int) - (merge I l).elapsed.earliest)
      change (merge I l).elapsed.earliest ≤ ((problem I).trans s d).elapsed.earliest at he
      omega
    · show (problem I).cost s d + ((((problem I).trans s d).elapsed.earliest : Int) - (merge I l).elapsed.earliest) ≤ _
      omega
  · intro l k hl s x d hs hx hd hm ds v ⟨e, hr, he⟩
    obtain ⟨v', e', h1, h2, _, h4⟩ := tsptw_merge_ends_earlier_partial (B := B) hl hm hr he
    refine ⟨ds, v', ⟨e', h1, h2⟩, ?_⟩
    show (problem I).cost s d + v ≤ (problem I).cost s d + ((((problem I).trans s d).elapsed.earliest : Int) - (merge I l).elapsed.earliest) + v'
    omega

/-- The bound 0 is admissible: all costs are negative or zero. -/
theorem tsptw_zero_admissible : Admissible { problem I with estimate := fun _ => 0 } (layering I B) := by
  rintro s hs ds v ⟨e, hr, _⟩
  show v ≤ 0
  clear hs
  have key : ∀ {s e : State} {ds : List Decision} {v : Int}, Run { problem I with estimate := fun _ => 0 } s ds v e → v ≤ 0 := by
    intro s e ds v h
    induction h with
    | nil s => omega
    | @cons s e x d ds v hx hd _ ih =>
      have : cost I s d ≤ 0 := by unfold cost; simp only; omega
      change cost I s d + v ≤ 0
      omega
  exact key hr

/-- The solver with the bound 0 and the repaired relaxation. -/
def tsptwRepairedCfg (I : Inst) (factor threads : Nat) : SolverCfg State :=
  { cfgOf I factor threads .lastExactLayer with p := { problem I with estimate := fun _ => 0 }, r := tsptwRepaired I }

/-- ...and the solver that uses it (with the bound 0) returns the duration of a shortest tour, with any number of threads. -/
theorem tsptw_repaired_optimal (hn : 1 ≤ I.n) {w n : Nat} (hw : 1 ≤ w) (hu : I.n * w < 2 ^ 48) (h1 : 1 ≤ n) (hB : Bounded I B) (hC : 4 * ((I.n : Int) + 2) * (((I.n + 1) * B : Nat) : Int) ≤ isizeMax) (htri : Triangle I)
    {s : Sys State (tsptwRepairedCfg I w n).fr.F} (hs : ReachableMax (tsptwRepairedCfg I w n) s) (hf : Finished s) {T : Nat} (hT : Shortest I T) :
    Par.bestValue (tsptwRepairedCfg I w n) s.crit = some (-(T : Int)) := by
  have hwf := wellFormed hn hB
  have hle : (B : Int) ≤ (((I.n + 1) * B : Nat) : Int) := by
    have : 1 * B ≤ (I.n + 1) * B := Nat.mul_le_mul_right _ (by omega)
    omega
  have hg : GoodCfg (tsptwRepairedCfg I w n) (layering I B) (((I.n + 1) * B : Nat) : Int) := by
    refine ⟨WellFormed.estimate { ok_init := hwf.ok_init, ok_trans := hwf.ok_trans, lvl_init := hwf.lvl_init, lvl_trans := hwf.lvl_trans, next_nil := hwf.next_nil, next_var := hwf.next_var, init_bound := ?_, cost_bound := ?_, no_overflow := hC } _, tsptw_zero_admissible, ?_, (cfgOf_base hn hw hu hB n .lastExactLayer).width⟩
    · have := hwf.init_bound; omega
    · intro s x d h1 h2 h3
      have := hwf.cost_bound s x d h1 h2 h3
      omega
    · exact tsptw_repaired_sound.estimate _
  have hopt : IsOptimum (tsptwRepairedCfg I w n).p (-(T : Int)) := (IsOptimum.estimate_iff _).2 ((tsptw_optimum_partial hn htri (-(T : Int))).2 ⟨T, rfl, hT⟩)
  exact (maximize_optimal (cfg := tsptwRepairedCfg I w n) (laws I w n .lastExactLayer) hg (Or.inl rfl) (Nat.le_refl _) h1 hs hf hopt).1

/-- It finds the tour of duration 18. -/
example : ∃ s, ReachableMax (tsptwRepairedCfg waits 1 1) s ∧ Finished s ∧ Par.bestValue (tsptwRepairedCfg waits 1 1) s.crit = some (-18) := by
  have h : Inst.test (tsptwRepairedCfg waits 1 1) (List.replicate 15 (0, false)) (fun s => Inst.allDone s && Par.bestValue (tsptwRepairedCfg waits 1 1) s.crit == some (-18)) = true := by decide +kernel
  obtain ⟨s, h1, h2⟩ := Inst.test_spec_max (by decide) h
  simp only [Bool.and_eq_true, beq_iff_eq] at h2
  exact ⟨s, h1, Inst.allDone_spec h2.1, h2.2⟩

/-- **C55 is false**: a solver that uses the relaxation with the trivial bound 0 returns a tour of duration 19 for an instance with a tour of duration 18... -/
theorem tsptw_waiting_not_optimal : Triangle waits ∧ ∃ s, ReachableMax (cfg0 waits) s ∧ Finished s ∧ Par.bestValue (cfg0 waits) s.crit = some (-19) ∧ Tour waits [2, 1, 3] 18 := by
  have h : Inst.test (cfg0 waits) (List.replicate 11 (0, false)) (fun s => Inst.allDone s && Par.bestValue (cfg0 waits) s.crit == some (-19)) = true := by decide +kernel
  obtain ⟨s, h1, h2⟩ := Inst.test_spec_max (by decide) h
  simp only [Bool.and_eq_true, beq_iff_eq] at h2
  exact ⟨triangleB_spec (by decide), s, h1, Inst.allDone_spec h2.1, h2.2, tourB_spec (by decide)⟩

/-- ...so the relaxation is not sound for that instance, whatever states are called meaningful. -/
theorem tsptw_relaxation_unsound (S : Layering State) (C : Int) (hwf : WellFormed { problem waits with estimate := fun _ => 0 } S C)
    (hadm : Admissible { problem waits with estimate := fun _ => 0 } S) :
    ¬ SoundRelaxation { problem waits with estimate := fun _ => 0 } (relaxation waits) S C := by
  intro hr
  obtain ⟨_, s, h1, h2, h3, h4⟩ := tsptw_waiting_not_optimal
  have hg : GoodCfg (cfg0 waits) S C := ⟨hwf, hadm, hr, fun s => (cfgOf_base (B := 30) (I := waits) (by decide) (w := 1) (by decide) (by decide) (boundedB_spec (by decide)) 1 .lastExactLayer).width s⟩
  obtain ⟨_, hcase⟩ := finished_optimal (cfg := cfg0 waits) (laws waits 1 1 .lastExactLayer) hg (Or.inl rfl) (Nat.le_refl _) (Nat.le_refl _) h1.reachable h2
    (by simp [Par.proved, h1.noint])
  have hsol : Solution { problem waits with estimate := fun _ => 0 } (visits 0 ([2, 1, 3] ++ [0])) (-18) :=
    Inst.complete_solution (p := { problem waits with estimate := fun _ => 0 }) (v := -18) (by decide)
  rcases hcase with ⟨v, sol, g1, _, _, g4, _⟩ | ⟨g1, _⟩
  · rw [h3] at g1; cases g1
    have := g4.2 _ _ hsol
    omega
  · rw [h3] at g1; cases g1

/-- The hypotheses of `tsptw_relaxation_unsound` can be met. -/
example : WellFormed { problem waits with estimate := fun _ => 0 } (layering waits 30) 30 ∧ Admissible { problem waits with estimate := fun _ => 0 } (layering waits 30) :=
  ⟨WellFormed.estimate (wellFormed (by decide) (boundedB_spec (by decide))) _, tsptw_zero_admissible⟩

/-- Merging two states: the one that has visited 1 and 3 allows everything it did before. -/
example : SoundRelaxation (problem greedy) (relaxation greedy) (layering greedy 10) 10 :=
  tsptw_relaxation_sound_partial (by decide) (boundedB_spec (by decide)) (by
    intro j
    show (([(0, 1000), (0, 49), (0, 26), (0, 15)] : List (Nat × Nat)).getD j (0, 0)).1 = 0
    match j with
    | 0 | 1 | 2 | 3 => rfl
    | _ + 4 => rfl)

/-! ### C56: the program -/

/-- **C56 (partial).** Whatever the threads do, the incumbent of the solver is a feasible tour of the recorded duration: the program never reports a tour that does not exist. -/
theorem tsptw_incumbent_tour_partial {cfg : SolverCfg State} (hp : cfg.p = problem I) (hr : cfg.r = relaxation I) (hw : ∀ s, 1 ≤ cfg.width s) (hn : 1 ≤ I.n) (hB : Bounded I B)
    (L : FrontierLaws cfg.fr) (ht : cfg.nbThreads ≤ cfg.custom) {s : Sys State cfg.fr.F} (hs : Reachable cfg s) :
    (Par.bestSolution cfg s.crit = none ∧ Par.bestValue cfg s.crit = none) ∨
      ∃ (sol : List Decision) (l : List Nat) (T : Nat), Par.bestSolution cfg s.crit = some sol ∧ Par.bestValue cfg s.crit = some (-(T : Int)) ∧ Tour I l T ∧ sol.Perm (visits 0 (l ++ [0])) := by
  have hg : BaseCfg cfg (layering I B) B := ⟨hp ▸ wellFormed hn hB, hp ▸ hr ▸ layered hn hB, hw⟩
  rcases incumbent_real L hg ht hs with h | ⟨sol, v, h1, h2, _, ds, h4, h5⟩
  · exact Or.inl h
  · right
    rw [hp] at h5
    obtain ⟨l, T, g1, g2, rfl⟩ := tsptw_solution_is_tour hn h5
    exact ⟨sol, l, T, h1, h2, g1, g2 ▸ h4⟩

/-- **C56 (partial).** The solver terminates on this problem: in an infinite run there would be spurious wake-ups again and again. -/
theorem tsptw_terminates_partial (hn : 1 ≤ I.n) {w : Nat} (hw : 1 ≤ w) (hu : I.n * w < 2 ^ 48) (hB : Bounded I B) (n : Nat) (c : CutsetType) (st : Nat → Sys State (cfgOf I w n c).fr.F) (ls : Nat → Lbl State)
    (hr : Reachable (cfgOf I w n c) (st 0)) (hv : ∀ k, ValidLbl (ls k)) (hs : ∀ k, Par.step (cfgOf I w n c) (st k) (ls k) = .ok (st (k + 1))) :
    ∀ k, ∃ j, k ≤ j ∧ ∃ i, ls j = .spurious i :=
  runs_terminate (laws I w n c) (cfgOf_base hn hw hu hB n c) (Nat.le_refl _) st ls hr hv hs

/-- **C56 is false**: the program, with its default parameters, returns a tour of duration 6 for an instance that has a tour of duration 5.  The distances satisfy the
triangle inequality and there is no waiting, so that the relaxation is sound: the bound of merged states is to blame. -/
theorem tsptw_not_optimal : Triangle greedy ∧ ∃ s, ReachableMax (cfgOf greedy 1 1 .lastExactLayer) s ∧ Finished s ∧
    Par.proved (cfgOf greedy 1 1 .lastExactLayer) s.crit = true ∧ Par.bestValue (cfgOf greedy 1 1 .lastExactLayer) s.crit = some (-6) ∧ Tour greedy [2, 3, 1] 5 := by
  have h : Inst.test (cfgOf greedy 1 1 .lastExactLayer) (List.replicate 7 (0, false))
      (fun s => Inst.allDone s && (Par.proved (cfgOf greedy 1 1 .lastExactLayer) s.crit && Par.bestValue (cfgOf greedy 1 1 .lastExactLayer) s.crit == some (-6))) = true := by decide +kernel
  obtain ⟨s, h1, h2⟩ := Inst.test_spec_max (by decide) h
  simp only [Bool.and_eq_true, beq_iff_eq] at h2
  exact ⟨triangleB_spec (by decide), s, h1, Inst.allDone_spec h2.1, h2.2.1, h2.2.2, tourB_spec (by decide)⟩

/-- An exact compilation of the whole problem finds a shortest tour. -/
theorem tsptw_exact_shortest (hn : 1 ≤ I.n) (hB : Bounded I B) (htri : Triangle I) (h00 : I.dist 0 0 = 0) (hw : I.earliest 0 ≤ I.latest 0) {o : Oracle State} (ho : o.Valid)
    (r : Relaxation State) (rk : State → State → Ordering) (w : Nat) (m0 : Dd State) :
    ∃ D, m0.compile .all o (problem I) r rk Reads.none ⟨.exact, w, ⟨initial I, 0, [], isizeMax⟩, isizeMin⟩ = some D ∧
      ∀ T : Nat, D.bestValue = some (-(T : Int)) ↔ Shortest I T := by
  have hwf := wellFormed hn hB
  have hstep : ∀ s x d, (∃ i t, Exact I s i t ∧ Ok I B s) → (problem I).nextVar [s] = some x → d ∈ (problem I).dom x s → ∃ i t, Exact I (trans I s d) i t ∧ Ok I B (trans I s d) := by
    rintro s x d ⟨i, t, h1, h2⟩ hx hd
    obtain ⟨j, _, _, h3, _⟩ := h1.next hx hd
    exact ⟨j, _, h3, hwf.ok_trans s x d h2 hx hd⟩
  have hwf' : WellFormed (problem I) (tsptwExact (B := B) I) B :=
    { ok_init := ⟨0, 0, exact_init hn, ok_init hn⟩
      ok_trans := hstep
      lvl_init := rfl
      lvl_trans := fun _ _ _ _ _ _ => rfl
      next_nil := rfl
      next_var := fun l k hl hk => hwf.next_var l k hl fun s hs => ⟨(hk s hs).1.choose_spec.choose_spec.2, (hk s hs).2⟩
      init_bound := hwf.init_bound
      cost_bound := fun s x d hs => hwf.cost_bound s x d hs.choose_spec.choose_spec.2
      no_overflow := hwf.no_overflow }
  have hgen : Genuine (problem I) ⟨initial I, 0, [], isizeMax⟩ := ⟨[], .refl _, 0, Run.nil _, rfl⟩
  obtain ⟨D, h1, _, h3, h4, h5⟩ := exact_compile_optimum (v := .all) (r := r) (rank := rk) (rd := Reads.none)
    (inp := ⟨.exact, w, ⟨initial I, 0, [], isizeMax⟩, isizeMin⟩) (Or.inl rfl) ho hwf' (tsptw_admissible_exact_partial h00 hw) rfl hgen m0
  refine ⟨D, h1, ?_⟩
  have thr : ∀ w, Through (problem I) ⟨initial I, 0, [], isizeMax⟩ w ↔ ∃ ds, Solution (problem I) ds w := by
    intro w
    constructor
    · rintro ⟨ds, u, h, rfl⟩; exact ⟨ds, u, h, rfl⟩
    · rintro ⟨ds, u, h, rfl⟩; exact ⟨ds, u, h, rfl⟩
  intro T
  have hopt : ∀ v, IsOptimum (problem I) v ↔ BestThrough (problem I) ⟨initial I, 0, [], isizeMax⟩ v := by
    intro v
    refine ⟨fun h => ⟨(thr v).2 h.1, fun w hw => ?_⟩, fun h => ⟨(thr v).1 h.1, fun ds w hw => h.2 w ((thr w).2 ⟨ds, hw⟩)⟩⟩
    obtain ⟨ds, hs⟩ := (thr w).1 hw
    exact h.2 ds w hs
  constructor
  · intro hb
    have hth := h5 _ hb
    have : IsOptimum (problem I) (-(T : Int)) := by
      rw [hopt]
      refine ⟨hth, ?_⟩
      intro w hw
      rcases h4 w hw with h | ⟨b, hb', hle⟩
      · simp only at h
        obtain ⟨ds, hs⟩ := (thr w).1 hw
        have := (Par.solution_bounds (cfg := cfgOf I 1 1 .lastExactLayer) hwf hs).1
        omega
      · rw [hb] at hb'; cases hb'; exact hle
    obtain ⟨T', h1, h2⟩ := (tsptw_optimum_partial hn htri _).1 this
    have : T = T' := by omega
    rw [this]; exact h2
  · intro hs
    have hv := (hopt _).1 ((tsptw_optimum_partial hn htri _).2 ⟨T, rfl, hs⟩)
    obtain ⟨ds, hsol⟩ := (thr _).1 hv.1
    exact h3 _ hv (Par.solution_bounds (cfg := cfgOf I 1 1 .lastExactLayer) hwf hsol).1

example : Bounded waits 30 ∧ Triangle waits ∧ waits.dist 0 0 = 0 ∧ waits.earliest 0 ≤ waits.latest 0 :=
  ⟨boundedB_spec (by decide), triangleB_spec (by decide), rfl, by decide⟩

/-! ### C57: nothing is out of range -/

/-- The states that come up in a diagram: the initial one, those reached by a legal decision and those made by merging a layer. -/
inductive TsptwMade (I : Inst) : State → Prop
  | init : TsptwMade I (initial I)
  | step {s : State} {x : Nat} {d : Decision} (h : TsptwMade I s) (hx : (problem I).nextVar [s] = some x) (hd : d ∈ (problem I).dom x s) : TsptwMade I (trans I s d)
  | merged {l : List State} {k : Nat} (hne : l ≠ []) (h : ∀ s ∈ l, TsptwMade I s) (hk : ∀ s ∈ l, s.depth = k) : TsptwMade I (merge I l)

theorem TsptwMade.ok (hn : 1 ≤ I.n) (hB : Bounded I B) {s : State} (h : TsptwMade I s) : Ok I B s := by
  induction h with
  | init => exact ok_init hn
  | step _ hx hd ih => exact (wellFormed hn hB).ok_trans _ _ _ ih hx hd
  | merged hne _ hk ih => exact (merge_ok hne fun s hs => ⟨ih s hs, hk s hs⟩).1

/-- **C57.** In every state that comes up there is a city the salesman may be in (so that `min().unwrap()` does not fail), all cities are in range, no more than `n` have been visited and
the time that has passed is bounded; and all decisions are cities. -/
theorem tsptw_in_range (hn : 1 ≤ I.n) (hB : Bounded I B) {s : State} (h : TsptwMade I s) :
    (∃ i, i < I.n ∧ s.position.has i = true) ∧ (∀ i, s.position.has i = true → i < I.n) ∧ (∀ i, s.may i = true → i < I.n) ∧ s.depth ≤ I.n ∧
      s.elapsed.earliest ≤ I.n * B ∧ s.elapsed.latest ≤ I.n * B ∧ ∀ x d, d ∈ (problem I).dom x s → ∃ j : Nat, j < I.n ∧ d = ⟨x, (j : Int)⟩ := by
  have hok : Ok I B s := h.ok hn hB
  obtain ⟨i, hi⟩ := pos_exists hok.pos
  have hm : s.depth * B ≤ I.n * B := Nat.mul_le_mul_right _ hok.depth
  refine ⟨⟨i, pos_has_lt hok.pos hi, hi⟩, fun i hi => pos_has_lt hok.pos hi, ?_, hok.depth, Nat.le_trans hok.early hm, Nat.le_trans hok.late hm, fun x d hd => dom_value hn hd⟩
  intro i hi
  unfold State.may at hi
  rw [Bool.or_eq_true] at hi
  rcases hi with hi | hi
  · exact hok.must i hi
  · exact maybe_sub hok i hi

/-- The cities 4 and 5 are still to be visited in all these states. -/
def crowdLayer : List State := [[1, 2], [1, 3], [2, 3], [1, 6]].map fun l => ((Inst.follow (problem crowd) (initial crowd) (visits 0 l)).map (·.2)).getD default

/-- The counter `complete_tour` of the estimate, on the other hand, can drop below zero: merge four states of the second layer, then visit four cities that may, but need not, be
visited.  The estimates along the way do not rule these out.  With overflow checks this is a panic. -/
theorem tsptw_estimate_underflows : Triangle crowd ∧ (∀ s ∈ crowdLayer, s.depth = 2 ∧ TsptwMade crowd s) ∧
    (∀ k, k < 4 → ∃ v s, Run (problem crowd) (merge crowd crowdLayer) (visits 2 ([1, 2, 3, 6].take k)) v s ∧ isizeMin < (problem crowd).estimate s) ∧
    ∃ v s, Run (problem crowd) (merge crowd crowdLayer) (visits 2 [1, 2, 3, 6]) v s ∧ s.depth < crowd.n ∧ underflows crowd s = true := by
  have made : ∀ {s e : State} {ds : List Decision} {v : Int}, Run (problem crowd) s ds v e → TsptwMade crowd s → TsptwMade crowd e := by
    intro s e ds v h
    induction h with
    | nil s => exact id
    | cons hx hd _ ih => intro h; exact ih (.step h hx hd)
  have find : ∀ (s0 : State) (ds : List Decision) (P : State → Bool), (match Inst.follow (problem crowd) s0 ds with | some (_, s) => P s | none => false) = true →
      ∃ v s, Run (problem crowd) s0 ds v s ∧ P s = true := by
    intro s0 ds P h
    split at h
    · rename_i v s hf; exact ⟨v, s, Inst.follow_run _ _ hf, h⟩
    · cases h
  refine ⟨triangleB_spec (by decide), ?_, ?_, ?_⟩
  · have key : ∀ l : List Nat, (match Inst.follow (problem crowd) (initial crowd) (visits 0 l) with | some (_, s) => decide (s.depth = 2) | none => false) = true →
        ∀ s, s = ((Inst.follow (problem crowd) (initial crowd) (visits 0 l)).map (·.2)).getD default → s.depth = 2 ∧ TsptwMade crowd s := by
      intro l h s hs
      split at h
      · rename_i v t hf
        rw [hf] at hs
        change s = t at hs
        subst hs
        exact ⟨by simpa using h, made (Inst.follow_run _ _ hf) .init⟩
      · cases h
    intro s hs
    simp only [crowdLayer, List.map_cons, List.map_nil, List.mem_cons, List.not_mem_nil, or_false] at hs
    rcases hs with rfl | rfl | rfl | rfl
    · exact key [1, 2] (by decide +kernel) _ rfl
    · exact key [1, 3] (by decide +kernel) _ rfl
    · exact key [2, 3] (by decide +kernel) _ rfl
    · exact key [1, 6] (by decide +kernel) _ rfl
  · intro k hk
    have : ∃ v s, Run (problem crowd) (merge crowd crowdLayer) (visits 2 ([1, 2, 3, 6].take k)) v s ∧ decide (isizeMin < (problem crowd).estimate s) = true := by
      match k, hk with
      | 0, _ => exact find _ _ (fun s => decide (isizeMin < (problem crowd).estimate s)) (by decide +kernel)
      | 1, _ => exact find _ _ (fun s => decide (isizeMin < (problem crowd).estimate s)) (by decide +kernel)
      | 2, _ => exact find _ _ (fun s => decide (isizeMin < (problem crowd).estimate s)) (by decide +kernel)
      | 3, _ => exact find _ _ (fun s => decide (isizeMin < (problem crowd).estimate s)) (by decide +kernel)
    obtain ⟨v, s, h1, h2⟩ := this
    exact ⟨v, s, h1, by simpa using h2⟩
  · obtain ⟨v, s, h1, h2⟩ := find (merge crowd crowdLayer) (visits 2 [1, 2, 3, 6]) (fun s => decide (s.depth < crowd.n) && underflows crowd s) (by decide +kernel)
    simp only [Bool.and_eq_true, decide_eq_true_eq] at h2
    exact ⟨v, s, h1, h2.1, h2.2⟩

/-- Without overflow checks the counter wraps round to a number far above the number of cities: the estimate of such a state is the worst there is, so the node is dropped. -/
theorem tsptw_underflow_worst (hn : I.n ≤ 2 ^ 62) {s : State} {m : Nat} (hm : s.maybe = some m) (h : underflows I s = true) : (problem I).estimate s = isizeMin := by
  have hlen : ∀ x, (Bits.iter I.n x).length ≤ I.n := fun x => (List.length_filter_le _ _).trans (List.length_range).le
  have hc : I.n < completeTour I s := by
    unfold completeTour
    rw [if_pos h]
    have := hlen s.must
    unfold Bits.count
    omega
  show estimate I s = _
  unfold estimate
  simp only [hm]
  have hb : ((Bits.iter I.n m).map (cheapest I)).length ≤ I.n := by rw [List.length_map]; exact hlen m
  split
  · rfl
  · rw [if_pos (by omega)]

/-- It happens to the state of `tsptw_estimate_underflows`, in the middle of a tour. -/
example : ∃ v s m, Run (problem crowd) (merge crowd crowdLayer) (visits 2 [1, 2, 3, 6]) v s ∧ s.maybe = some m ∧ underflows crowd s = true ∧ s.depth < crowd.n ∧
    (problem crowd).estimate s = isizeMin := by
  have h : (match Inst.follow (problem crowd) (merge crowd crowdLayer) (visits 2 [1, 2, 3, 6]) with
      | some (_, s) => s.maybe.isSome && underflows crowd s && decide (s.depth < crowd.n) | none => false) = true := by decide +kernel
  split at h
  · rename_i v s hf
    simp only [Bool.and_eq_true, decide_eq_true_eq, Option.isSome_iff_exists] at h
    obtain ⟨⟨⟨m, hm⟩, hu⟩, hd⟩ := h
    exact ⟨v, s, m, Inst.follow_run _ _ hf, hm, hu, hd, tsptw_underflow_worst (by decide) hm hu⟩
  · cases h

/-- On states reached without merging the counter stays above zero. -/
theorem tsptw_exact_no_underflow {s : State} {i t : Nat} (h : Exact I s i t) : underflows I s = false := by
  unfold underflows
  rw [decide_eq_false_iff_not]
  rcases h.cnt with h | ⟨h1, h2, _⟩
  · omega
  · rw [h2]; unfold Bits.count; rw [Bits.iter_zero]; simp

/-! ### C54: how wrong the estimate of a merged state is -/

/-- `TsptwStands I M s`: in a diagram that merges states, `M` stands for the state `s` of the program without merging. -/
inductive TsptwStands (I : Inst) : State → State → Prop
  | init : TsptwStands I (initial I) (initial I)
  | step {M s : State} {x : Nat} {d : Decision} (h : TsptwStands I M s) (hx : (problem I).nextVar [s] = some x) (hd : d ∈ (problem I).dom x s) :
      TsptwStands I (trans I M d) (trans I s d)
  | merged {M s : State} {l : List State} {k : Nat} (h : TsptwStands I M s) (hm : M ∈ l) (hl : ∀ s ∈ l, TsptwMade I s ∧ s.depth = k) : TsptwStands I (merge I l) s

theorem TsptwStands.above (hn : 1 ≤ I.n) (hB : Bounded I B) {M s : State} (h : TsptwStands I M s) : Above (I := I) M s ∧ ∃ i t, Exact I s i t := by
  induction h with
  | init => exact ⟨⟨rfl, Nat.le_refl _, fun _ => Nat.le_refl _, fun _ h => h, fun _ h => h⟩, 0, 0, exact_init hn⟩
  | step _ hx hd ih =>
    obtain ⟨h1, i, t, h2⟩ := ih
    obtain ⟨j, _, _, hex, _⟩ := h2.next hx hd
    exact ⟨h1.trans _, _, _, hex⟩
  | @merged M s l k _ hm hl ih =>
    obtain ⟨h1, h2⟩ := ih
    have h3 := merge_above (I := I) (B := B) (k := k) (fun s hs => ⟨(hl s hs).1.ok hn hB, (hl s hs).2⟩) hm
    exact ⟨⟨h3.depth.trans h1.depth, Nat.le_trans h3.early h1.early, fun j => Nat.le_trans (h3.dist j) (h1.dist j), fun i hi => h1.must i (h3.must i hi), fun i hi => h3.may i (h1.may i hi)⟩, h2⟩

theorem TsptwStands.way (hn : 1 ≤ I.n) (hB : Bounded I B) {M s : State} (h : TsptwStands I M s) (hd : s.depth < I.n) {ds : List Decision} {u : Int} (hc : Completion (problem I) s ds u) :
    ∃ t i T l X E k, Way (I := I) M t i T l X E k ∧ u = (t : Int) - T ∧ (s.depth + 1 < I.n → l ≠ []) := by
  obtain ⟨ha, i, t, hex⟩ := h.above hn hB
  obtain ⟨e, hr, he⟩ := hc
  obtain ⟨l, T, h1, h2, _, h4⟩ := Exact.completion hr he hex hd
  obtain ⟨X, E, k, w⟩ := ha.way hex hd h1 h2
  refine ⟨t, i, T, l, X, E, k, w, h4, fun hlt hl => ?_⟩
  have := w.count
  have := w.perm.length_eq
  rw [hl, List.length_append, List.length_nil] at this
  have := ha.depth
  omega

/-- **C54 (partial).** Let `M` stand for a state from which a tour can be completed and in which a city is left to be visited.  Unless the estimate of `M` is minus infinity, it is too small by at
most the cheapest edge into *one* of the cities that may be visited. -/
theorem tsptw_estimate_merged_partial (hn : 1 ≤ I.n) (hB : Bounded I B) {M s : State} (h : TsptwStands I M s) (hd : s.depth + 1 < I.n) {ds : List Decision} {u : Int}
    (hc : Completion (problem I) s ds u) (he : (problem I).estimate M ≠ isizeMin) :
    u ≤ (problem I).estimate M ∨ ∃ m j, M.maybe = some m ∧ j < I.n ∧ m.testBit j = true ∧ u ≤ (problem I).estimate M + cheapest I j := by
  obtain ⟨t, i, T, l, X, E, k, w, hu, hl⟩ := h.way hn hB (by omega) hc
  rw [hu]
  rcases w.estimate (hl hd) he with h | ⟨m, j, h1, h2, h3⟩
  · exact Or.inl h
  · exact Or.inr ⟨m, j, h1, (Bits.mem_iter.1 h2).1, (Bits.mem_iter.1 h2).2, h3⟩

/-- The estimate that does not count the way home among the cities to be visited: this is not what the code does. -/
def tsptwRepairedBound (I : Inst) (s : State) : Int := rough I (I.n - s.depth - 1 - Bits.count I.n s.must) s

/-- With that number, the estimate of a state is an upper bound on what can be gained from the states it stands for. -/
theorem tsptw_repaired_bound (hn : 1 ≤ I.n) (hB : Bounded I B) {M s : State} (h : TsptwStands I M s) (hd : s.depth < I.n) {ds : List Decision} {u : Int}
    (hc : Completion (problem I) s ds u) : u ≤ tsptwRepairedBound I M := by
  obtain ⟨t, i, T, l, X, E, k, w, hu, hl⟩ := h.way hn hB hd hc
  rw [hu]
  exact w.rough

/-- Four cities, all at distance 5. -/
def tsptwFlat : Inst := ⟨4, fun i j => if i = j then 0 else 5, fun _ => 0, fun _ => 1000⟩

def tsptwFlatState (l : List Nat) : State := ((Inst.follow (problem tsptwFlat) (initial tsptwFlat) (visits 0 l)).map (·.2)).getD default

/-- **C54 is false for merged states**, even as a bound on the states they stand for: of four cities at distance 5, two have been visited, so that a tour takes another 10 units of time; the
estimate of the merged state is -15, the repaired one -10. -/
theorem tsptw_estimate_merged_cuts : Triangle tsptwFlat ∧ Bounded tsptwFlat 5 ∧ ∃ M s, TsptwStands tsptwFlat M s ∧ s.depth + 1 < tsptwFlat.n ∧
    Completion (problem tsptwFlat) s (visits 2 [3, 0]) (-10) ∧ (problem tsptwFlat).estimate M = -15 ∧ tsptwRepairedBound tsptwFlat M = -10 := by
  have step : ∀ l : List Nat, (Inst.follow (problem tsptwFlat) (initial tsptwFlat) (visits 0 l)).isSome = true → TsptwStands tsptwFlat (tsptwFlatState l) (tsptwFlatState l) ∧ TsptwMade tsptwFlat (tsptwFlatState l) := by
    intro l h
    obtain ⟨⟨v, s⟩, hs⟩ := Option.isSome_iff_exists.1 h
    have key : ∀ {s e : State} {ds : List Decision} {v : Int}, Run (problem tsptwFlat) s ds v e → TsptwStands tsptwFlat s s ∧ TsptwMade tsptwFlat s → TsptwStands tsptwFlat e e ∧ TsptwMade tsptwFlat e := by
      intro s e ds v h
      induction h with
      | nil s => exact id
      | cons hx hd _ ih => exact fun h => ih ⟨.step h.1 hx hd, .step h.2 hx hd⟩
    have := key (Inst.follow_run _ _ hs) ⟨.init, .init⟩
    have e : tsptwFlatState l = s := by unfold tsptwFlatState; rw [hs]; rfl
    rw [e]
    exact this
  refine ⟨triangleB_spec (by decide), boundedB_spec (by decide), merge tsptwFlat [tsptwFlatState [1, 2], tsptwFlatState [1, 3]], tsptwFlatState [1, 2],
    .merged (k := 2) (step [1, 2] (by decide)).1 (by simp) ?_, by decide, Inst.complete_spec (by decide), by decide, by decide⟩
  intro s hs
  simp only [List.mem_cons, List.not_mem_nil, or_false] at hs
  rcases hs with rfl | rfl
  · exact ⟨(step [1, 2] (by decide)).2, by decide⟩
  · exact ⟨(step [1, 3] (by decide)).2, by decide⟩

/-- **C57.** The counter of the estimate stays above zero in every state that stands for one of the program without merging.  (Where it drops below zero, no tour is at stake.) -/
theorem tsptw_stands_no_underflow (hn : 1 ≤ I.n) (hB : Bounded I B) {M s : State} (h : TsptwStands I M s) : underflows I M = false := by
  obtain ⟨ha, i, t, hex⟩ := h.above hn hB
  have h1 := tsptw_exact_no_underflow hex
  unfold underflows Bits.count at *
  rw [decide_eq_false_iff_not] at *
  have h2 := (List.subperm_of_subset (Bits.nodup_iter I.n M.must) fun j hj => Bits.mem_iter.2 ⟨(Bits.mem_iter.1 hj).1, ha.must j (Bits.mem_iter.1 hj).2⟩ : (Bits.iter I.n M.must).Subperm (Bits.iter I.n s.must)).length_le
  have := ha.depth
  omega

/-! ### C59: the interval of arrival times -/

/-- **C59 (partial).** A legal decision leads to a state whose earliest time is not before the opening and whose latest time is not after the closing of the window of the city. -/
theorem tsptw_arrival_in_window_partial {s : State} {x j : Nat} (hd : (⟨x, (j : Int)⟩ : Decision) ∈ (problem I).dom x s) (hw : I.earliest j ≤ I.latest j) :
    I.earliest j ≤ ((problem I).trans s ⟨x, (j : Int)⟩).elapsed.earliest ∧ ((problem I).trans s ⟨x, (j : Int)⟩).elapsed.earliest ≤ I.latest j ∧
      ((problem I).trans s ⟨x, (j : Int)⟩).elapsed.latest ≤ I.latest j := by
  have hc : canMove I s j = true := by
    rcases mem_dom.1 hd with ⟨_, hc, h⟩ | ⟨_, hall, j', h, hj⟩
    · simp only [Decision.mk.injEq, true_and] at h
      have : j = 0 := by omega
      subst this; exact hc
    · simp only [Decision.mk.injEq, true_and] at h
      have : j = j' := by omega
      subst this
      rcases hj with hj | ⟨_, _, _, hj⟩
      · exact hall j hj
      · exact hj
  simp only [canMove, add_earliest, decide_eq_true_eq] at hc
  show I.earliest j ≤ (arrival I s j).earliest ∧ (arrival I s j).earliest ≤ I.latest j ∧ (arrival I s j).latest ≤ I.latest j
  rw [arrival_earliest]
  refine ⟨by omega, by omega, ?_⟩
  unfold arrival
  rw [add_earliest, add_latest]
  generalize hm : mkElapsed (s.elapsed.earliest + minDist I s j) (s.elapsed.latest + maxDist I s j) = m
  cases m with
  | fixed d =>
    have h1 := mkElapsed_earliest (s.elapsed.earliest + minDist I s j) (s.elapsed.latest + maxDist I s j)
    rw [hm] at h1
    change d = _ at h1
    show max d (I.earliest j) ≤ I.latest j
    omega
  | fuzzy e l =>
    simp only
    rw [mkElapsed_latest]
    omega

/-- City 3 opens late. -/
def lateOpening : Inst := mk [[0, 1, 2, 3], [2, 0, 2, 2], [2, 2, 0, 2], [4, 2, 2, 0]] [(0, 1000), (0, 100), (0, 100), (50, 100)]

/-- **C59 is false**: the latest time is not raised to the opening of the window.  Merge the states that have visited 1 and 2 and go to city 3, which opens at time 50: the interval of
arrival times of the new state starts at 50 and ends at 4. -/
theorem tsptw_interval_inverted : Triangle lateOpening ∧ (∀ j, j < 4 → lateOpening.earliest j ≤ lateOpening.latest j) ∧
    ∃ s, TsptwMade lateOpening s ∧ s.elapsed = .fuzzy 50 4 := by
  refine ⟨triangleB_spec (by decide), by decide, ?_⟩
  have h1 : TsptwMade lateOpening (trans lateOpening (initial lateOpening) ⟨0, ((1 : Nat) : Int)⟩) := .step (x := 0) .init (by decide) (by decide)
  have h2 : TsptwMade lateOpening (trans lateOpening (initial lateOpening) ⟨0, ((2 : Nat) : Int)⟩) := .step (x := 0) .init (by decide) (by decide)
  have h3 := TsptwMade.merged (I := lateOpening) (l := [trans lateOpening (initial lateOpening) ⟨0, ((1 : Nat) : Int)⟩, trans lateOpening (initial lateOpening) ⟨0, ((2 : Nat) : Int)⟩])
    (k := 1) (by simp) (by intro s hs; simp at hs; rcases hs with rfl | rfl; exact h1; exact h2) (by intro s hs; simp at hs; rcases hs with rfl | rfl <;> rfl)
  exact ⟨_, .step (x := 1) (d := ⟨1, ((3 : Nat) : Int)⟩) h3 (by decide) (by decide), by decide⟩

/-- In the same instance the first step to city 1 arrives at time 1, within its window. -/
example : ((problem lateOpening).trans (problem lateOpening).init ⟨0, ((1 : Nat) : Int)⟩).elapsed = .fixed 1 := by decide

end Verif.Props
