import Verif.Proofs.Count
import Verif.Props.OnceBarrier
import Verif.Props.Psp
import Verif.Props.Srflp
import Verif.Props.Tsptw
/-!
C102: how many nodes the example programs explore at most.
-/
set_option autoImplicit false

namespace Verif.Props
open Verif Spec

section
open Srflp
variable {I : Srflp.Inst} {F L : Nat}

theorem srflp_domainVar : DomainVar (problem I) := by
  intro x s d hd
  obtain ⟨i, rfl, _⟩ := mem_dom.1 hd
  rfl

/-- The partial layouts. -/
theorem srflp_assignments : ∃ A : List (List Decision), (∀ ds t v, Reach (problem I) t ds v → ds ∈ A) ∧ A.length ≤ rows I.n := by
  rw [← Count.tree_rows]
  refine Count.assignments (Q := fun k s => s.depth + k = I.n ∧ ∃ pre, Exact I pre s) ⟨Nat.zero_add _, [], exact_init⟩ ?_ ?_ ?_
  · rintro s ⟨h, _⟩
    show nextVar I [s] = none
    rw [nextVar_single, if_pos (show s.depth = I.n from h)]
  · rintro k s x ⟨h, pre, he⟩ _
    have h1 := he.count
    show (dom I x s).length ≤ k + 1
    unfold dom maybes
    rw [he.mb, List.length_append, List.length_map]
    have h2 : (Bits.iter I.n s.must).length = Bits.count I.n s.must := rfl
    split <;> simp <;> omega
  · rintro k s x d ⟨h, pre, he⟩ _ hd
    obtain ⟨i, rfl, hi⟩ := he.dom.1 hd
    exact ⟨by show (trans I s _).depth + k = I.n; rw [trans_depth]; omega, _, he.step hi⟩

/-- **C102.** The program `srflp` explores at most as many nodes as there are ways to put some of the departments in a row, with any number of threads and the cutset `lel`. -/
theorem srflp_explored_le (hB : Bounded I F L) {w : Nat} (hw : I.n * w % 2 ^ 64 ≠ 0) {n : Nat} {s : Sys State (cfgOf I w n .lastExactLayer).fr.F}
    (hr : Reachable (cfgOf I w n .lastExactLayer) s) : Par.getExplored (cfgOf I w n .lastExactLayer) s.crit ≤ rows I.n := by
  obtain ⟨A, h1, h2⟩ := srflp_assignments (I := I)
  exact Nat.le_trans (explored_le_partial_assignments (laws I w n _) (cfgOf_base hB hw n _) srflp_domainVar (fun _ _ _ _ h => h) rfl (Nat.le_refl _) hr h1) h2

/-- **C102.** The same with a barrier, however the accesses to it interleave... -/
theorem srflp_barrier_explored_le (hB : Bounded I F L) {w : Nat} (hw : I.n * w % 2 ^ 64 ≠ 0) {n : Nat} {s : FSys State (cfgOf I w n .lastExactLayer).fr.F}
    (hr : FReachable (cfgOf I w n .lastExactLayer) s) (hh : s.holder = none) : Bar.getExplored (cfgOf I w n .lastExactLayer) s.sys.crit ≤ rows I.n := by
  obtain ⟨A, h1, h2⟩ := srflp_assignments (I := I)
  exact Nat.le_trans (lock_explored_le_partial_assignments (laws I w n _) (cfgOf_base hB hw n _) srflp_domainVar (fun _ _ _ _ h => h) rfl (Nat.le_refl _) hr hh h1) h2

/-- Five departments: at most 326 nodes, and 3 in this run of one thread. -/
example : Bounded blur 134217731 3 ∧ rows blur.n = 326 ∧ ∃ s, Reachable (cfgOf blur 1 1 .lastExactLayer) s ∧ Finished s ∧ Par.getExplored (cfgOf blur 1 1 .lastExactLayer) s.crit = 3 := by
  have h : Verif.Inst.test (cfgOf blur 1 1 .lastExactLayer) (List.replicate 15 (0, false))
      (fun s => Verif.Inst.allDone s && Par.getExplored (cfgOf blur 1 1 .lastExactLayer) s.crit == 3) = true := by decide +kernel
  obtain ⟨s, h1, h2⟩ := Verif.Inst.test_spec_max (by decide) h
  simp only [Bool.and_eq_true, beq_iff_eq] at h2
  exact ⟨boundedB_spec (by decide), by decide, s, h1.reachable, Verif.Inst.allDone_spec h2.1, h2.2⟩

end

section
open Psp
variable {I : Psp.Inst} {σ : List Psp.Edge → List Psp.Edge} {B : Nat}

theorem psp_domainVar : DomainVar (problem I σ) := by
  intro x s d hd
  rcases (mem_dom.1 hd).2 with ⟨i, _, _, rfl⟩ | ⟨_, rfl⟩ <;> rfl

/-- The partial plans: one of the items, or none, per period. -/
theorem psp_assignments : ∃ A : List (List Decision), (∀ ds t v, Reach (problem I σ) t ds v → ds ∈ A) ∧ A.length ≤ words (I.items + 1) I.periods := by
  rw [← Count.tree_words]
  refine Count.assignments (Q := fun k s => s.time = k) rfl ?_ ?_ ?_
  · intro s h
    exact nextVar_zero h
  · intro k s x _ _
    show (dom I x s).length ≤ I.items + 1
    have h1 := List.length_filter_le (fun i => decide ((x : Int) ≤ s.at i)) (List.range I.items)
    rw [List.length_range] at h1
    unfold dom
    split
    · simp
    · rw [List.length_append, List.length_map]
      split <;> simp only [List.length_cons, List.length_nil] <;> omega
  · intro k s x d h _ _
    show (trans I s d).time = k
    rw [trans_time]; omega

theorem psp_var_inj (i j : Nat) (hi : i < I.periods) (hj : j < I.periods) (h : (layering I).var i = (layering I).var j) : i = j := by
  have h' : I.periods - 1 - i = I.periods - 1 - j := h
  omega

/-- **C102.** The program `psp` explores at most as many nodes as there are words of at most one letter per period, with a letter for each item and one for no item. -/
theorem psp_explored_le (hn : 1 ≤ I.periods) (hB : Bounded I B) {w : Nat} (hw : I.periods * w % 2 ^ 64 ≠ 0) {n : Nat} {s : Sys State (cfgOf I σ w n .lastExactLayer).fr.F}
    (hr : Reachable (cfgOf I σ w n .lastExactLayer) s) : Par.getExplored (cfgOf I σ w n .lastExactLayer) s.crit ≤ words (I.items + 1) I.periods := by
  obtain ⟨A, h1, h2⟩ := psp_assignments (I := I) (σ := σ)
  exact Nat.le_trans (explored_le_partial_assignments (laws I σ w n _) (cfgOf_base hn hB hw n _) psp_domainVar psp_var_inj rfl (Nat.le_refl _) hr h1) h2

/-- **C102.** The same with a barrier... -/
theorem psp_barrier_explored_le (hn : 1 ≤ I.periods) (hB : Bounded I B) {w : Nat} (hw : I.periods * w % 2 ^ 64 ≠ 0) {n : Nat} {s : FSys State (cfgOf I σ w n .lastExactLayer).fr.F}
    (hr : FReachable (cfgOf I σ w n .lastExactLayer) s) (hh : s.holder = none) : Bar.getExplored (cfgOf I σ w n .lastExactLayer) s.sys.crit ≤ words (I.items + 1) I.periods := by
  obtain ⟨A, h1, h2⟩ := psp_assignments (I := I) (σ := σ)
  exact Nat.le_trans (lock_explored_le_partial_assignments (laws I σ w n _) (cfgOf_base hn hB hw n _) psp_domainVar psp_var_inj rfl (Nat.le_refl _) hr hh h1) h2

/-- Three items and four periods: at most 341 nodes, and 2 in this run of one thread. -/
example : Bounded tri 20 ∧ words (tri.items + 1) tri.periods = 341 ∧
    ∃ s, Reachable (cfgOf tri id 1 1 .lastExactLayer) s ∧ Finished s ∧ Par.getExplored (cfgOf tri id 1 1 .lastExactLayer) s.crit = 2 := by
  have h : Verif.Inst.test (cfgOf tri id 1 1 .lastExactLayer) (List.replicate 12 (0, false))
      (fun s => Verif.Inst.allDone s && Par.getExplored (cfgOf tri id 1 1 .lastExactLayer) s.crit == 2) = true := by decide +kernel
  obtain ⟨s, h1, h2⟩ := Verif.Inst.test_spec_max (by decide) h
  simp only [Bool.and_eq_true, beq_iff_eq] at h2
  exact ⟨boundedB_spec (by decide), by decide, s, h1.reachable, Verif.Inst.allDone_spec h2.1, h2.2⟩

end

section
open Tsptw
variable {I : Tsptw.Inst} {B : Nat}

theorem tsptw_domainVar : DomainVar (problem I) := by
  intro x s d hd
  rcases mem_dom.1 hd with ⟨_, _, rfl⟩ | ⟨_, _, j, rfl, _⟩ <;> rfl

/-- The partial tours: some of the cities other than the depot in a row, or all of them and then home. -/
theorem tsptw_assignments (hn : 1 ≤ I.n) : ∃ A : List (List Decision), (∀ ds t v, Reach (problem I) t ds v → ds ∈ A) ∧ A.length ≤ rows (I.n - 1) + (I.n - 1).factorial := by
  obtain ⟨m, hm⟩ : ∃ m, I.n = m + 1 := ⟨I.n - 1, by omega⟩
  rw [show I.n - 1 = m by omega, ← Count.tree_tours]
  refine Count.assignments (Q := fun k s => s.depth + k = I.n ∧ ∃ i t, Exact I s i t) ⟨by rw [hm]; exact Nat.zero_add _, 0, 0, exact_init hn⟩ ?_ ?_ ?_
  · rintro s ⟨h, _⟩
    exact nextVar_eq_none h
  · rintro k s x ⟨h, i, t, he⟩ hx
    show (dom I x s).length ≤ max k 1
    by_cases hl : s.depth = I.n - 1
    · unfold dom
      rw [if_pos hl]
      split <;> simp <;> omega
    · have hc : (Bits.iter I.n s.must).length = Bits.count I.n s.must := rfl
      unfold dom
      rw [if_neg hl, he.mb]
      rcases he.cnt with h1 | h1
      · split
        · simp only [List.length_append, List.length_map, List.length_nil]
          omega
        · simp
      · omega
  · rintro k s x d ⟨h, i, t, he⟩ hx hd
    obtain ⟨j, _, _, h1, _⟩ := he.next hx hd
    exact ⟨by show s.depth + 1 + k = I.n; omega, _, _, h1⟩

/-- **C102.** The program `tsptw` explores at most as many nodes as there are beginnings of tours and tours. -/
theorem tsptw_explored_le (hn : 1 ≤ I.n) {w : Nat} (hw : 1 ≤ w) (hu : I.n * w < 2 ^ 48) (hB : Bounded I B) {n : Nat} {s : Sys State (cfgOf I w n .lastExactLayer).fr.F}
    (hr : Reachable (cfgOf I w n .lastExactLayer) s) : Par.getExplored (cfgOf I w n .lastExactLayer) s.crit ≤ rows (I.n - 1) + (I.n - 1).factorial := by
  obtain ⟨A, h1, h2⟩ := tsptw_assignments hn
  exact Nat.le_trans (explored_le_partial_assignments (laws I w n _) (cfgOf_base hn hw hu hB n _) tsptw_domainVar (fun _ _ _ _ h => h) rfl (Nat.le_refl _) hr h1) h2

/-- **C102.** The same with a barrier. -/
theorem tsptw_barrier_explored_le (hn : 1 ≤ I.n) {w : Nat} (hw : 1 ≤ w) (hu : I.n * w < 2 ^ 48) (hB : Bounded I B) {n : Nat} {s : FSys State (cfgOf I w n .lastExactLayer).fr.F}
    (hr : FReachable (cfgOf I w n .lastExactLayer) s) (hh : s.holder = none) :
    Bar.getExplored (cfgOf I w n .lastExactLayer) s.sys.crit ≤ rows (I.n - 1) + (I.n - 1).factorial := by
  obtain ⟨A, h1, h2⟩ := tsptw_assignments hn
  exact Nat.le_trans (lock_explored_le_partial_assignments (laws I w n _) (cfgOf_base hn hw hu hB n _) tsptw_domainVar (fun _ _ _ _ h => h) rfl (Nat.le_refl _) hr hh h1) h2

/-- Four cities: at most 22 nodes, and 2 in this run of one thread. -/
example : Bounded waits 30 ∧ rows (waits.n - 1) + (waits.n - 1).factorial = 22 ∧
    ∃ s, Reachable (cfgOf waits 1 1 .lastExactLayer) s ∧ Finished s ∧ Par.getExplored (cfgOf waits 1 1 .lastExactLayer) s.crit = 2 := by
  have h : Verif.Inst.test (cfgOf waits 1 1 .lastExactLayer) (List.replicate 11 (0, false))
      (fun s => Verif.Inst.allDone s && Par.getExplored (cfgOf waits 1 1 .lastExactLayer) s.crit == 2) = true := by decide +kernel
  obtain ⟨s, h1, h2⟩ := Verif.Inst.test_spec_max (by decide) h
  simp only [Bool.and_eq_true, beq_iff_eq] at h2
  exact ⟨boundedB_spec (by decide), by decide, s, h1.reachable, Verif.Inst.allDone_spec h2.1, h2.2⟩

end

end Verif.Props
