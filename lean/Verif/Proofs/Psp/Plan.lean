import Verif.Proofs.Psp.Exact
/-! Plans for all periods. -/
set_option autoImplicit false

namespace Verif.Psp
open Verif Spec
variable {I : Inst}

theorem due_cnt (hu : UnitDemand I) {i : Nat} (hi : i < I.items) {p : Nat} (hp : p ≤ I.periods) : due I i p = cnt (I.demand i) p := by
  induction p with
  | zero => rfl
  | succ p ih =>
    rw [cnt_succ, ← ih (by omega)]
    unfold due
    rw [List.range_succ, List.map_append, List.sum_append]
    have := hu i p hi (by omega)
    simp only [List.map_cons, List.map_nil, List.sum_cons, List.sum_nil]
    split <;> omega

theorem init_left (hn : 1 ≤ I.periods) {i : Nat} (hi : i < I.items) : left I i ((initial I).at i) = cnt (I.demand i) I.periods := by
  rw [init_at hn hi]; exact (lastBefore_spec _ _).2.2

theorem init_deadlines (hn : 1 ≤ I.periods) {i : Nat} (hi : i < I.items) : deadlines I i ((initial I).at i) = dueSum (I.demand i) I.periods := by
  rw [init_at hn hi]; exact dueSum_lastBefore _ _

theorem feasible_iff (hn : 1 ≤ I.periods) (hu : UnitDemand I) (f : Plan) : Feasible I f ↔ From I (initial I) f := by
  constructor
  · intro h
    refine ⟨h.item, ?_, ?_⟩
    · intro i hi
      rw [init_left hn hi, ← due_cnt hu hi (Nat.le_refl _)]
      exact h.total i hi
    · intro i hi p hp
      have := h.inTime i hi p hp
      rw [due_cnt hu hi hp] at this
      omega
  · intro h
    refine ⟨h.item, ?_, ?_⟩
    · intro i hi p hp
      have := h.inTime i hi p hp
      rw [init_left hn hi] at this
      have h1 := cnt_mono (I.demand i) hp
      rw [due_cnt hu hi hp]
      omega
    · intro i hi
      have := h.total i hi
      rw [init_left hn hi] at this
      rw [due_cnt hu hi (Nat.le_refl _)]
      exact this

/-- Adding up stocks over time -/
theorem total_made_time (f : Plan) (i p : Nat) : total p (fun t => made f i (t + 1)) + madeSum f i p = p * made f i p := by
  induction p with
  | zero => simp [total, madeSum, made]
  | succ p ih =>
    rw [total_succ, madeSum_succ, made_succ]
    by_cases h : f p = some i
    · simp only [if_pos h]
      rw [Nat.add_mul, Nat.mul_add]; omega
    · simp only [if_neg h, Nat.add_zero]
      rw [Nat.add_mul]; omega

theorem total_cnt_time (D : Nat → Nat) (p : Nat) : total p (fun t => cnt D (t + 1)) + dueSum D p = p * cnt D p := by
  induction p with
  | zero => simp [total, dueSum, cnt]
  | succ p ih =>
    rw [total_succ, dueSum_succ, cnt_succ]
    by_cases h : 0 < D p
    · simp only [if_pos h]
      rw [Nat.add_mul, Nat.mul_add]; omega
    · simp only [if_neg h, Nat.add_zero]
      rw [Nat.add_mul]; omega

theorem total_sub {m : Nat} {g h : Nat → Nat} (e : ∀ i, i < m → h i ≤ g i) : total m (fun i => g i - h i) + total m h = total m g := by
  induction m with
  | zero => rfl
  | succ m ih =>
    rw [total_succ, total_succ, total_succ]
    have := ih fun i hi => e i (by omega)
    have := e m (by omega)
    omega

theorem stockCost_eq (hn : 1 ≤ I.periods) (hu : UnitDemand I) {f : Plan} (h : Feasible I f) : stockCost I f = stockFrom I (initial I) f := by
  refine total_congr fun i hi => ?_
  rw [init_deadlines hn hi]
  congr 1
  show total I.periods (fun t => made f i (t + 1) - due I i (t + 1)) = dueSum (I.demand i) I.periods - madeSum f i I.periods
  have h1 : total I.periods (fun t => made f i (t + 1) - due I i (t + 1)) = total I.periods fun t => made f i (t + 1) - cnt (I.demand i) (t + 1) :=
    total_congr fun t ht => by rw [due_cnt hu hi (by omega)]
  have h2 := total_sub (m := I.periods) (g := fun t => made f i (t + 1)) (h := fun t => cnt (I.demand i) (t + 1)) fun t ht => by
    rw [← due_cnt hu hi (by omega)]; exact h.inTime i hi _ (by omega)
  have h3 := total_made_time f i I.periods
  have h4 := total_cnt_time (I.demand i) I.periods
  have h5 := h.total i hi
  rw [due_cnt hu hi (Nat.le_refl _)] at h5
  rw [h5] at h3
  omega

theorem planCost_eq (hn : 1 ≤ I.periods) (hu : UnitDemand I) {f : Plan} (h : Feasible I f) : planCost I f = costFrom I (initial I) f := by
  unfold planCost costFrom
  rw [stockCost_eq hn hu h]
  congr 2
  unfold sequence
  simp [initial]

end Verif.Psp
