import Mathlib.Data.List.Perm.Subperm
/-! Counting events that are bounded in number. -/
set_option autoImplicit false

namespace Verif

/-- A counter that is bounded stops. -/
theorem counter_stops {d : Nat → Nat} {q : Nat → Prop} {N : Nat} (hq : ∀ k, q k ∧ d (k + 1) = d k ∨ ¬ q k ∧ d (k + 1) = d k + 1) (hb : ∀ k, d k ≤ N) : ∃ k0, ∀ j, k0 ≤ j → q j := by
  have hmono : ∀ k j, d k ≤ d (k + j) := by
    intro k j
    induction j with
    | zero => exact Nat.le_refl _
    | succ j ih => have := hq (k + j); rw [← Nat.add_assoc]; omega
  apply Classical.byContradiction
  intro hno
  have hmany : ∀ m, ∃ k, m ≤ d k := by
    intro m
    induction m with
    | zero => exact ⟨0, Nat.zero_le _⟩
    | succ m ih =>
      obtain ⟨k, hk⟩ := ih
      apply Classical.byContradiction
      intro hn
      refine hno ⟨k, fun j hj => ?_⟩
      rcases hq j with h | h
      · exact h.1
      · exfalso
        refine hn ⟨j + 1, ?_⟩
        have h2 := hmono k (j - k)
        rw [show k + (j - k) = j by omega] at h2
        omega
  obtain ⟨k, hk⟩ := hmany (N + 1)
  have := hb k
  omega

/-- There are not more different numbers below a bound than the bound. -/
theorem length_le_of_lt {l : List Nat} {n : Nat} (h : l.Nodup) (hl : ∀ i ∈ l, i < n) : l.length ≤ n := by
  simpa using (List.subperm_of_subset h fun i hi => List.mem_range.2 (hl i hi)).length_le

end Verif
