import Verif.Model.Bits
/-! Elementary facts about sets of small numbers. -/
set_option autoImplicit false

namespace Verif.Bits

/-- All members are below `n`. -/
def Sub (n s : Nat) : Prop := ∀ i, s.testBit i = true → i < n

theorem testBit_full {n i : Nat} : (full n).testBit i = decide (i < n) := by
  simp [full, Nat.testBit_two_pow_sub_one]

theorem testBit_add {s i j : Nat} : (add s i).testBit j = (s.testBit j || decide (i = j)) := by
  simp only [add, Nat.testBit_or, Nat.shiftLeft_eq, Nat.one_mul, Nat.testBit_two_pow]

theorem testBit_clear {s i j : Nat} : (clear s i).testBit j = (s.testBit j && decide (i ≠ j)) := by
  unfold clear
  by_cases h : s.testBit i = true
  · rw [if_pos h]
    simp only [Nat.testBit_xor, Nat.shiftLeft_eq, Nat.one_mul, Nat.testBit_two_pow]
    by_cases e : i = j
    · subst e; simp [h]
    · simp [e]
  · rw [if_neg h]
    by_cases e : i = j
    · subst e; simp [h]
    · simp [e]

theorem mem_iter {n s i : Nat} : i ∈ iter n s ↔ i < n ∧ s.testBit i = true := by
  simp [iter]

theorem mem_iter_sub {n s i : Nat} (h : Sub n s) : i ∈ iter n s ↔ s.testBit i = true := by
  rw [mem_iter]; exact ⟨fun h => h.2, fun g => ⟨h i g, g⟩⟩

theorem nodup_iter (n s : Nat) : (iter n s).Nodup := List.Nodup.sublist List.filter_sublist List.nodup_range

theorem iter_clear {n s i : Nat} : iter n (clear s i) = (iter n s).filter (fun j => decide (i ≠ j)) := by
  unfold iter
  rw [List.filter_filter]
  refine List.filter_congr ?_
  intro j _
  rw [testBit_clear, Bool.and_comm]

theorem count_clear {n s i : Nat} (hi : i < n) (h : s.testBit i = true) : count n (clear s i) + 1 = count n s := by
  unfold count
  rw [iter_clear]
  have hm : i ∈ iter n s := mem_iter.2 ⟨hi, h⟩
  have h1 := (nodup_iter n s).erase_eq_filter i
  have h2 : (iter n s).filter (fun j => decide (i ≠ j)) = (iter n s).erase i := by
    rw [h1]
    refine List.filter_congr ?_
    intro j _
    by_cases e : i = j
    · subst e; simp
    · have : j ≠ i := fun h => e h.symm
      simp [e, this]
  rw [h2, List.length_erase_of_mem hm]
  have := List.length_pos_of_mem hm
  omega

theorem perm_clear {n s i : Nat} (hi : i < n) (h : s.testBit i = true) : (iter n s).Perm (i :: iter n (clear s i)) := by
  have hm : i ∈ iter n s := mem_iter.2 ⟨hi, h⟩
  refine (List.perm_ext_iff_of_nodup (nodup_iter n s) ?_).2 ?_
  · refine List.nodup_cons.2 ⟨?_, nodup_iter _ _⟩
    rw [mem_iter, testBit_clear]; simp
  · intro j
    simp only [List.mem_cons, mem_iter, testBit_clear]
    constructor
    · rintro ⟨h1, h2⟩
      by_cases e : i = j
      · exact Or.inl e.symm
      · right; simp [h1, h2, e]
    · rintro (rfl | ⟨h1, h2⟩)
      · exact ⟨hi, h⟩
      · simp at h2; exact ⟨h1, h2.1⟩

theorem iter_zero (n : Nat) : iter n 0 = [] := by simp [iter]

theorem iter_eq_nil {n s : Nat} (hs : Sub n s) (h : iter n s = []) : s = 0 := by
  refine Nat.eq_of_testBit_eq ?_
  intro i
  rw [Nat.zero_testBit]
  cases hb : s.testBit i with
  | false => rfl
  | true =>
    have : i ∈ iter n s := (mem_iter_sub hs).2 hb
    rw [h] at this; cases this

theorem Sub.full (n : Nat) : Sub n (full n) := by
  intro i h; rw [testBit_full] at h; simpa using h
theorem Sub.zero (n : Nat) : Sub n 0 := by intro i h; simp at h
theorem Sub.clear {n s : Nat} (h : Sub n s) (i : Nat) : Sub n (clear s i) := by
  intro j hj; rw [testBit_clear] at hj; simp at hj; exact h j hj.1
theorem Sub.add {n s i : Nat} (h : Sub n s) (hi : i < n) : Sub n (add s i) := by
  intro j hj; rw [testBit_add] at hj
  simp only [Bool.or_eq_true, decide_eq_true_eq] at hj
  rcases hj with hj | rfl
  · exact h j hj
  · exact hi
theorem Sub.or {n s t : Nat} (h : Sub n s) (g : Sub n t) : Sub n (s ||| t) := by
  intro j hj; rw [Nat.testBit_or] at hj
  simp only [Bool.or_eq_true] at hj
  exact hj.elim (h j) (g j)
theorem Sub.and {n s t : Nat} (h : Sub n s) : Sub n (s &&& t) := by
  intro j hj; rw [Nat.testBit_and] at hj
  simp only [Bool.and_eq_true] at hj
  exact h j hj.1
theorem Sub.xor {n s t : Nat} (h : Sub n s) (g : Sub n t) : Sub n (s ^^^ t) := by
  intro j hj; rw [Nat.testBit_xor] at hj
  cases h1 : s.testBit j with
  | true => exact h j h1
  | false =>
    cases h2 : t.testBit j with
    | true => exact g j h2
    | false => rw [h1, h2] at hj; simp at hj

theorem count_pos {n s : Nat} (hs : Sub n s) : 0 < count n s ↔ s ≠ 0 := by
  unfold count
  rw [List.length_pos_iff]
  constructor
  · intro h e; exact h (by rw [e, iter_zero])
  · intro h e; exact h (iter_eq_nil hs e)

theorem iter_full_clear_zero (n : Nat) : iter n (clear (full n) 0) = List.range' 1 (n - 1) := by
  unfold iter
  cases n with
  | zero => simp
  | succ n =>
    rw [List.range_succ_eq_map, List.filter_cons_of_neg (by rw [testBit_clear]; simp)]
    rw [List.filter_eq_self.2]
    · rw [Nat.add_sub_cancel, List.range'_eq_map_range]
      refine List.map_congr_left ?_
      intro a _; omega
    · intro a ha
      obtain ⟨b, hb, rfl⟩ := List.mem_map.1 ha
      have := List.mem_range.1 hb
      rw [testBit_clear, testBit_full]; simp; omega

end Verif.Bits
