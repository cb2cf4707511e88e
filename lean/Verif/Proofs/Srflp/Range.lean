import Verif.Proofs.Srflp.Edge
/-! The rough bound is a number of 64 bits. -/
set_option autoImplicit false

namespace Verif.Srflp
open Verif Spec
variable {I : Inst} {F L : Nat}

theorem sum_range {l : List Int} {C : Nat} (h : ∀ a ∈ l, 0 ≤ a ∧ a ≤ (C : Int)) : 0 ≤ l.sum ∧ l.sum ≤ ((l.length * C : Nat) : Int) := by
  induction l with
  | nil => simp
  | cons a l ih =>
    have h1 := ih fun b hb => h b (by simp [hb])
    have h2 := h a (by simp)
    have e : (((a :: l).length * C : Nat) : Int) = ((l.length * C : Nat) : Int) + C := by
      rw [List.length_cons, Nat.add_mul, Nat.one_mul]; push_cast; rfl
    rw [List.sum_cons, e]
    omega

theorem mul_range {a b : Int} {A B : Nat} (ha : 0 ≤ a ∧ a ≤ A) (hb : 0 ≤ b ∧ b ≤ B) : 0 ≤ a * b ∧ a * b ≤ ((A * B : Nat) : Int) := by
  refine ⟨Int.mul_nonneg ha.1 hb.1, ?_⟩
  push_cast
  exact Int.mul_le_mul ha.2 hb.2 hb.1 (Int.le_trans ha.1 ha.2)

theorem smith_range {l : List (Int × Int)} {A C : Nat} (h : ∀ p ∈ l, (0 ≤ p.1 ∧ p.1 ≤ (A : Int)) ∧ 0 ≤ p.2 ∧ p.2 ≤ (C : Int)) {n : Nat} (hn : l.length ≤ n) :
    0 ≤ smith l ∧ smith l ≤ ((l.length * (A * (n * C)) : Nat) : Int) := by
  induction l with
  | nil => simp [smith]
  | cons p l ih =>
    have h1 := ih (fun q hq => h q (by simp [hq])) (by simp at hn; omega)
    have h2 := h p (by simp)
    have h3 : 0 ≤ (l.map Prod.snd).sum ∧ (l.map Prod.snd).sum ≤ (((l.map Prod.snd).length * C : Nat) : Int) :=
      sum_range fun a ha => by obtain ⟨q, hq, rfl⟩ := List.mem_map.1 ha; exact (h q (by simp [hq])).2
    have h4 : (l.map Prod.snd).sum ≤ ((n * C : Nat) : Int) := by
      refine Int.le_trans h3.2 (Int.ofNat_le.2 (Nat.mul_le_mul_right C ?_))
      simp at hn ⊢; omega
    have h5 := mul_range h2.1 ⟨h3.1, h4⟩
    have e : (((p :: l).length * (A * (n * C)) : Nat) : Int) = ((l.length * (A * (n * C)) : Nat) : Int) + ((A * (n * C) : Nat) : Int) := by
      rw [List.length_cons, Nat.add_mul, Nat.one_mul]; push_cast; rfl
    simp only [smith]
    rw [e]
    omega

theorem rsum_range {f : Nat → Int} {C n : Nat} (h : ∀ t, t < n → 0 ≤ f t ∧ f t ≤ (C : Int)) : 0 ≤ rsum f n ∧ rsum f n ≤ ((n * C : Nat) : Int) := by
  induction n with
  | zero => simp [rsum]
  | succ n ih =>
    have h1 := ih fun t ht => h t (by omega)
    have h2 := h n (by omega)
    have e : (((n + 1) * C : Nat) : Int) = ((n * C : Nat) : Int) + C := by
      rw [Nat.add_mul, Nat.one_mul]; push_cast; rfl
    simp only [rsum]
    rw [e]
    omega

theorem flows_range (hB : Bounded I F L) (hf : Flows I) {s : State} (h : Ok I F s) : ∀ a ∈ flows I s, 0 ≤ a ∧ a ≤ (F : Int) := by
  have hp : ∀ c : Int × Nat × Nat → Bool, ∀ a ∈ ((sortedFlows I).filter c).map Prod.fst, a ≤ (F : Int) := by
    intro c a ha
    obtain ⟨e, he, rfl⟩ := List.mem_map.1 ha
    have he := (sortedFlows_perm I).mem_iff.1 (List.mem_filter.1 he).1
    obtain ⟨q, hq, rfl⟩ := List.mem_map.1 he
    rw [pairs_eq] at hq
    have := (mem_pairsOf_of_lt List.pairwise_lt_range (a := q.1) (b := q.2)).1 hq
    exact (hB.flow q.1 q.2 (List.mem_range.1 this.1) (List.mem_range.1 this.2.1)).2
  intro a ha
  refine ⟨flows_nonneg hf h a ha, ?_⟩
  have hm := (flows_spec h).1.mem_iff.1 ha
  simp only [List.mem_append] at hm
  rcases hm with hm | hm | hm
  all_goals first
    | exact hp _ a hm
    | exact hp _ a (List.mem_of_mem_take hm)

theorem lengths_range (hB : Bounded I F L) (hl : Lengths I) {s : State} (h : Ok I F s) : ∀ a ∈ (lengths I s).1, 0 ≤ a ∧ a ≤ (L : Int) := by
  have hp : ∀ c : Int × Nat → Bool, ∀ a ∈ ((sortedLengths I).filter c).map Prod.fst, 0 ≤ a ∧ a ≤ (L : Int) := by
    intro c a ha
    obtain ⟨e, he, rfl⟩ := List.mem_map.1 ha
    have he := (sortedLengths_perm I).mem_iff.1 (List.mem_filter.1 he).1
    obtain ⟨i, hi, rfl⟩ := List.mem_map.1 he
    have hi := List.mem_range.1 hi
    exact ⟨hl i hi, (hB.len i hi).2⟩
  intro a ha
  have hm := (lengths_spec h).2.1.mem_iff.1 ha
  simp only [List.mem_append] at hm
  rcases hm with hm | hm
  all_goals first
    | exact hp _ a hm
    | exact hp _ a (List.mem_of_mem_take hm)

/-- The two parts of the rough bound -/
theorem estimate_range (hB : Bounded I F L) (hf : Flows I) (hl : Lengths I) {s : State} (h : Ok I F s) (hp : Pos s) : 0 ≤ -estimate I s ∧ -estimate I s ≤ 2 ^ 63 - 1 := by
  have hca : completeArrangement I s ≤ I.n := by unfold completeArrangement; omega
  -- the cuts
  have hlen : (Dd.sortBy ratioGe (items I s)).length ≤ I.n := by
    rw [(Dd.sortBy_perm _ _).length_eq, items_eq h, List.length_append, List.length_map, List.length_map, List.length_range]
    have := h.split.1
    unfold Bits.count at this
    omega
  have h1 := smith_range (l := Dd.sortBy ratioGe (items I s)) (A := L) (C := I.n * F) (fun p hp' => by
    have := items_bound hB hl h hp p ((Dd.sortBy_perm _ _).mem_iff.1 hp')
    exact ⟨⟨this.1, this.2.1⟩, this.2.2⟩) hlen
  rw [← cutLoop_eq] at h1
  -- the flows
  have h2 : 0 ≤ edgeBound (completeArrangement I s) (nFlows I s) (lengths I s).1 (flows I s) ∧
      edgeBound (completeArrangement I s) (nFlows I s) (lengths I s).1 (flows I s) ≤ ((completeArrangement I s * (L * (I.n * I.n * F)) : Nat) : Int) := by
    have hnf : nFlows I s = tri (completeArrangement I s) := rfl
    rw [hnf, edgeBound_eq]
    refine rsum_range fun t ht => ?_
    have g1 := lengths_range hB hl h _ (getD_mem (l := (lengths I s).1) (i := t) (by rw [(lengths_length h).1]; exact ht))
    have g2 : 0 ≤ smallest (flows I s) (tri (completeArrangement I s - 1 - t)) ∧ smallest (flows I s) (tri (completeArrangement I s - 1 - t)) ≤ ((I.n * I.n * F : Nat) : Int) := by
      have g3 := sum_range (l := (flows I s).take (tri (completeArrangement I s - 1 - t))) (C := F) fun a ha => flows_range hB hf h a (List.mem_of_mem_take ha)
      refine ⟨g3.1, Int.le_trans g3.2 (Int.ofNat_le.2 (Nat.mul_le_mul_right F ?_))⟩
      rw [List.length_take]
      have g4 : (flows I s).length = tri (completeArrangement I s) := by rw [flows_length h]; rfl
      have g5 : tri (completeArrangement I s) ≤ I.n * I.n := by
        refine Nat.le_trans (tri_mono hca) ?_
        unfold tri
        exact Nat.le_trans (Nat.div_le_self _ _) (Nat.mul_le_mul_left _ (by omega))
      omega
    exact mul_range g1 g2
  -- together
  have h3 : (Dd.sortBy ratioGe (items I s)).length * (L * (I.n * (I.n * F))) ≤ I.n * (L * (I.n * (I.n * F))) := Nat.mul_le_mul_right _ hlen
  have h4 : completeArrangement I s * (L * (I.n * I.n * F)) ≤ I.n * (L * (I.n * I.n * F)) := Nat.mul_le_mul_right _ hca
  have e : I.n * (L * (I.n * (I.n * F))) = I.n * (L * (I.n * I.n * F)) := by ring
  have h5 : 2 * (I.n * (L * (I.n * I.n * F))) ≤ 4 * (I.n + 2) * (I.n * I.n * F * (L + 1)) := by
    have : 4 * (I.n + 2) * (I.n * I.n * F * (L + 1)) = 2 * (I.n * (L * (I.n * I.n * F))) + (2 * (I.n * (L * (I.n * I.n * F))) + 8 * (I.n * I.n * F * L) + 4 * (I.n + 2) * (I.n * I.n * F)) := by ring
    omega
  have h6 := hB.small
  unfold estimate
  omega

end Verif.Srflp
