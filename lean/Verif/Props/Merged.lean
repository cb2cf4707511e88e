import Verif.Proofs.Psp.Merge
import Verif.Proofs.Srflp.Merge
import Verif.Proofs.Tsptw.Merge
/-! C108: what a merged state is, in the three examples. -/
set_option autoImplicit false

namespace Verif.Tsptw
variable {I : Inst} {B : Nat}

theorem fold_early_attained (l : List State) (h : Helper) : (l.foldl Helper.track h).earliest = h.earliest ∨ ∃ s ∈ l, (l.foldl Helper.track h).earliest = s.elapsed.earliest := by
  induction l generalizing h with
  | nil => simp
  | cons s l ih =>
    rw [List.foldl_cons]
    have e : (h.track s).earliest = min h.earliest s.elapsed.earliest := rfl
    rcases ih (h.track s) with h1 | ⟨t, h1, h2⟩
    · rw [h1, e]
      rcases Nat.le_total h.earliest s.elapsed.earliest with h3 | h3
      · exact Or.inl (Nat.min_eq_left h3)
      · exact Or.inr ⟨s, by simp, Nat.min_eq_right h3⟩
    · exact Or.inr ⟨t, by simp [h1], h2⟩

theorem fold_max (f : Helper → Nat) (g : State → Nat) (hf : ∀ h s, f (h.track s) = max (f h) (g s)) (l : List State) (h : Helper) :
    f h ≤ f (l.foldl Helper.track h) ∧ (∀ s ∈ l, g s ≤ f (l.foldl Helper.track h)) ∧ (f (l.foldl Helper.track h) = f h ∨ ∃ s ∈ l, f (l.foldl Helper.track h) = g s) := by
  induction l generalizing h with
  | nil => simp
  | cons s l ih =>
    rw [List.foldl_cons]
    obtain ⟨h1, h2, h3⟩ := ih (h.track s)
    have e := hf h s
    rw [e] at h1
    refine ⟨by omega, ?_, ?_⟩
    · intro t ht
      rcases List.mem_cons.1 ht with rfl | ht
      · omega
      · exact h2 t ht
    · rcases h3 with h3 | ⟨t, h3, h4⟩
      · rw [h3, e]
        rcases Nat.le_total (f h) (g s) with h5 | h5
        · exact Or.inr ⟨s, by simp, Nat.max_eq_right h5⟩
        · exact Or.inl (Nat.max_eq_left h5)
      · exact Or.inr ⟨t, by simp [h3], h4⟩

end Verif.Tsptw

namespace Verif.Props
open Verif Spec

theorem getD_at {α : Type} {l : List α} {i : Nat} (h : i < l.length) {d : α} : l.getD i d = l[i] := by simp [List.getD, h]

section
open Tsptw
variable {I : Tsptw.Inst} {B : Nat}

/-- **C108.** `tsptw`: the merged state is in all places the merged states are in, must visit the cities that all of them must visit, and may visit the others that one of them may or must visit; there is no
second set if it would be empty; it is as early as the earliest and as late as the latest of them, and as deep as the deepest. -/
theorem tsptw_merged {l : List State} (hne : l ≠ []) (hl : ∀ s ∈ l, Ok I B s) (hu : ∀ s ∈ l, s.elapsed.earliest ≤ usizeMax) :
    (∀ i, (merge I l).position.has i = true ↔ ∃ s ∈ l, s.position.has i = true) ∧
    (∀ i, (merge I l).must.testBit i = true ↔ ∀ s ∈ l, s.must.testBit i = true) ∧
    (∀ i, ((merge I l).maybe.getD 0).testBit i = true ↔ (∃ s ∈ l, s.must.testBit i = true ∨ (s.maybe.getD 0).testBit i = true) ∧ ∃ s ∈ l, s.must.testBit i = false) ∧
    (∀ m, (merge I l).maybe = some m → ∃ i, i < I.n ∧ m.testBit i = true) ∧
    ((∃ s ∈ l, (merge I l).elapsed.earliest = s.elapsed.earliest) ∧ ∀ s ∈ l, (merge I l).elapsed.earliest ≤ s.elapsed.earliest) ∧
    ((∃ s ∈ l, (merge I l).elapsed.latest = s.elapsed.latest) ∧ ∀ s ∈ l, s.elapsed.latest ≤ (merge I l).elapsed.latest) ∧
    ((∃ s ∈ l, (merge I l).depth = s.depth) ∧ ∀ s ∈ l, s.depth ≤ (merge I l).depth) := by
  obtain ⟨s0, hs0⟩ := List.exists_mem_of_ne_nil l hne
  have hmust : ∀ i, (merge I l).must.testBit i = true ↔ ∀ s ∈ l, s.must.testBit i = true := by
    intro i
    rw [merge_must]
    simp only [Bool.and_eq_true, decide_eq_true_eq, List.all_eq_true]
    exact ⟨fun h => h.2, fun h => ⟨(hl s0 hs0).must i (h s0 hs0), h⟩⟩
  refine ⟨fun i => ?_, hmust, fun i => ?_, fun m hm => ?_, ⟨?_, fun s hs => merge_earliest hs⟩, ?_, ?_⟩
  · rw [merge_has, List.any_eq_true]
  · rw [merge_maybe hne hl, Bool.and_eq_true, List.any_eq_true]
    simp only [State.may, Bool.or_eq_true, Bool.not_eq_true']
    refine and_congr Iff.rfl ?_
    rw [← Bool.not_eq_true, hmust]
    constructor
    · intro h
      apply Classical.byContradiction
      intro h2
      refine h fun s hs => ?_
      cases hb : s.must.testBit i with
      | true => rfl
      | false => exact absurd ⟨s, hs, hb⟩ h2
    · rintro ⟨s, hs, h1⟩ h2
      rw [h2 s hs] at h1; cases h1
  · have hm' : (if 0 < Bits.count I.n (((l.foldl Helper.track (Helper.new I.n)).allMaybe ||| (l.foldl Helper.track (Helper.new I.n)).allMust) ^^^ (l.foldl Helper.track (Helper.new I.n)).allAgree)
      then some (((l.foldl Helper.track (Helper.new I.n)).allMaybe ||| (l.foldl Helper.track (Helper.new I.n)).allMust) ^^^ (l.foldl Helper.track (Helper.new I.n)).allAgree) else none) = some m := hm
    split at hm'
    · rename_i hc
      rw [Option.some.inj hm'] at hc
      obtain ⟨i, hi⟩ := List.exists_mem_of_length_pos hc
      simp only [Bits.iter, List.mem_filter, List.mem_range] at hi
      exact ⟨i, hi⟩
    · cases hm'
  · have e : (merge I l).elapsed.earliest = (l.foldl Helper.track (Helper.new I.n)).earliest := mkElapsed_earliest _ _
    rw [e]
    rcases fold_early_attained l (Helper.new I.n) with h | h
    · refine ⟨s0, hs0, ?_⟩
      have h1 := (fold_early l (Helper.new I.n)).2 s0 hs0
      have h2 := hu s0 hs0
      have h3 : (Helper.new I.n).earliest = usizeMax := rfl
      omega
    · exact h
  · have e : (merge I l).elapsed.latest = (l.foldl Helper.track (Helper.new I.n)).latest := mkElapsed_latest _ _
    rw [e]
    obtain ⟨_, h2, h3⟩ := fold_max Helper.latest (fun s => s.elapsed.latest) (fun _ _ => rfl) l (Helper.new I.n)
    refine ⟨?_, h2⟩
    rcases h3 with h3 | h3
    · refine ⟨s0, hs0, ?_⟩
      have := h2 s0 hs0
      have h4 : (Helper.new I.n).latest = 0 := rfl
      omega
    · exact h3
  · obtain ⟨_, h2, h3⟩ := fold_max Helper.depth State.depth (fun _ _ => rfl) l (Helper.new I.n)
    refine ⟨?_, h2⟩
    rcases h3 with h3 | h3
    · refine ⟨s0, hs0, ?_⟩
      have := h2 s0 hs0
      have h4 : (Helper.new I.n).depth = 0 := rfl
      show (l.foldl Helper.track (Helper.new I.n)).depth = _
      omega
    · exact h3

/-- **C108.** The order in which states are merged, and merging one twice, make no difference. -/
theorem tsptw_merge_order {l l' : List State} (h : ∀ s, s ∈ l ↔ s ∈ l') : merge I l = merge I l' := by
  have hany : ∀ f : State → Bool, l.any f = l'.any f := fun f => by rw [Bool.eq_iff_iff, List.any_eq_true, List.any_eq_true]; simp only [h]
  have hall : ∀ f : State → Bool, l.all f = l'.all f := fun f => by rw [Bool.eq_iff_iff, List.all_eq_true, List.all_eq_true]; simp only [h]
  have hmax : ∀ (f : Helper → Nat) (g : State → Nat), (∀ h s, f (h.track s) = max (f h) (g s)) → f (l.foldl Helper.track (Helper.new I.n)) = f (l'.foldl Helper.track (Helper.new I.n)) := by
    intro f g hf
    obtain ⟨a1, a2, a3⟩ := fold_max f g hf l (Helper.new I.n)
    obtain ⟨b1, b2, b3⟩ := fold_max f g hf l' (Helper.new I.n)
    apply Nat.le_antisymm
    · rcases a3 with a3 | ⟨s, a3, a4⟩
      · omega
      · have := b2 s ((h s).1 a3); omega
    · rcases b3 with b3 | ⟨s, b3, b4⟩
      · omega
      · have := a2 s ((h s).2 b3); omega
  have hmin : (l.foldl Helper.track (Helper.new I.n)).earliest = (l'.foldl Helper.track (Helper.new I.n)).earliest := by
    obtain ⟨a1, a2⟩ := fold_early l (Helper.new I.n)
    obtain ⟨b1, b2⟩ := fold_early l' (Helper.new I.n)
    apply Nat.le_antisymm
    · rcases fold_early_attained l' (Helper.new I.n) with b3 | ⟨s, b3, b4⟩
      · omega
      · have := a2 s ((h s).2 b3); omega
    · rcases fold_early_attained l (Helper.new I.n) with a3 | ⟨s, a3, a4⟩
      · omega
      · have := b2 s ((h s).1 a3); omega
  have e : l.foldl Helper.track (Helper.new I.n) = l'.foldl Helper.track (Helper.new I.n) := by
    have e1 := hmax Helper.depth State.depth fun _ _ => rfl
    have e2 := hmax Helper.latest (fun s => s.elapsed.latest) fun _ _ => rfl
    have e3 : (l.foldl Helper.track (Helper.new I.n)).position = (l'.foldl Helper.track (Helper.new I.n)).position := Nat.eq_of_testBit_eq fun i => by rw [fold_pos, fold_pos, hany]
    have e4 : (l.foldl Helper.track (Helper.new I.n)).allMust = (l'.foldl Helper.track (Helper.new I.n)).allMust := Nat.eq_of_testBit_eq fun i => by rw [fold_must, fold_must, hany]
    have e5 : (l.foldl Helper.track (Helper.new I.n)).allAgree = (l'.foldl Helper.track (Helper.new I.n)).allAgree := Nat.eq_of_testBit_eq fun i => by rw [fold_agree, fold_agree, hall]
    have e6 : (l.foldl Helper.track (Helper.new I.n)).allMaybe = (l'.foldl Helper.track (Helper.new I.n)).allMaybe := Nat.eq_of_testBit_eq fun i => by rw [fold_maybe, fold_maybe, hany]
    generalize l.foldl Helper.track (Helper.new I.n) = x at *
    generalize l'.foldl Helper.track (Helper.new I.n) = y at *
    cases x; cases y
    simp only at e1 e2 e3 e4 e5 e6 hmin
    subst e1 e2 e3 e4 e5 e6 hmin
    rfl
  unfold merge
  rw [e]

/-- Two salesmen: one in city 1 who must visit 0 and 2 and may visit 3, one in city 2 who must visit 0 and 1. -/
example : merge ⟨4, fun _ _ => 1, fun _ => 0, fun _ => 9⟩ [⟨.node 1, .fixed 3, 5, some 8, 1⟩, ⟨.node 2, .fixed 5, 3, none, 1⟩] = ⟨.virt 6, .fuzzy 3 5, 1, some 14, 1⟩ := by decide
example : Ok ⟨4, fun _ _ => 1, fun _ => 0, fun _ => 9⟩ 9 ⟨.node 2, .fixed 5, 3, none, 1⟩ := by
  have h : Bits.Sub 4 3 := fun i hi => by
    have := Nat.ge_two_pow_of_testBit hi
    have : i < 2 := (Nat.pow_lt_pow_iff_right (by decide)).1 (by omega : 2 ^ i < 2 ^ 2)
    omega
  exact ⟨(by decide : (2 : Nat) < 4), h, by simp, by decide, by decide, by decide⟩
example : merge ⟨4, fun _ _ => 1, fun _ => 0, fun _ => 9⟩ [⟨.node 1, .fixed 3, 5, none, 1⟩] = ⟨.virt 2, .fixed 3, 5, none, 1⟩ := by decide

end

section
open Srflp
variable {I : Srflp.Inst} {F L : Nat}

/-- **C108.** `srflp`: the merged state must place the departments that all states must place, and may place the others that one of them may or must place; there is no second set if it would be empty; the cut
value of a department is the smallest one of the states that have it still to place. -/
theorem srflp_merged (hB : Bounded I F L) {l : List State} (hne : l ≠ []) {k : Nat} (h : ∀ s ∈ l, Ok I F s ∧ s.depth = k) :
    (merge I l).depth = k ∧
    (∀ i, (merge I l).must.testBit i = true ↔ ∀ s ∈ l, s.must.testBit i = true) ∧
    (∀ i, ((merge I l).maybe.getD 0).testBit i = true ↔ (∃ s ∈ l, s.must.testBit i = true ∨ (s.maybe.getD 0).testBit i = true) ∧ ¬ ∀ s ∈ l, s.must.testBit i = true) ∧
    (∀ m, (merge I l).maybe = some m → ∃ i, i < I.n ∧ m.testBit i = true) ∧
    ∀ i, (∃ s ∈ l, s.must.testBit i = true ∨ (s.maybe.getD 0).testBit i = true) →
      (∃ s ∈ l, (s.must.testBit i = true ∨ (s.maybe.getD 0).testBit i = true) ∧ (merge I l).at i = s.at i) ∧
      ∀ s ∈ l, (s.must.testBit i = true ∨ (s.maybe.getD 0).testBit i = true) → (merge I l).at i ≤ s.at i := by
  obtain ⟨h1, _, h3, h4, h5⟩ := merge_spec hB hne h
  obtain ⟨s0, hs0⟩ := List.exists_mem_of_ne_nil l hne
  refine ⟨h1, fun i => ?_, h4, fun m hm => ?_, h5⟩
  · rw [h3]
    exact ⟨fun h => h.2, fun g => ⟨(h s0 hs0).1.must i (g s0 hs0), g⟩⟩
  · have hm' : (if 0 < Bits.count I.n (((l.foldl Helper.track (Helper.new I.n)).allMaybe ||| (l.foldl Helper.track (Helper.new I.n)).allMust) ^^^ (l.foldl Helper.track (Helper.new I.n)).allAgree)
      then some (((l.foldl Helper.track (Helper.new I.n)).allMaybe ||| (l.foldl Helper.track (Helper.new I.n)).allMust) ^^^ (l.foldl Helper.track (Helper.new I.n)).allAgree) else none) = some m := hm
    split at hm'
    · rename_i hc
      rw [Option.some.inj hm'] at hc
      obtain ⟨i, hi⟩ := List.exists_mem_of_length_pos hc
      simp only [Bits.iter, List.mem_filter, List.mem_range] at hi
      exact ⟨i, hi⟩
    · cases hm'

/-- **C108.** The order makes no difference. -/
theorem srflp_merge_order {l l' : List State} {k : Nat} (hk : ∀ s ∈ l, s.depth = k) (h : ∀ s, s ∈ l ↔ s ∈ l') : merge I l = merge I l' := by
  have H : Tracks I l (l.foldl Helper.track (Helper.new I.n)) := tracks_fold l [] _ tracks_new
  have H' : Tracks I l' (l'.foldl Helper.track (Helper.new I.n)) := tracks_fold l' [] _ tracks_new
  by_cases hne : l = []
  · have : l' = [] := by
      cases l' with
      | nil => rfl
      | cons s _ => exact absurd ((h s).2 (by simp)) (by simp [hne])
    rw [hne, this]
  have hne' : l' ≠ [] := by
    rintro rfl
    obtain ⟨s, hs⟩ := List.exists_mem_of_ne_nil l hne
    simpa using (h s).1 hs
  have hk' : ∀ s ∈ l', s.depth = k := fun s hs => hk s ((h s).2 hs)
  have e1 := ((H.depth k hk).2 hne).trans ((H'.depth k hk').2 hne').symm
  have e : l.foldl Helper.track (Helper.new I.n) = l'.foldl Helper.track (Helper.new I.n) := by
    have bit : ∀ {a b : Nat}, (∀ i, a.testBit i = true ↔ b.testBit i = true) → a = b := fun g => Nat.eq_of_testBit_eq fun i => Bool.eq_iff_iff.2 (g i)
    have e2 := bit fun i => (H.allMust i).trans ((by simp only [h] : _ ↔ _).trans (H'.allMust i).symm)
    have e3 := bit fun i => (H.allAgree i).trans ((by simp only [h] : _ ↔ _).trans (H'.allAgree i).symm)
    have e4 := bit fun i => (H.allMaybe i).trans ((by simp only [h] : _ ↔ _).trans (H'.allMaybe i).symm)
    have e5 : (l.foldl Helper.track (Helper.new I.n)).cut = (l'.foldl Helper.track (Helper.new I.n)).cut := by
      refine List.ext_getElem (H.cut.trans H'.cut.symm) fun i hi hi' => ?_
      have hin : i < I.n := by rw [← H.cut]; exact hi
      have a1 := H.le i hin
      have a2 := H.eq i hin
      have b1 := H'.le i hin
      have b2 := H'.eq i hin
      rw [getD_at hi] at a1 a2
      rw [getD_at hi'] at b1 b2
      apply Int.le_antisymm
      · rcases b2 with b2 | ⟨s, b2, b3, b4⟩
        · rw [b2]; exact a1.1
        · rw [b4]; exact a1.2 s ((h s).2 b2) b3
      · rcases a2 with a2 | ⟨s, a2, a3, a4⟩
        · rw [a2]; exact b1.1
        · rw [a4]; exact b1.2 s ((h s).1 a2) a3
    generalize l.foldl Helper.track (Helper.new I.n) = x at *
    generalize l'.foldl Helper.track (Helper.new I.n) = y at *
    cases x; cases y
    simp only at e1 e2 e3 e4 e5
    subst e1 e2 e3 e4 e5
    rfl
  unfold merge
  rw [e]

/-- Department 1 or department 0 is placed: department 2 must be placed, 0 or 1 may be, and the cut value of 2 is the smaller one. -/
example : merge ⟨3, fun _ => 1, fun _ _ => 1⟩ [⟨5, none, [4, 0, 7], 1⟩, ⟨6, none, [0, 2, 3], 1⟩] = ⟨4, some 3, [4, 2, 3], 1⟩ := by decide

end

section
open Psp

/-- **C108.** `psp`: the merged state has no next item, and the deadline of an item is the earliest one of the merged states. -/
theorem psp_merged {l : List State} (hne : l ≠ []) {n k : Nat} (hl : ∀ s ∈ l, s.u.length = n) (hk : ∀ s ∈ l, s.time = k) :
    (merge l).time = k ∧ (merge l).k = -1 ∧ (merge l).u.length = n ∧ ∀ i, i < n → (∃ s ∈ l, (merge l).at i = s.at i) ∧ ∀ s ∈ l, (merge l).at i ≤ s.at i := by
  obtain ⟨h1, h2⟩ := merge_u (I := ⟨0, n, fun _ _ => 0, fun _ => 0, fun _ _ => 0⟩) hne hl
  exact ⟨merge_time hne hk, rfl, h1, fun i hi => ⟨(h2 i hi).2, (h2 i hi).1⟩⟩

/-- **C108.** The order makes no difference. -/
theorem psp_merge_order {l l' : List State} {n k : Nat} (hl : ∀ s ∈ l, s.u.length = n) (hk : ∀ s ∈ l, s.time = k) (h : ∀ s, s ∈ l ↔ s ∈ l') : merge l = merge l' := by
  by_cases hne : l = []
  · have : l' = [] := by
      cases l' with
      | nil => rfl
      | cons s _ => exact absurd ((h s).2 (by simp)) (by simp [hne])
    rw [hne, this]
  have hne' : l' ≠ [] := by
    rintro rfl
    obtain ⟨s, hs⟩ := List.exists_mem_of_ne_nil l hne
    simpa using (h s).1 hs
  obtain ⟨a1, a2, a3, a4⟩ := psp_merged hne hl hk
  obtain ⟨b1, b2, b3, b4⟩ := psp_merged hne' (fun s hs => hl s ((h s).2 hs)) (fun s hs => hk s ((h s).2 hs))
  have hu : (merge l).u = (merge l').u := by
    refine List.ext_getElem (a3.trans b3.symm) fun i hi hi' => ?_
    obtain ⟨⟨s, p1, p2⟩, p3⟩ := a4 i (by omega)
    obtain ⟨⟨t, q1, q2⟩, q3⟩ := b4 i (by omega)
    have e : (merge l).at i = (merge l').at i := by
      apply Int.le_antisymm
      · rw [q2]; exact p3 t ((h t).2 q1)
      · rw [p2]; exact q3 s ((h s).1 p1)
    unfold State.at at e
    rwa [getD_at hi, getD_at hi'] at e
  have e1 := a1.trans b1.symm
  have e2 := a2.trans b2.symm
  generalize merge l = x at *
  generalize merge l' = y at *
  cases x; cases y
  simp only at e1 e2 hu
  subst e1 e2 hu
  rfl

example : merge [⟨2, 0, [1, 3]⟩, ⟨2, 1, [2, -1]⟩] = ⟨2, -1, [1, -1]⟩ := by decide

end

end Verif.Props
