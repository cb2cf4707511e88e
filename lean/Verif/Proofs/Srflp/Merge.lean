import Verif.Proofs.Srflp.Basic
/-! Merged states of the layout problem. -/
set_option autoImplicit false

namespace Verif.Srflp
open Verif Spec
variable {I : Inst} {F L : Nat}

/-! ### The merged state -/

theorem trackCut_length (s : State) (l : List Nat) (cut : List Int) : (trackCut s l cut).length = cut.length := by
  unfold trackCut
  induction l generalizing cut with
  | nil => rfl
  | cons a l ih => rw [List.foldl_cons, ih, List.length_set]

theorem trackCut_getD (s : State) (l : List Nat) (cut : List Int) (hl : ∀ i ∈ l, i < cut.length) (i : Nat) :
    (trackCut s l cut).getD i 0 = if i ∈ l then min (cut.getD i 0) (s.at i) else cut.getD i 0 := by
  unfold trackCut
  induction l generalizing cut with
  | nil => simp
  | cons a l ih =>
    rw [List.foldl_cons, ih _ (by intro j hj; rw [List.length_set]; exact hl j (by simp [hj]))]
    have ha := hl a (by simp)
    by_cases e : i = a
    · subst e
      have : (cut.set i (min (cut.getD i 0) (s.at i))).getD i 0 = min (cut.getD i 0) (s.at i) := by
        rw [List.getD_eq_getElem?_getD, List.getElem?_set]
        simp [ha]
      have hm : i ∈ i :: l := by simp
      simp only [this, hm, if_true]
      split <;> omega
    · have h1 : i ∈ a :: l ↔ i ∈ l := by simp [e]
      have h2 : (cut.set a (min (cut.getD a 0) (s.at a))).getD i 0 = cut.getD i 0 := by
        rw [List.getD_eq_getElem?_getD, List.getElem?_set_ne (fun h => e h.symm), ← List.getD_eq_getElem?_getD]
      simp only [h1, h2]

variable (I) in
/-- What the helper knows after the states of `l` -/
structure Tracks (l : List State) (h : Helper) : Prop where
  depth : ∀ k, (∀ s ∈ l, s.depth = k) → h.depth ≤ k ∧ (l ≠ [] → h.depth = k)
  allMust : ∀ i, h.allMust.testBit i = true ↔ ∃ s ∈ l, s.must.testBit i = true
  allAgree : ∀ i, h.allAgree.testBit i = true ↔ i < I.n ∧ ∀ s ∈ l, s.must.testBit i = true
  allMaybe : ∀ i, h.allMaybe.testBit i = true ↔ ∃ s ∈ l, (mb s).testBit i = true
  cut : h.cut.length = I.n
  le : ∀ i, i < I.n → h.cut.getD i 0 ≤ isizeMax ∧ ∀ s ∈ l, Free s i → h.cut.getD i 0 ≤ s.at i
  eq : ∀ i, i < I.n → h.cut.getD i 0 = isizeMax ∨ ∃ s ∈ l, Free s i ∧ h.cut.getD i 0 = s.at i

theorem tracks_new : Tracks I [] (Helper.new I.n) where
  depth := fun k _ => ⟨Nat.zero_le _, fun h => absurd rfl h⟩
  allMust := by intro i; simp [Helper.new]
  allAgree := by intro i; show (Bits.full I.n).testBit i = true ↔ _; rw [Bits.testBit_full]; simp
  allMaybe := by intro i; simp [Helper.new]
  cut := by simp [Helper.new]
  le := by intro i hi; simp [Helper.new, hi]
  eq := by intro i hi; simp [Helper.new, hi]

theorem track_cut {h : Helper} (hlen : h.cut.length = I.n) (s : State) :
    (h.track s).cut.length = I.n ∧ ∀ i, i < I.n → (Free s i → (h.track s).cut.getD i 0 = min (h.cut.getD i 0) (s.at i)) ∧ (¬ Free s i → (h.track s).cut.getD i 0 = h.cut.getD i 0) := by
  have hin : ∀ (c : List Int), c.length = I.n → ∀ m, ∀ j ∈ Bits.iter I.n m, j < c.length := by
    intro c hc m j hj; rw [hc]; exact (Bits.mem_iter.1 hj).1
  unfold Free mb Helper.track
  simp only [hlen]
  cases s.maybe with
  | none =>
    simp only [Option.getD_none, Nat.zero_testBit]
    refine ⟨by rw [trackCut_length]; exact hlen, fun i hi => ?_⟩
    rw [trackCut_getD _ _ _ (hin _ hlen _)]
    simp only [Bits.mem_iter, hi, true_and]
    split <;> simp_all
  | some m =>
    simp only [Option.getD_some]
    refine ⟨by rw [trackCut_length, trackCut_length]; exact hlen, fun i hi => ?_⟩
    rw [trackCut_getD _ _ _ (hin _ (by rw [trackCut_length]; exact hlen) _), trackCut_getD _ _ _ (hin _ hlen _)]
    simp only [Bits.mem_iter, hi, true_and]
    split <;> split <;> simp_all

theorem Tracks.track {l : List State} {h : Helper} (H : Tracks I l h) (s : State) : Tracks I (l ++ [s]) (h.track s) := by
  obtain ⟨hc1, hc2⟩ := track_cut H.cut s
  refine ⟨?_, ?_, ?_, ?_, hc1, ?_, ?_⟩
  · intro k hk
    have h1 := H.depth k fun t ht => hk t (by simp [ht])
    have h2 := hk s (by simp)
    have e : (h.track s).depth = max h.depth s.depth := rfl
    rw [e]
    exact ⟨by omega, fun _ => by omega⟩
  · intro i
    have e : (h.track s).allMust = h.allMust ||| s.must := rfl
    rw [e, Nat.testBit_or, Bool.or_eq_true, H.allMust]
    simp [or_and_right, exists_or]
  · intro i
    have e : (h.track s).allAgree = h.allAgree &&& s.must := rfl
    rw [e, Nat.testBit_and, Bool.and_eq_true, H.allAgree]
    simp [or_imp, forall_and, and_assoc]
  · intro i
    have e : (h.track s).allMaybe = h.allMaybe ||| mb s := by
      unfold Helper.track mb
      cases s.maybe <;> simp
    rw [e, Nat.testBit_or, Bool.or_eq_true, H.allMaybe]
    simp [or_and_right, exists_or]
  · intro i hi
    obtain ⟨g1, g2⟩ := H.le i hi
    by_cases hf : Free s i
    · rw [(hc2 i hi).1 hf]
      refine ⟨by omega, fun t ht hft => ?_⟩
      rcases List.mem_append.1 ht with ht | ht
      · have := g2 t ht hft; omega
      · simp at ht; subst ht; omega
    · rw [(hc2 i hi).2 hf]
      refine ⟨g1, fun t ht hft => ?_⟩
      rcases List.mem_append.1 ht with ht | ht
      · exact g2 t ht hft
      · simp at ht; subst ht; exact absurd hft hf
  · intro i hi
    have g := H.eq i hi
    by_cases hf : Free s i
    · rw [(hc2 i hi).1 hf]
      rcases Int.le_total (h.cut.getD i 0) (s.at i) with h1 | h1
      · rw [Int.min_eq_left h1]
        exact g.imp id fun ⟨t, ht, h2⟩ => ⟨t, by simp [ht], h2⟩
      · rw [Int.min_eq_right h1]
        exact Or.inr ⟨s, by simp, hf, rfl⟩
    · rw [(hc2 i hi).2 hf]
      exact g.imp id fun ⟨t, ht, h2⟩ => ⟨t, by simp [ht], h2⟩

theorem tracks_fold (l pre : List State) (h : Helper) (H : Tracks I pre h) : Tracks I (pre ++ l) (l.foldl Helper.track h) := by
  induction l generalizing pre h with
  | nil => simpa using H
  | cons s l ih =>
    have := ih (pre ++ [s]) _ (H.track s)
    simpa using this

theorem count_or {n a b : Nat} (h : ∀ i, a.testBit i = true → b.testBit i = false) : Bits.count n (a ||| b) = Bits.count n a + Bits.count n b := by
  unfold Bits.count Bits.iter
  induction n with
  | zero => rfl
  | succ n ih =>
    rw [List.range_succ, List.filter_append, List.filter_append, List.filter_append]
    simp only [List.length_append, ih]
    have := h n
    cases ha : a.testBit n <;> cases hb : b.testBit n <;> simp_all [Nat.testBit_or] <;> omega

theorem count_mono {n a b : Nat} (h : ∀ i, i < n → a.testBit i = true → b.testBit i = true) : Bits.count n a ≤ Bits.count n b := by
  have : (Bits.iter n a).Subperm (Bits.iter n b) :=
    List.subperm_of_subset (Bits.nodup_iter _ _) fun i hi => Bits.mem_iter.2 ⟨(Bits.mem_iter.1 hi).1, h i (Bits.mem_iter.1 hi).1 (Bits.mem_iter.1 hi).2⟩
  exact this.length_le

/-- The merged state, in words -/
theorem merge_spec (hB : Bounded I F L) {l : List State} (hne : l ≠ []) {k : Nat} (h : ∀ s ∈ l, Ok I F s ∧ s.depth = k) :
    (merge I l).depth = k ∧ (merge I l).cut.length = I.n ∧
    (∀ i, (merge I l).must.testBit i = true ↔ i < I.n ∧ ∀ s ∈ l, s.must.testBit i = true) ∧
    (∀ i, (mb (merge I l)).testBit i = true ↔ (∃ s ∈ l, Free s i) ∧ ¬ ∀ s ∈ l, s.must.testBit i = true) ∧
    (∀ i, (∃ s ∈ l, Free s i) → (∃ s ∈ l, Free s i ∧ (merge I l).at i = s.at i) ∧ ∀ s ∈ l, Free s i → (merge I l).at i ≤ s.at i) := by
  have H : Tracks I l (l.foldl Helper.track (Helper.new I.n)) := tracks_fold l [] _ tracks_new
  unfold merge
  generalize l.foldl Helper.track (Helper.new I.n) = hp at H
  refine ⟨(H.depth k fun s hs => (h s hs).2).2 hne, H.cut, H.allAgree, ?_, ?_⟩
  · have hsub : Bits.Sub I.n ((hp.allMaybe ||| hp.allMust) ^^^ hp.allAgree) := by
      refine Bits.Sub.xor (Bits.Sub.or ?_ ?_) ?_
      · intro i hi; obtain ⟨s, hs, h1⟩ := (H.allMaybe i).1 hi; exact (h s hs).1.maybe i h1
      · intro i hi; obtain ⟨s, hs, h1⟩ := (H.allMust i).1 hi; exact (h s hs).1.must i h1
      · intro i hi; exact ((H.allAgree i).1 hi).1
    have e : mb (hp.get I.n) = (hp.allMaybe ||| hp.allMust) ^^^ hp.allAgree := by
      unfold mb Helper.get
      simp only
      split
      · rfl
      · rename_i hc
        rw [Bits.count_pos hsub] at hc
        simp only [ne_eq, Decidable.not_not] at hc
        rw [hc]; rfl
    intro i
    rw [e, Nat.testBit_xor, Nat.testBit_or]
    obtain ⟨s0, hs0⟩ := List.exists_mem_of_ne_nil l hne
    have hM := H.allMaybe i
    have hS := H.allMust i
    have hA := H.allAgree i
    have hfree : (∃ s ∈ l, Free s i) ↔ (hp.allMaybe.testBit i || hp.allMust.testBit i) = true := by
      rw [Bool.or_eq_true, hM, hS]
      unfold Free
      constructor
      · rintro ⟨s, hs, h1 | h1⟩
        · exact Or.inr ⟨s, hs, h1⟩
        · exact Or.inl ⟨s, hs, h1⟩
      · rintro (⟨s, hs, h1⟩ | ⟨s, hs, h1⟩)
        · exact ⟨s, hs, Or.inr h1⟩
        · exact ⟨s, hs, Or.inl h1⟩
    have hag : (∀ s ∈ l, s.must.testBit i = true) ↔ hp.allAgree.testBit i = true := by
      rw [hA]
      exact ⟨fun g => ⟨(h s0 hs0).1.must i (g s0 hs0), g⟩, fun g => g.2⟩
    have himp : hp.allAgree.testBit i = true → hp.allMust.testBit i = true := by
      rw [hA, hS]; exact fun g => ⟨s0, hs0, g.2 s0 hs0⟩
    rw [hfree, hag]
    cases h1 : hp.allAgree.testBit i <;> cases h2 : hp.allMust.testBit i <;> cases h3 : hp.allMaybe.testBit i <;> simp_all
  · rintro i ⟨s, hs, hf⟩
    have hi := (h s hs).1.lt hf
    have e : (hp.get I.n).at i = hp.cut.getD i 0 := rfl
    rw [e]
    refine ⟨?_, (H.le i hi).2⟩
    rcases H.eq i hi with g | g
    · exfalso
      have h1 := (H.le i hi).2 s hs hf
      rw [g] at h1
      have h2 := ((h s hs).1.bound i hf).2
      have h3 := (h s hs).1.depth
      have h4 := hB.small
      have hpos : 0 < I.n := by omega
      have h5 : s.depth * F ≤ I.n * I.n * F * (L + 1) := by
        calc s.depth * F ≤ I.n * F := Nat.mul_le_mul_right _ h3
          _ ≤ I.n * (I.n * F) := Nat.le_mul_of_pos_left _ hpos
          _ = I.n * I.n * F := by ring
          _ ≤ I.n * I.n * F * (L + 1) := Nat.le_mul_of_pos_right _ (by omega)
      have h6 : 4 * (I.n * I.n * F * (L + 1)) ≤ 4 * (I.n + 2) * (I.n * I.n * F * (L + 1)) := Nat.mul_le_mul_right _ (by omega)
      have e : isizeMax = 2 ^ 63 - 1 := by decide
      rw [e] at h1
      omega
    · exact g

theorem merge_ok (hB : Bounded I F L) {l : List State} (hne : l ≠ []) {k : Nat} (h : ∀ s ∈ l, Ok I F s ∧ s.depth = k) : Ok I F (merge I l) := by
  obtain ⟨h1, h2, h3, h4, h5⟩ := merge_spec hB hne h
  obtain ⟨s, hs⟩ := List.exists_mem_of_ne_nil l hne
  obtain ⟨hok, hk⟩ := h s hs
  have hdisj : ∀ i, (merge I l).must.testBit i = true → (mb (merge I l)).testBit i = false := by
    intro i hi
    cases e : (mb (merge I l)).testBit i
    · rfl
    · exact absurd ((h3 i).1 hi).2 ((h4 i).1 e).2
  have hfree : ∀ i, Free (merge I l) i → ∃ t ∈ l, Free t i := by
    rintro i (hi | hi)
    · exact ⟨s, hs, Or.inl (((h3 i).1 hi).2 s hs)⟩
    · exact ((h4 i).1 hi).1
  refine ⟨fun i hi => ((h3 i).1 hi).1, ?_, hdisj, h2, by rw [h1, ← hk]; exact hok.depth, ?_, ?_, ?_⟩
  · intro i hi
    obtain ⟨t, ht, h6⟩ := ((h4 i).1 hi).1
    exact (h t ht).1.lt h6
  · have : Bits.count I.n (merge I l).must ≤ Bits.count I.n s.must := count_mono fun i _ hi => ((h3 i).1 hi).2 s hs
    have := hok.few
    omega
  · have e1 := count_or (n := I.n) hdisj
    have e2 := count_or (n := I.n) hok.disj
    have : Bits.count I.n (s.must ||| mb s) ≤ Bits.count I.n ((merge I l).must ||| mb (merge I l)) := by
      refine count_mono fun i hi g => ?_
      rw [Nat.testBit_or, Bool.or_eq_true] at g ⊢
      rw [h3, h4]
      by_cases hall : ∀ t ∈ l, t.must.testBit i = true
      · exact Or.inl ⟨hi, hall⟩
      · exact Or.inr ⟨⟨s, hs, g⟩, hall⟩
    have := hok.many
    omega
  · intro i hi
    obtain ⟨⟨t, ht, h6, h7⟩, _⟩ := h5 i (hfree i hi)
    rw [h7, h1, ← (h t ht).2]
    exact (h t ht).1.bound i h6

/-! ### Less to do -/

/-- `s'` has more choice than `s`, and less flow passes. -/
structure Below (s s' : State) : Prop where
  depth : s'.depth = s.depth
  must : ∀ i, s'.must.testBit i = true → s.must.testBit i = true
  free : ∀ i, Free s i → Free s' i
  le : ∀ i, Free s i → s'.at i ≤ s.at i

theorem sum_map_le {α : Type} {f g : α → Int} {l : List α} (h : ∀ a ∈ l, f a ≤ g a) : (l.map f).sum ≤ (l.map g).sum := by
  induction l with
  | nil => simp
  | cons a l ih =>
    have h1 := h a (by simp)
    have h2 := ih fun b hb => h b (by simp [hb])
    simp only [List.map_cons, List.sum_cons]
    omega

theorem not_must {s : State} (h : Ok I F s) {i : Nat} (hi : (mb s).testBit i = true) : s.must.testBit i = false := by
  cases e : s.must.testBit i
  · rfl
  · rw [h.disj i e] at hi; cases hi

/-- The departments of `musts ++ T` are different and free. -/
theorem choice_nodup {s : State} (h : Ok I F s) {d : Nat} {T : List Nat} (hT : T.Subperm (Bits.iter I.n (Bits.clear (mb s) d))) :
    (musts I s d ++ T).Nodup ∧ (∀ i ∈ musts I s d ++ T, Free s i ∧ i ≠ d) ∧ (∀ i ∈ T, (mb s).testBit i = true) := by
  have hTn : T.Nodup := by
    obtain ⟨k, h1, h2⟩ := hT
    exact h1.nodup_iff.1 ((Bits.nodup_iter _ _).sublist h2)
  have hTm : ∀ i ∈ T, (mb s).testBit i = true ∧ i ≠ d := by
    intro i hi
    have := (Bits.mem_iter.1 (hT.subset hi)).2
    rw [Bits.testBit_clear, Bool.and_eq_true, decide_eq_true_eq] at this
    exact ⟨this.1, fun e => this.2 e.symm⟩
  have hmm : ∀ i ∈ musts I s d, s.must.testBit i = true ∧ i ≠ d := by
    intro i hi
    rw [musts_eq, Bits.mem_iter, Bits.testBit_clear, Bool.and_eq_true, decide_eq_true_eq] at hi
    exact ⟨hi.2.1, fun e => hi.2.2 e.symm⟩
  refine ⟨List.nodup_append.2 ⟨?_, hTn, ?_⟩, ?_, fun i hi => (hTm i hi).1⟩
  · rw [musts_eq]; exact Bits.nodup_iter _ _
  · rintro a ha b hb rfl
    have := h.disj a (hmm a ha).1
    rw [(hTm a hb).1] at this; cases this
  · intro i hi
    rcases List.mem_append.1 hi with hi | hi
    · exact ⟨Or.inl (hmm i hi).1, (hmm i hi).2⟩
    · exact ⟨Or.inr (hTm i hi).1, (hTm i hi).2⟩

theorem Below.dom {s s' : State} (h : Ok I F s) (h' : Ok I F s') (hb : Below s s') {x : Nat} {d : Decision} (hd : d ∈ dom I x s) : d ∈ Srflp.dom I x s' := by
  obtain ⟨i, rfl, hi, hcase⟩ := mem_dom.1 hd
  refine mem_dom.2 ⟨i, rfl, hi, ?_⟩
  have hfree : Free s i := hcase.imp id (·.1)
  have hle : Bits.count I.n s'.must ≤ Bits.count I.n s.must := count_mono fun i _ hi => hb.must i hi
  rcases hb.free i hfree with g | g
  · exact Or.inl g
  · refine Or.inr ⟨g, ?_⟩
    rw [hb.depth]
    rcases hcase with g1 | ⟨_, g2⟩
    · have h1 : Bits.count I.n s'.must ≤ Bits.count I.n (Bits.clear s.must i) := by
        refine count_mono fun j _ hj => ?_
        rw [Bits.testBit_clear, Bool.and_eq_true, decide_eq_true_eq]
        refine ⟨hb.must j hj, ?_⟩
        rintro rfl
        rw [not_must h' g] at hj; cases hj
      have h2 := Bits.count_clear hi g1
      have := h.few
      omega
    · omega

theorem Below.cost (hl : Lengths I) {s s' : State} (h : Ok I F s) (hb : Below s s') {x : Nat} {d : Decision} (hd : d ∈ Srflp.dom I x s) :
    Srflp.cost I s d ≤ Srflp.cost I s' d := by
  obtain ⟨T, hT, hlen, hcost⟩ := cost_choice h hd
  obtain ⟨i, rfl, hi, hcase⟩ := mem_dom.1 hd
  have ht : ((⟨x, (i : Int)⟩ : Decision).value.toNat) = i := rfl
  simp only [ht] at hT hlen hcost
  obtain ⟨hX, hfree, _⟩ := choice_nodup h hT
  rw [hcost, cost_eq, ht]
  have hmust : (musts I s' i).Nodup := by rw [musts_eq]; exact Bits.nodup_iter _ _
  have hmm : ∀ j, j ∈ musts I s' i → j ∈ musts I s i := by
    intro j hj
    rw [musts_eq, Bits.mem_iter, Bits.testBit_clear, Bool.and_eq_true] at hj ⊢
    exact ⟨hj.1, hb.must j hj.2.1, hj.2.2⟩
  -- the departments chosen for `s`, those that must be placed in `s'` first
  let X' := (musts I s i ++ T).filter fun j => decide (j ∉ musts I s' i)
  have hperm : (musts I s i ++ T).Perm (musts I s' i ++ X') := by
    refine (List.perm_ext_iff_of_nodup hX (List.nodup_append.2 ⟨hmust, hX.filter _, ?_⟩)).2 ?_
    · rintro a ha b hb rfl
      have := (List.mem_filter.1 hb).2
      simp at this
      exact this ha
    · intro j
      simp only [List.mem_append, List.mem_filter, decide_eq_true_eq]
      by_cases hj : j ∈ musts I s' i
      · have := hmm j hj; simp [hj, this]
      · simp [hj]
  have hsub : X'.Subperm (Bits.iter I.n (Bits.clear (mb s') i)) := by
    refine List.subperm_of_subset (hX.filter _) ?_
    intro j hj
    obtain ⟨h1, h2⟩ := List.mem_filter.1 hj
    simp only [decide_eq_true_eq] at h2
    obtain ⟨h3, h4⟩ := hfree j h1
    rw [Bits.mem_iter, Bits.testBit_clear, Bool.and_eq_true, decide_eq_true_eq]
    refine ⟨h.lt h3, ?_, fun e => h4 e.symm⟩
    rcases hb.free j h3 with g | g
    · refine absurd ?_ h2
      rw [musts_eq, Bits.mem_iter, Bits.testBit_clear, Bool.and_eq_true, decide_eq_true_eq]
      exact ⟨h.lt h3, g, fun e => h4 e.symm⟩
    · exact g
  have hsm := smallest_le s'.at hsub
  have hlen' := hperm.length_eq
  rw [List.length_append, List.length_append] at hlen'
  have e : I.n - (s'.depth + 1) - (musts I s' i).length = X'.length := by rw [hb.depth]; omega
  rw [left_eq, e]
  have h1 : ((musts I s' i ++ X').map s'.at).sum ≤ ((musts I s' i ++ X').map s.at).sum :=
    sum_map_le fun j hj => hb.le j (hfree j (hperm.mem_iff.2 hj)).1
  rw [← perm_sum (hperm.map s.at)] at h1
  rw [List.map_append, List.sum_append] at h1
  have h2 : ((musts I s' i).map s'.at).sum + ((sortAsc ((Bits.iter I.n (Bits.clear (mb s') i)).map s'.at)).take X'.length).sum ≤ ((musts I s i ++ T).map s.at).sum := by omega
  have := Int.mul_le_mul_of_nonneg_right h2 (hl i hi)
  rw [Int.neg_mul]
  omega

theorem Below.trans {s s' : State} (h : Ok I F s) (h' : Ok I F s') (hb : Below s s') (d : Decision) : Below (trans I s d) (Srflp.trans I s' d) where
  depth := by rw [trans_depth, trans_depth, hb.depth]
  must := by
    intro i hi
    rw [trans_must, Bits.testBit_clear, Bool.and_eq_true] at hi ⊢
    exact ⟨hb.must i hi.1, hi.2⟩
  free := by
    intro i hi
    rw [free_trans] at hi ⊢
    exact ⟨hb.free i hi.1, hi.2⟩
  le := by
    intro i hi
    rw [free_trans] at hi
    rw [trans_at h hi.1 hi.2, trans_at h' (hb.free i hi.1) hi.2]
    have := hb.le i hi.1
    omega

theorem Below.run (hB : Bounded I F L) (hl : Lengths I) {s e : State} {ds : List Decision} {v : Int} (hr : Run (problem I) s ds v e)
    (he : (problem I).nextVar [e] = none) :
    ∀ {s' : State}, Ok I F s → Ok I F s' → Below s s' → ∃ v', Completion (problem I) s' ds v' ∧ v ≤ v' := by
  induction hr with
  | nil s =>
    intro s' h h' hb
    refine ⟨0, ⟨s', Run.nil _, ?_⟩, Int.le_refl _⟩
    exact nextVar_eq_none (by rw [hb.depth]; exact nextVar_none he)
  | @cons s e x d ds v hx hd hr ih =>
    intro s' h h' hb
    obtain ⟨rfl, hn⟩ := nextVar_some hx
    have hd' := hb.dom h h' hd
    obtain ⟨v', ⟨e', h1, h2⟩, h3⟩ := ih he (h.trans hB hd) (h'.trans hB hd') (hb.trans h h' d)
    have hx' : (problem I).nextVar [s'] = some s.depth := by
      rw [← hb.depth]; exact nextVar_eq (by rw [hb.depth]; exact hn)
    refine ⟨_, ⟨e', Run.cons hx' hd' h1, h2⟩, ?_⟩
    have := hb.cost hl h hd
    show Srflp.cost I s d + v ≤ Srflp.cost I s' d + v'
    omega

theorem merge_below (hB : Bounded I F L) {l : List State} {k : Nat} (h : ∀ s ∈ l, Ok I F s ∧ s.depth = k) {s : State} (hs : s ∈ l) : Below s (merge I l) := by
  obtain ⟨h1, h2, h3, h4, h5⟩ := merge_spec hB (List.ne_nil_of_mem hs) h
  refine ⟨by rw [h1, (h s hs).2], fun i hi => ((h3 i).1 hi).2 s hs, ?_, fun i hi => (h5 i ⟨s, hs, hi⟩).2 s hs hi⟩
  intro i hi
  by_cases hall : ∀ t ∈ l, t.must.testBit i = true
  · exact Or.inl ((h3 i).2 ⟨(h s hs).1.lt hi, hall⟩)
  · exact Or.inr ((h4 i).2 ⟨⟨s, hs, hi⟩, hall⟩)

/-! ### What the solver needs -/

variable (I F) in
/-- The layers of the problem -/
def layering : Layering State := { ok := Ok I F, lvl := fun s => s.depth, var := fun k => k }

variable (I F L) in
/-- No decision costs more. -/
def costMax : Nat := I.n * I.n * F * (L + 1)

theorem sum_bound {α : Type} {f : α → Int} {c : Int} {l : List α} (h : ∀ a ∈ l, -c ≤ f a ∧ f a ≤ c) : -(l.length * c) ≤ (l.map f).sum ∧ (l.map f).sum ≤ l.length * c := by
  induction l with
  | nil => simp
  | cons a l ih =>
    have h1 := h a (by simp)
    have h2 := ih fun b hb => h b (by simp [hb])
    simp only [List.map_cons, List.sum_cons, List.length_cons]
    push_cast
    rw [Int.add_mul, Int.one_mul]
    omega

theorem cost_bound (hB : Bounded I F L) {s : State} (h : Ok I F s) {x : Nat} {d : Decision} (hd : d ∈ dom I x s) :
    -(costMax I F L : Int) ≤ cost I s d ∧ cost I s d ≤ costMax I F L := by
  obtain ⟨T, hT, hlen, hcost⟩ := cost_choice h hd
  obtain ⟨i, rfl, hi, hcase⟩ := mem_dom.1 hd
  have ht : ((⟨x, (i : Int)⟩ : Decision).value.toNat) = i := rfl
  simp only [ht] at hT hlen hcost
  obtain ⟨_, hfree, _⟩ := choice_nodup h hT
  rw [hcost]
  have h1 := sum_bound (f := s.at) (c := ((s.depth * F : Nat) : Int)) (l := musts I s i ++ T) fun j hj => h.bound j (hfree j hj).1
  have h2 : ((musts I s i ++ T).length * (s.depth * F)) ≤ I.n * I.n * F := by
    rw [List.length_append]
    calc _ ≤ I.n * (I.n * F) := Nat.mul_le_mul (by omega) (Nat.mul_le_mul_right _ h.depth)
      _ = _ := by ring
  have h3 : (((musts I s i ++ T).length * (s.depth * F) : Nat) : Int) ≤ ((I.n * I.n * F : Nat) : Int) := by exact_mod_cast h2
  generalize ((musts I s i ++ T).map s.at).sum = S at h1 ⊢
  have h4 := hB.len i hi
  have e1 : ((musts I s i ++ T).length : Int) * ((s.depth * F : Nat) : Int) = (((musts I s i ++ T).length * (s.depth * F) : Nat) : Int) := by push_cast; rfl
  rw [e1] at h1
  unfold costMax
  push_cast
  generalize hC : ((I.n * I.n * F : Nat) : Int) = C at h3
  have hC0 : 0 ≤ C := by rw [← hC]; exact Int.natCast_nonneg _
  have e2 : (I.n : Int) * I.n * F = C := by rw [← hC]; push_cast; ring
  rw [e2]
  have hS1 : -C ≤ S := by omega
  have hS2 : S ≤ C := by omega
  generalize I.len i = y at h4
  obtain ⟨h5, h6⟩ := h4
  have hL : (0 : Int) ≤ L := Int.natCast_nonneg _
  constructor <;> nlinarith [mul_nonneg (sub_nonneg.2 hS1) (sub_nonneg.2 h5), mul_nonneg (sub_nonneg.2 hS1) (sub_nonneg.2 h6),
    mul_nonneg (sub_nonneg.2 hS2) (sub_nonneg.2 h5), mul_nonneg (sub_nonneg.2 hS2) (sub_nonneg.2 h6), mul_nonneg hC0 hL]

theorem wellFormed (hB : Bounded I F L) : WellFormed (problem I) (layering I F) (costMax I F L) where
  ok_init := ok_init F
  ok_trans := fun s x d hs _ hd => Ok.trans hB hs hd
  lvl_init := rfl
  lvl_trans := fun s x d _ _ _ => rfl
  next_nil := rfl
  next_var := by
    intro l k hne hl
    cases l with
    | nil => exact absurd rfl hne
    | cons s l =>
      obtain ⟨h1, h2⟩ := hl s (by simp)
      change s.depth = k at h2
      have := h1.depth
      show nextVar I (s :: l) = if k < I.n then some k else none
      simp only [nextVar]
      by_cases h : s.depth = I.n
      · rw [if_pos h, if_neg (by omega)]
      · rw [if_neg h, if_pos (by omega), h2]
  init_bound := by
    show -(costMax I F L : Int) ≤ 0 ∧ (0 : Int) ≤ costMax I F L
    omega
  cost_bound := fun s x d hs _ hd => cost_bound hB hs hd
  no_overflow := by
    have := hB.small
    have e : isizeMax = ((2 ^ 63 - 1 : Nat) : Int) := by decide
    rw [e]
    show 4 * ((I.n : Int) + 2) * (costMax I F L : Int) ≤ _
    have h2 : 4 * ((I.n : Int) + 2) * (costMax I F L : Int) = ((4 * (I.n + 2) * (I.n * I.n * F * (L + 1)) : Nat) : Int) := by unfold costMax; push_cast; rfl
    rw [h2]
    exact_mod_cast this

theorem layered (hB : Bounded I F L) : LayeredRelaxation (problem I) (relaxation I) (layering I F) (costMax I F L) where
  merge_ok := fun _ _ hne hl => ⟨merge_ok hB hne hl, (merge_spec hB hne hl).1⟩
  relax_cost := fun _ _ _ _ _ _ hs _ hd _ => ⟨Int.le_refl _, (cost_bound hB hs hd).2⟩

theorem sound (hB : Bounded I F L) (hl : Lengths I) : SoundRelaxation (problem I) (relaxation I) (layering I F) (costMax I F L) := by
  refine ⟨layered hB, ?_⟩
  intro l k hk s x d hs hx hd hm ds v ⟨e, hr, he⟩
  obtain ⟨v', h1, h2⟩ := Below.run hB hl hr he (hk _ hm).1 (merge_ok hB (List.ne_nil_of_mem hm) hk) (merge_below hB hk hm)
  refine ⟨ds, v', h1, ?_⟩
  show cost I s d + v ≤ cost I s d + v'
  omega

end Verif.Srflp
