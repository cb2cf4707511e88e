import Verif.Proofs.Psp.Exact
import Verif.Proofs.Bits
import Verif.Proofs.Mdd.Basic
/-! The table of changeover costs is a lower bound. -/
set_option autoImplicit false

namespace Verif.Psp
open Verif Spec
variable {I : Inst} {σ : List Edge → List Edge}

def Edge.touches (e : Edge) (x : Nat) : Prop := e.2.1 = x ∨ e.2.2 = x

theorem cover_max (es : List Edge) : ∀ (vs t m : Nat), m ≤ (cover vs es t m).2 := by
  induction es with
  | nil => intro vs t m; exact Nat.le_refl _
  | cons e es ih =>
    intro vs t m
    unfold cover
    split
    · exact Nat.le_refl _
    · split
      · exact Nat.le_trans (Nat.le_max_left _ _) (ih _ _ _)
      · exact ih _ _ _

/-- The vertices that are not covered yet, without the first, by weight -/
def weight (n f : Nat) (w : Nat → Nat) (vs : Nat) : Nat := total n fun x => if vs.testBit x = true ∧ x ≠ f then w x else 0

theorem weight_mono {n f : Nat} {w : Nat → Nat} {vs vs' : Nat} (h : ∀ x, vs'.testBit x = true → vs.testBit x = true) : weight n f w vs' ≤ weight n f w vs := by
  refine total_mono fun x _ => ?_
  by_cases h1 : vs'.testBit x = true ∧ x ≠ f
  · rw [if_pos h1, if_pos ⟨h x h1.1, h1.2⟩]; exact Nat.le_refl _
  · rw [if_neg h1]; exact Nat.zero_le _

theorem weight_remove {n f : Nat} {w : Nat → Nat} {vs vs' x : Nat} (h : ∀ x, vs'.testBit x = true → vs.testBit x = true) (hx : x < n) (h1 : vs.testBit x = true) (h2 : vs'.testBit x = false)
    (hf : x ≠ f) : weight n f w vs' + w x ≤ weight n f w vs := by
  have e := total_update hx (g := fun y => if y = x then w x else if vs'.testBit y = true ∧ y ≠ f then w y else 0)
    (h := fun y => if vs'.testBit y = true ∧ y ≠ f then w y else 0) (by intro j _ hne; simp [hne])
  simp only [if_true, h2, Bool.false_eq_true, false_and, if_false, Nat.add_zero] at e
  have : total n (fun y => if y = x then w x else if vs'.testBit y = true ∧ y ≠ f then w y else 0) ≤ weight n f w vs := by
    refine total_mono fun y _ => ?_
    by_cases hy : y = x
    · subst hy; rw [if_pos rfl, if_pos ⟨h1, hf⟩]; exact Nat.le_refl _
    · rw [if_neg hy]
      by_cases h3 : vs'.testBit y = true ∧ y ≠ f
      · rw [if_pos h3, if_pos ⟨h y h3.1, h3.2⟩]; exact Nat.le_refl _
      · rw [if_neg h3]; exact Nat.zero_le _
  unfold weight at this ⊢
  omega

/-- If every vertex but `f` has an edge that costs at most `w`, the cover costs at most the sum of these and its most expensive edge. -/
theorem cover_le {n f : Nat} {w : Nat → Nat} (es : List Edge) : ∀ (vs t m : Nat), es.Pairwise (fun a b => a.1 ≤ b.1) → Bits.Sub n vs →
    (∀ x, vs.testBit x = true → x ≠ f → ∃ e ∈ es, e.touches x ∧ e.1 ≤ w x) →
    (cover vs es t m).1 ≤ t + weight n f w vs + (if vs.testBit f = true then (cover vs es t m).2 else 0) := by
  induction es with
  | nil => intro vs t m _ _ _; show t ≤ _; omega
  | cons e es ih =>
    intro vs t m hs hsub he
    rw [List.pairwise_cons] at hs
    unfold cover
    split
    · show t ≤ _; omega
    · split
      · rename_i hvs ht
        generalize hv : Bits.clear (Bits.clear vs e.2.1) e.2.2 = vs'
        have hbit : ∀ x, vs'.testBit x = true ↔ vs.testBit x = true ∧ ¬ e.touches x := by
          intro x
          rw [← hv, Bits.testBit_clear, Bits.testBit_clear]
          simp only [Bool.and_eq_true, decide_eq_true_eq, Edge.touches, not_or, and_assoc]
        have hsub' : ∀ x, vs'.testBit x = true → vs.testBit x = true := fun x hx => ((hbit x).1 hx).1
        have hih := ih vs' (t + e.1) (max m e.1) hs.2 (fun x hx => hsub x (hsub' x hx)) (by
          intro x hx hf
          obtain ⟨e', h1, h2, h3⟩ := he x (hsub' x hx) hf
          rcases List.mem_cons.1 h1 with rfl | h1
          · exact absurd h2 ((hbit x).1 hx).2
          · exact ⟨e', h1, h2, h3⟩)
        have hmax := cover_max es vs' (t + e.1) (max m e.1)
        by_cases hx : ∃ x, vs.testBit x = true ∧ e.touches x ∧ x ≠ f
        · obtain ⟨x, h1, h2, h3⟩ := hx
          have h4 : vs'.testBit x = false := by
            rw [← Bool.not_eq_true]
            intro h; exact ((hbit x).1 h).2 h2
          have h5 := weight_remove (w := w) hsub' (hsub x h1) h1 h4 h3
          have h6 : e.1 ≤ w x := by
            obtain ⟨e', g1, g2, g3⟩ := he x h1 h3
            rcases List.mem_cons.1 g1 with rfl | g1
            · exact g3
            · exact Nat.le_trans (hs.1 e' g1) g3
          by_cases hf : vs'.testBit f = true
          · rw [if_pos hf] at hih
            rw [if_pos (hsub' f hf)]
            omega
          · rw [if_neg hf] at hih
            omega
        · have hfe : vs.testBit f = true ∧ e.touches f := by
            simp only [Bits.has, Bool.or_eq_true] at ht
            rcases ht with ht | ht
            · by_cases h : e.2.1 = f
              · exact ⟨h ▸ ht, Or.inl h⟩
              · exact absurd ⟨e.2.1, ht, Or.inl rfl, h⟩ hx
            · by_cases h : e.2.2 = f
              · exact ⟨h ▸ ht, Or.inr h⟩
              · exact absurd ⟨e.2.2, ht, Or.inr rfl, h⟩ hx
          have h4 : ¬ vs'.testBit f = true := fun h => ((hbit f).1 h).2 hfe.2
          rw [if_neg h4] at hih
          rw [if_pos hfe.1]
          have := weight_mono (n := n) (f := f) (w := w) hsub'
          omega
      · rename_i hvs ht
        refine ih vs t m hs.2 hsub ?_
        intro x hx hf
        obtain ⟨e', h1, h2, h3⟩ := he x hx hf
        rcases List.mem_cons.1 h1 with rfl | h1
        · exfalso
          simp only [Bits.has, Bool.or_eq_true, not_or] at ht
          rcases h2 with h2 | h2
          · exact ht.1 (h2 ▸ hx)
          · exact ht.2 (h2 ▸ hx)
        · exact ⟨e', h1, h2, h3⟩

/-- Every item of a sequence but the last changes over to another item at its last occurrence. -/
theorem chain_weights (n : Nat) : ∀ (l : List Nat) (hne : l ≠ []), (∀ x ∈ l, x < n) →
    ∃ w : Nat → Nat, total n (fun x => if x ≠ l.getLast hne then w x else 0) ≤ chain I l ∧ (∀ x ∈ l, x ≠ l.getLast hne → ∃ b ∈ l, b ≠ x ∧ I.changeover x b ≤ w x)
  | [], hne, _ => absurd rfl hne
  | [a], _, _ => by
    refine ⟨fun _ => 0, ?_, ?_⟩
    · have h0 : ∀ m, total m (fun _ => 0) = 0 := fun m => by
        induction m with
        | zero => rfl
        | succ m ih => rw [total_succ, ih]
      refine Nat.le_trans (Nat.le_of_eq (total_congr (h := fun _ => 0) fun x _ => ?_)) (Nat.le_trans (Nat.le_of_eq (h0 n)) (Nat.zero_le _))
      split <;> rfl
    · intro x hx hl
      simp at hx hl
      exact absurd hx hl
  | a :: b :: l, hne, hlt => by
    obtain ⟨w, h1, h2⟩ := chain_weights n (b :: l) (by simp) fun x hx => hlt x (by simp only [List.mem_cons] at hx ⊢; exact Or.inr hx)
    have hlast : (a :: b :: l).getLast hne = (b :: l).getLast (by simp) := by simp
    rw [hlast]
    have hmem : (b :: l).getLast (by simp) ∈ b :: l := List.getLast_mem _
    generalize (b :: l).getLast (by simp) = z at h1 h2 hmem ⊢
    simp only [chain] at h1 ⊢
    by_cases ha : a ∈ b :: l
    · refine ⟨w, by omega, ?_⟩
      intro x hx hl
      have hx' : x ∈ b :: l := by
        rcases List.mem_cons.1 hx with rfl | hx
        · exact ha
        · exact hx
      obtain ⟨c, g1, g2⟩ := h2 x hx' hl
      exact ⟨c, List.mem_cons_of_mem _ g1, g2⟩
    · refine ⟨fun x => if x = a then I.changeover a b else w x, ?_, ?_⟩
      · have halt : a < n := hlt a (by simp)
        have hane : a ≠ z := fun h => ha (h ▸ hmem)
        have e := total_update halt (g := fun x => if x ≠ z then (if x = a then I.changeover a b else w x) else 0)
          (h := fun x => if x ≠ z then w x else 0) (by intro j _ hj; simp [hj])
        simp only [if_true, if_pos hane] at e
        show total n (fun x => if x ≠ z then (if x = a then I.changeover a b else w x) else 0) ≤ _
        omega
      · intro x hx hl
        rcases List.mem_cons.1 hx with rfl | hx
        · refine ⟨b, by simp, ?_, by simp⟩
          intro h; exact ha (h ▸ List.mem_cons_self)
        · obtain ⟨c, g1, g2, g3⟩ := h2 x hx hl
          refine ⟨c, List.mem_cons_of_mem _ g1, g2, ?_⟩
          have : x ≠ a := fun h => ha (h ▸ hx)
          simp only [if_neg this]; exact g3

theorem mem_edges {n vs : Nat} {i j : Nat} (hi : i ∈ Bits.iter n vs) (hj : j ∈ Bits.iter n vs) (hij : i ≠ j) :
    (min (I.changeover i j) (I.changeover j i), i, j) ∈ edges I n vs := by
  unfold edges
  rw [List.mem_flatMap]
  refine ⟨i, hi, ?_⟩
  rw [List.mem_map]
  exact ⟨j, List.mem_filter.2 ⟨hj, by simpa using hij⟩, rfl⟩

/-- What an entry of the table is: the result for a sorted list that contains at least the edges of the set. -/
def Entry (I : Inst) (vs c : Nat) : Prop :=
  ∃ es : List Edge, es.Pairwise (fun a b => a.1 ≤ b.1) ∧ (∀ e ∈ edges I I.items vs, e ∈ es) ∧ c = (cover vs es 0 0).1 - (cover vs es 0 0).2

theorem mst_entry (hσ : ∀ l, (σ l).Perm l) (vs : Nat) (heap : List Edge) : Entry I vs (mst I σ vs heap).1 := by
  refine ⟨sortEdges σ (heap ++ edges I I.items vs), ?_, ?_, rfl⟩
  · have := Dd.sortBy_sorted (fun a b : Edge => decide (a.1 ≤ b.1)) (by intro a b h; simp at h ⊢; omega) (by intro a b c h1 h2; simp at h1 h2 ⊢; omega)
      (σ (heap ++ edges I I.items vs))
    unfold sortEdges
    simpa using this
  · intro e he
    exact (Dd.sortBy_perm _ _).mem_iff.2 ((hσ _).mem_iff.2 (by simp [he]))

theorem allMst_entry (hσ : ∀ l, (σ l).Perm l) {vs : Nat} (h : vs < 2 ^ I.items) : Entry I vs ((allMst I σ).getD vs 0) := by
  have key : ∀ n, (((List.range n).foldl (fun a vs => let r := mst I σ vs a.2; (a.1 ++ [r.1], r.2)) (([] : List Nat), ([] : List Edge))).1).length = n ∧
      ∀ vs, vs < n → Entry I vs ((((List.range n).foldl (fun a vs => let r := mst I σ vs a.2; (a.1 ++ [r.1], r.2)) (([] : List Nat), ([] : List Edge))).1).getD vs 0) := by
    intro n
    induction n with
    | zero => exact ⟨rfl, fun vs h => absurd h (Nat.not_lt_zero _)⟩
    | succ n ih =>
      rw [List.range_succ, List.foldl_append]
      simp only [List.foldl_cons, List.foldl_nil]
      obtain ⟨h1, h2⟩ := ih
      refine ⟨by rw [List.length_append, h1]; rfl, ?_⟩
      intro vs hvs
      rcases Nat.lt_or_ge vs n with h | h
      · rw [List.getD_eq_getElem?_getD, List.getElem?_append_left (by rw [h1]; exact h), ← List.getD_eq_getElem?_getD]
        exact h2 vs h
      · have : vs = n := by omega
        subst this
        rw [List.getD_eq_getElem?_getD, List.getElem?_append_right (by rw [h1]; exact h), h1]
        simp only [Nat.sub_self, List.getElem?_cons_zero, Option.getD_some]
        exact mst_entry hσ _ _
  exact (key _).2 vs h

/-- An entry of the table costs no more than any sequence of exactly the items of the set. -/
theorem entry_le {vs c : Nat} (h : Entry I vs c) {l : List Nat} (hl : ∀ x, x ∈ l ↔ vs.testBit x = true) (hlt : ∀ x ∈ l, x < I.items) : c ≤ chain I l := by
  obtain ⟨es, hs, he, rfl⟩ := h
  by_cases hne : l = []
  · subst hne
    have h0 : vs = 0 := by
      refine Nat.eq_of_testBit_eq fun x => ?_
      rw [Nat.zero_testBit, ← Bool.not_eq_true]
      intro h; exact absurd ((hl x).2 h) (by simp)
    subst h0
    have : cover 0 es 0 0 = (0, 0) := by
      cases es with
      | nil => rfl
      | cons e es => unfold cover; simp
    rw [this]; exact Nat.zero_le _
  · obtain ⟨w, h1, h2⟩ := chain_weights (I := I) I.items l hne hlt
    have hsub : Bits.Sub I.items vs := fun x hx => hlt x ((hl x).2 hx)
    have hcov := cover_le (n := I.items) (f := l.getLast hne) (w := w) es vs 0 0 hs hsub (by
      intro x hx hf
      obtain ⟨b, g1, g2, g3⟩ := h2 x ((hl x).2 hx) hf
      refine ⟨_, he _ (mem_edges (i := x) (j := b) (Bits.mem_iter.2 ⟨hsub x hx, hx⟩) (Bits.mem_iter.2 ⟨hlt b g1, (hl b).1 g1⟩) (fun h => g2 h.symm)), Or.inl rfl, ?_⟩
      exact Nat.le_trans (Nat.min_le_left _ _) g3)
    have hf : vs.testBit (l.getLast hne) = true := (hl _).1 (List.getLast_mem _)
    rw [if_pos hf] at hcov
    have hw : weight I.items (l.getLast hne) w vs ≤ total I.items (fun x => if x ≠ l.getLast hne then w x else 0) := by
      refine total_mono fun x _ => ?_
      by_cases h : vs.testBit x = true ∧ x ≠ l.getLast hne
      · rw [if_pos h, if_pos h.2]; exact Nat.le_refl _
      · rw [if_neg h]; exact Nat.zero_le _
    omega

/-! ### The set of items -/

theorem testBit_vertices (k : Int) (u : List Int) (x : Nat) :
    (vertices k u).testBit x = true ↔ (k ≠ -1 ∧ k.toNat = x) ∨ (x < u.length ∧ 0 ≤ u.getD x (-1)) := by
  have key : ∀ (n : Nat) (a : Nat), ((List.range n).foldl (fun vs i => if 0 ≤ u.getD i (-1) then Bits.add vs i else vs) a).testBit x = true ↔
      a.testBit x = true ∨ (x < n ∧ 0 ≤ u.getD x (-1)) := by
    intro n a
    induction n with
    | zero => simp
    | succ n ih =>
      rw [List.range_succ, List.foldl_append]
      simp only [List.foldl_cons, List.foldl_nil]
      by_cases h : 0 ≤ u.getD n (-1)
      · rw [if_pos h, Bits.testBit_add, Bool.or_eq_true, ih, decide_eq_true_eq]
        constructor
        · rintro ((h1 | ⟨h1, h2⟩) | rfl)
          · exact Or.inl h1
          · exact Or.inr ⟨by omega, h2⟩
          · exact Or.inr ⟨by omega, h⟩
        · rintro (h1 | ⟨h1, h2⟩)
          · exact Or.inl (Or.inl h1)
          · by_cases e : n = x
            · exact Or.inr e
            · exact Or.inl (Or.inr ⟨by omega, h2⟩)
      · rw [if_neg h, ih]
        constructor
        · rintro (h1 | ⟨h1, h2⟩)
          · exact Or.inl h1
          · exact Or.inr ⟨by omega, h2⟩
        · rintro (h1 | ⟨h1, h2⟩)
          · exact Or.inl h1
          · by_cases e : n = x
            · subst e; exact absurd h2 h
            · exact Or.inr ⟨by omega, h2⟩
  unfold vertices
  rw [key]
  by_cases h : k = -1
  · simp [h]
  · rw [if_neg h, Bits.testBit_add]
    simp [h]

theorem mem_filterMap_made {f : Plan} {p i : Nat} : i ∈ (List.range p).filterMap f ↔ 0 < made f i p := by
  unfold made
  rw [List.countP_pos_iff, List.mem_filterMap]
  simp

theorem left_pos {i : Nat} {n : Nat} {u : Int} (h : Deadline n (I.demand i) u) : 0 < left I i u ↔ 0 ≤ u := by
  constructor
  · intro h1
    rcases h with rfl | ⟨t, rfl, _⟩
    · rw [left_neg] at h1; omega
    · omega
  · intro h1; rw [left_before h h1]; omega

/-- The items that remain to be made, and the one that follows, are the vertices. -/
theorem mem_sequence {s : State} (h : Ok I s) {f : Plan} (hF : From I s f) (x : Nat) : x ∈ sequence s f ↔ (vertices s.k s.u).testBit x = true := by
  rw [testBit_vertices]
  unfold sequence
  rw [List.mem_append, mem_filterMap_made, h.len]
  constructor
  · rintro (h1 | h1)
    · have hi : x < I.items := by
        have h2 := mem_filterMap_made.2 h1
        obtain ⟨t, h3, h4⟩ := List.mem_filterMap.1 h2
        exact hF.item t (List.mem_range.1 h3) x h4
      rw [hF.total x hi, left_pos (h.deadline x hi)] at h1
      exact Or.inr ⟨hi, h1⟩
    · split at h1
      · cases h1
      · rename_i hk; simp only [List.mem_singleton] at h1; exact Or.inl ⟨hk, h1.symm⟩
  · rintro (⟨h1, h2⟩ | ⟨h1, h2⟩)
    · right; rw [if_neg h1]; simp [h2]
    · left
      rw [hF.total x h1, left_pos (h.deadline x h1)]
      exact h2

theorem vertices_lt {s : State} (h : Ok I s) : vertices s.k s.u < 2 ^ I.items := by
  refine Nat.lt_pow_two_of_testBit _ fun x hx => ?_
  rw [← Bool.not_eq_true, testBit_vertices]
  rintro (⟨h1, h2⟩ | ⟨h1, _⟩)
  · rcases h.k with h3 | ⟨j, hj, h3⟩
    · exact h1 h3
    · rw [h3] at h2; simp at h2; omega
  · rw [h.len] at h1; omega

theorem mst_le (hσ : ∀ l, (σ l).Perm l) {s : State} (h : Ok I s) {f : Plan} (hF : From I s f) : (allMst I σ).getD (vertices s.k s.u) 0 ≤ chain I (sequence s f) := by
  refine entry_le (allMst_entry hσ (vertices_lt h)) (mem_sequence h hF) ?_
  intro x hx
  rcases (testBit_vertices _ _ _).1 ((mem_sequence h hF x).1 hx) with ⟨h1, h2⟩ | ⟨h1, _⟩
  · rcases h.k with h3 | ⟨j, hj, h3⟩
    · exact absurd h3 h1
    · rw [h3] at h2; simp at h2; omega
  · rw [h.len] at h1; exact h1

end Verif.Psp
