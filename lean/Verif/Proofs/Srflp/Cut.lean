import Verif.Proofs.Srflp.Trace
import Verif.Proofs.Srflp.Float
/-! The rough bound: flow into the departments that are left. -/
set_option autoImplicit false

namespace Verif.Srflp
open Verif Spec
variable {I : Inst} {F L : Nat}

/-- The part of the cost that comes from the flow there was at first -/
def cutPart (I : Inst) (c : Nat → Int) : List Step → Int
  | [] => 0
  | t :: ss => (t.after.map c).sum * I.len t.dep + cutPart I c ss

theorem map_add_sum {α : Type} (f g : α → Int) (l : List α) : (l.map fun i => f i + g i).sum = (l.map f).sum + (l.map g).sum := by
  induction l with
  | nil => rfl
  | cons a l ih => simp only [List.map_cons, List.sum_cons, ih]; omega

theorem walkCost_split (c g : Nat → Int) (ss : List Step) : walkCost I (fun i => c i + g i) ss = cutPart I c ss + walkCost I g ss := by
  induction ss generalizing g with
  | nil => rfl
  | cons t ss ih =>
    simp only [walkCost, cutPart, map_add_sum]
    have : (fun i => c i + g i + I.flow t.dep i) = fun i => c i + (g i + I.flow t.dep i) := by funext i; omega
    rw [this, ih]
    ring

/-- The steps as the rough bound sees them: length, and flow; for a department that need not be placed, the flow is the least possible. -/
def zlist (I : Inst) (c : Nat → Int) (mc : List Int) : List Step → List (Bool × Int × Int)
  | [] => []
  | t :: ss => (if t.must then (false, I.len t.dep, c t.dep) else (true, I.len t.dep, mc.getD (nMaybe ss) 0)) :: zlist I c mc ss

theorem nMaybe_must {t : Step} (ss : List Step) (h : t.must = true) : nMaybe (t :: ss) = nMaybe ss := by
  unfold nMaybe; rw [List.filter_cons_of_neg (by simp [h])]

theorem nMaybe_maybe {t : Step} (ss : List Step) (h : t.must = false) : nMaybe (t :: ss) = nMaybe ss + 1 := by
  unfold nMaybe; rw [List.filter_cons_of_pos (by simp [h])]; rfl

theorem zlist_sum (c : Nat → Int) (mc : List Int) (ss : List Step) : ((zlist I c mc ss).map fun a => a.2.2).sum =
    (((ss.filter fun t => t.must).map Step.dep).map c).sum + (mc.take (nMaybe ss)).sum := by
  induction ss with
  | nil => simp [zlist, nMaybe]
  | cons t ss ih =>
    simp only [zlist, List.map_cons, List.sum_cons, ih]
    cases h : t.must with
    | true =>
      rw [nMaybe_must ss h, List.filter_cons_of_pos (by simp [h])]
      simp
      omega
    | false =>
      rw [nMaybe_maybe ss h, List.filter_cons_of_neg (by simp [h]), take_succ_sum]
      simp
      omega

/-- Charging for the least possible flow -/
theorem cut_smith {M K : List Nat} {ss : List Step} (h : Trace M K ss) (c : Nat → Int) {K0 : List Nat} (hl : ∀ t ∈ ss, 0 ≤ I.len t.dep) :
    K.Subperm K0 → smith ((zlist I c (sortAsc (K0.map c)) ss).map fun a => a.2) ≤ cutPart I c ss := by
  induction h with
  | nil K => intro _; exact Int.le_refl _
  | @must M M' K d A1 A2 ss hM h1 h2 h3 h ih =>
    intro hK
    have g1 := ih (fun t ht => hl t (by simp [ht])) hK
    have g2 := hl _ (List.mem_cons_self)
    have g3 := smallest_le c (h2.trans hK)
    have g4 := perm_sum (h.musts.map c)
    simp only [zlist, if_true, List.map_cons, smith, cutPart, Step.after, List.map_map, List.map_append, List.sum_append] at g2 ⊢
    have e : ((zlist I c (sortAsc (K0.map c)) ss).map (Prod.snd ∘ fun a => a.2)).sum = ((zlist I c (sortAsc (K0.map c)) ss).map fun a => a.2.2).sum := rfl
    rw [e, zlist_sum, ← h3, g4, ← perm_sum (h1.map c)]
    have := Int.mul_le_mul_of_nonneg_left (Int.add_le_add_left g3 (A1.map c).sum) g2
    rw [Int.mul_comm ((A1.map c).sum + (A2.map c).sum)]
    omega
  | @maybe M K K' d A1 A2 ss hK' h1 h2 h3 h ih =>
    intro hK
    have hKK : K'.Subperm K0 := (List.Subperm.trans (List.sublist_cons_self d K').subperm hK'.symm.subperm).trans hK
    have g1 := ih (fun t ht => hl t (by simp [ht])) hKK
    have g2 := hl _ (List.mem_cons_self)
    have g3 := smallest_le c (h2.trans hKK)
    have g4 := perm_sum (h.musts.map c)
    simp only [zlist, Bool.false_eq_true, if_false, List.map_cons, smith, cutPart, Step.after, List.map_map, List.map_append, List.sum_append] at g2 ⊢
    have e : ((zlist I c (sortAsc (K0.map c)) ss).map (Prod.snd ∘ fun a => a.2)).sum = ((zlist I c (sortAsc (K0.map c)) ss).map fun a => a.2.2).sum := rfl
    rw [e, zlist_sum, ← h3, g4, ← perm_sum (h1.map c)]
    have := Int.mul_le_mul_of_nonneg_left (Int.add_le_add_left g3 (A1.map c).sum) g2
    rw [Int.mul_comm ((A1.map c).sum + (A2.map c).sum)]
    omega

theorem zlist_maybes (c : Nat → Int) (mc : List Int) (ss : List Step) :
    ((zlist I c mc ss).filter fun a => a.1).map (fun a => a.2.1) = ((ss.filter fun t => !t.must).map Step.dep).map I.len := by
  induction ss with
  | nil => rfl
  | cons t ss ih =>
    simp only [zlist]
    cases h : t.must with
    | true =>
      rw [List.filter_cons_of_neg (by simp), List.filter_cons_of_neg (by simp [h]), ih]
    | false =>
      rw [List.filter_cons_of_pos (by simp), List.filter_cons_of_pos (by simp [h])]
      simp only [List.map_cons, ih]
      rfl

theorem replaceLen_perm (c : Nat → Int) (mc : List Int) (ss : List Step) : ∀ ml : List Int, (replaceLen ml (zlist I c mc ss)).Perm
    (((ss.filter fun t => t.must).map Step.dep).map (fun d => (I.len d, c d)) ++ (List.range (nMaybe ss)).map fun i => (ml.getD i 0, mc.getD (nMaybe ss - 1 - i) 0)) := by
  induction ss with
  | nil => intro ml; simp [zlist, replaceLen, nMaybe]
  | cons t ss ih =>
    intro ml
    simp only [zlist]
    cases h : t.must with
    | true =>
      rw [nMaybe_must ss h, List.filter_cons_of_pos (by simp [h])]
      simp only [if_true, replaceLen, List.map_cons, List.cons_append]
      exact (ih ml).cons _
    | false =>
      rw [nMaybe_maybe ss h, List.filter_cons_of_neg (by simp [h]), List.range_succ_eq_map]
      simp only [Bool.false_eq_true, if_false, replaceLen, List.map_cons]
      rw [List.map_map (l := List.range (nMaybe ss))]
      refine ((ih (ml.drop 1)).cons _).trans ?_
      refine List.perm_middle.symm.trans ?_
      refine List.Perm.append_left _ ?_
      have e1 : nMaybe ss + 1 - 1 - 0 = nMaybe ss := by omega
      rw [e1]
      refine List.Perm.cons _ (List.Perm.of_eq ?_)
      refine List.map_congr_left fun i _ => ?_
      have e2 : nMaybe ss + 1 - 1 - Nat.succ i = nMaybe ss - 1 - i := by omega
      simp only [Function.comp, e2]
      congr 1
      cases ml <;> simp

theorem items_eq {s : State} (h : Ok I F s) : items I s = (Bits.iter I.n s.must).map (fun i => (I.len i, s.at i)) ++
    (List.range (nFromMaybe I s)).map fun i => ((lengths I s).2.getD i 0, (sortAsc ((Bits.iter I.n (mb s)).map s.at)).getD (nFromMaybe I s - 1 - i) 0) := by
  unfold items
  have hk := h.split.2
  unfold mb at *
  cases hm : s.maybe with
  | none =>
    rw [hm] at hk
    simp only [Option.getD_none] at hk
    have : Bits.count I.n 0 = 0 := by unfold Bits.count; rw [Bits.iter_zero]; rfl
    have e : nFromMaybe I s = 0 := by omega
    rw [e]
    simp
  | some m => rfl

/-- No flow into a department that is left is negative. -/
def Pos (s : State) : Prop := ∀ i, Free s i → 0 ≤ s.at i

theorem getD_mem {l : List Int} {i : Nat} (h : i < l.length) : l.getD i 0 ∈ l := by
  rw [List.getD_eq_getElem?_getD, List.getElem?_eq_getElem h]
  exact List.getElem_mem h

theorem Bounded.len_le (hB : Bounded I F L) {i : Nat} (hi : i < I.n) : I.len i ≤ L := (hB.len i hi).2

theorem items_bound (hB : Bounded I F L) (hl : Lengths I) {s : State} (h : Ok I F s) (hp : Pos s) :
    ∀ a ∈ items I s, 0 ≤ a.1 ∧ a.1 ≤ L ∧ 0 ≤ a.2 ∧ a.2 ≤ ((I.n * F : Nat) : Int) := by
  have hfree : ∀ i, Free s i → 0 ≤ s.at i ∧ s.at i ≤ ((I.n * F : Nat) : Int) := by
    intro i hi
    refine ⟨hp i hi, Int.le_trans (h.bound i hi).2 ?_⟩
    exact_mod_cast Nat.mul_le_mul_right F h.depth
  intro a ha
  rw [items_eq h] at ha
  rcases List.mem_append.1 ha with ha | ha
  · obtain ⟨i, hi, rfl⟩ := List.mem_map.1 ha
    obtain ⟨h1, h2⟩ := Bits.mem_iter.1 hi
    exact ⟨hl i h1, hB.len_le h1, hfree i (Or.inl h2)⟩
  · obtain ⟨j, hj, rfl⟩ := List.mem_map.1 ha
    rw [List.mem_range] at hj
    have hlen := (lengths_length h).2
    have h1 : (lengths I s).2.getD j 0 ∈ (Bits.iter I.n (mb s)).map I.len := by
      have h0 : (lengths I s).2.getD j 0 ∈ (lengths I s).2 := getD_mem (by omega)
      have h1 : ∀ x ∈ (lengths I s).2, x ∈ maybeLens I s := by
        rw [(lengths_spec h).1]; exact fun x hx => List.mem_of_mem_take hx
      exact (maybeLens_perm h).mem_iff.1 (h1 _ h0)
    have h2 : (sortAsc ((Bits.iter I.n (mb s)).map s.at)).getD (nFromMaybe I s - 1 - j) 0 ∈ (Bits.iter I.n (mb s)).map s.at := by
      refine (sortAsc_perm _).mem_iff.1 (getD_mem ?_)
      rw [(sortAsc_perm _).length_eq, List.length_map]
      have := h.split.2
      unfold Bits.count at this
      omega
    obtain ⟨i, hi, e1⟩ := List.mem_map.1 h1
    obtain ⟨i', hi', e2⟩ := List.mem_map.1 h2
    obtain ⟨g1, g2⟩ := Bits.mem_iter.1 hi
    obtain ⟨g3, g4⟩ := Bits.mem_iter.1 hi'
    rw [← e1, ← e2]
    exact ⟨hl i g1, hB.len_le g1, hfree i' (Or.inr g4)⟩

/-- The first part of the rough bound -/
theorem cut_bound (hB : Bounded I F L) (hl : Lengths I) (hprec : Precise I F L) {s : State} (h : Ok I F s) (hp : Pos s) {ss : List Step}
    (ht : Trace (Bits.iter I.n s.must) (Bits.iter I.n (mb s)) ss) (hk : nMaybe ss = nFromMaybe I s) :
    (cutLoop (Dd.sortBy ratioGe (items I s))).1 ≤ cutPart I s.at ss := by
  have hlen : ∀ t ∈ ss, 0 ≤ I.len t.dep := by
    intro t htm
    have := (ht.mem t htm).1
    split at this
    · exact hl _ (Bits.mem_iter.1 this).1
    · exact hl _ (Bits.mem_iter.1 this).1
  have g1 := cut_smith (I := I) ht s.at hlen (List.Subperm.refl _)
  have hb := items_bound hB hl h hp
  have hperm := replaceLen_perm (I := I) s.at (sortAsc ((Bits.iter I.n (mb s)).map s.at)) ss (lengths I s).2
  rw [hk] at hperm
  have hitems : (replaceLen (lengths I s).2 (zlist I s.at (sortAsc ((Bits.iter I.n (mb s)).map s.at)) ss)).Perm (items I s) := by
    rw [items_eq h]
    exact hperm.trans (List.Perm.append_right _ (ht.musts.map _))
  -- the cuts are not negative
  have hz : ∀ a ∈ zlist I s.at (sortAsc ((Bits.iter I.n (mb s)).map s.at)) ss, 0 ≤ a.2.2 := by
    intro a ha
    have h1 : a.2.2 ∈ (zlist I s.at (sortAsc ((Bits.iter I.n (mb s)).map s.at)) ss).map fun a => a.2.2 := List.mem_map.2 ⟨a, ha, rfl⟩
    rw [← replaceLen_snd _ (lengths I s).2] at h1
    obtain ⟨b, hb1, hb2⟩ := List.mem_map.1 h1
    rw [← hb2]
    exact (hb b (hitems.mem_iff.1 hb1)).2.2.1
  have g2 := replace_le (zlist I s.at (sortAsc ((Bits.iter I.n (mb s)).map s.at)) ss) (lengths I s).2 0 _ hz (Int.le_refl _) (by
    intro j hj
    rw [zlist_maybes, Int.zero_add, (lengths_spec h).1, List.take_take]
    have hj' : j ≤ nFromMaybe I s := by
      have := congrArg List.length (zlist_maybes (I := I) s.at (sortAsc ((Bits.iter I.n (mb s)).map s.at)) ss)
      simp only [List.length_map] at this
      rw [this] at hj
      rw [← hk]; exact hj
    rw [Nat.min_eq_left hj']
    have hsub : ((((ss.filter fun t => !t.must).map Step.dep).map I.len).take j).Subperm (maybeLens I s) :=
      (List.take_sublist _ _).subperm.trans ((subperm_map I.len ht.maybes).trans (maybeLens_perm h).symm.subperm)
    have hsorted : (maybeLens I s).Pairwise (· ≤ ·) := (sortedLengths_sorted I).sublist (List.filter_sublist.map _)
    have := take_le hsub hsorted
    rw [List.length_take, List.length_map, List.length_map] at this
    have e : (ss.filter fun t => !t.must).length = nMaybe ss := rfl
    rw [e, hk, Nat.min_eq_left hj'] at this
    exact this)
  rw [cutLoop_eq]
  have hsort : (Dd.sortBy ratioGe (items I s)).Pairwise fun a b => b.2 * a.1 ≤ a.2 * b.1 := by
    have h1 := Dd.sortBy_sorted ratioGe ratioGe_total ratioGe_trans (items I s)
    refine List.Pairwise.imp_of_mem ?_ h1
    intro a b ha hb' hab
    have ha := (Dd.sortBy_perm ratioGe (items I s)).mem_iff.1 ha
    have hb' := (Dd.sortBy_perm ratioGe (items I s)).mem_iff.1 hb'
    exact ratioGe_mul (C := I.n * F) (L := L) hprec (hb a ha) (hb b hb') hab
  have g3 := smith_le hsort (hitems.trans (Dd.sortBy_perm ratioGe (items I s)).symm)
  omega

end Verif.Srflp
