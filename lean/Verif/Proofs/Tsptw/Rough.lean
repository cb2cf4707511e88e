import Mathlib.Data.List.Perm.Basic
import Verif.Proofs.Tsptw.Merge
import Verif.Proofs.Mdd.Basic
/-! The rough bound on states that come from merging. -/
set_option autoImplicit false

namespace Verif.Tsptw
open Verif Spec
variable {I : Inst}

/-! ### Sums of the smallest numbers -/

theorem sortAsc_perm (l : List Nat) : (sortAsc l).Perm l := Dd.sortBy_perm _ _

theorem sortAsc_sorted (l : List Nat) : (sortAsc l).Pairwise (· ≤ ·) := by
  have := Dd.sortBy_sorted (fun a b : Nat => decide (a ≤ b)) (by intro a b h; simp at h ⊢; omega) (by intro a b c h1 h2; simp at h1 h2 ⊢; omega) l
  exact this.imp fun h => by simpa using h

theorem take_le_sublist {X L : List Nat} (hx : X.Sublist L) (h : L.Pairwise (· ≤ ·)) : (L.take X.length).sum ≤ X.sum := by
  induction hx with
  | slnil => simp
  | @cons X L a hx ih =>
    rw [List.pairwise_cons] at h
    have h1 := ih h.2
    cases X with
    | nil => simp
    | cons x X =>
      have hn : X.length < L.length := hx.length_le
      have h2 : a + (L.take X.length).sum ≤ (L.take (X.length + 1)).sum := by
        rw [List.take_add_one, List.sum_append, List.getElem?_eq_getElem hn]
        have := h.1 _ (List.getElem_mem hn)
        simp
        omega
      simp only [List.length_cons] at h1 ⊢
      rw [List.take_succ_cons, List.sum_cons]
      omega
  | @cons_cons X L a hx ih =>
    rw [List.pairwise_cons] at h
    have h1 := ih h.2
    simp only [List.length_cons, List.take_succ_cons, List.sum_cons]
    omega

theorem smallest_le {f : Nat → Nat} {E l : List Nat} (h : E.Subperm l) : ((sortAsc (l.map f)).take E.length).sum ≤ (E.map f).sum := by
  obtain ⟨k, h1, h2⟩ := h
  obtain ⟨X, h3, h4⟩ : ((k.map f).Subperm (sortAsc (l.map f))) := (h2.map f).subperm.trans (sortAsc_perm _).symm.subperm
  have := take_le_sublist h4 (sortAsc_sorted _)
  rw [h3.sum_nat, h3.length_eq, List.length_map, h1.length_eq, (h1.map f).sum_nat] at this
  exact this

/-! ### The bound for a given number of cities -/

variable (I) in
/-- `estimate`, when `ct` of the cities that may be visited are. -/
def rough (ct : Nat) (s : State) : Int :=
  let musts := Bits.iter I.n s.must
  let late (i : Nat) : Bool := decide (I.latest i < (s.elapsed.add (cheapest I i)).earliest)
  if musts.any late then isizeMin else
  let mandatory := (musts.map (cheapest I)).sum
  let back := musts.foldl (fun b i => min b (I.dist i 0)) usizeMax
  let r : Option (Nat × Nat) :=
    match s.maybe with
    | none => some (mandatory, back)
    | some m =>
      let maybes := Bits.iter I.n m
      let temp := maybes.map (cheapest I)
      let back := maybes.foldl (fun b i => min b (I.dist i 0)) back
      let violations := (maybes.filter late).length
      if temp.length - violations < ct then none
      else some (mandatory + ((sortAsc temp).take ct).sum, back)
  match r with
  | none => isizeMin
  | some (mandatory, back) =>
    let back := if mandatory = 0 then min back (minDist I s 0) else back
    let total := mandatory + back
    if I.latest 0 < (s.elapsed.add total).earliest then isizeMin else -(total : Int)

theorem estimate_rough (s : State) : estimate I s = rough I (completeTour I s) s := rfl

variable (I) in
/-- The last part of the bound. -/
def finish (s : State) (a b : Nat) : Int :=
  let back := if a = 0 then min b (minDist I s 0) else b
  if I.latest 0 < s.elapsed.earliest + (a + back) then isizeMin else -((a + back : Nat) : Int)

theorem rough_eq (ct : Nat) (s : State) : rough I ct s =
    if (Bits.iter I.n s.must).any (fun i => decide (I.latest i < s.elapsed.earliest + cheapest I i)) then isizeMin else
    match s.maybe with
    | none => finish I s ((Bits.iter I.n s.must).map (cheapest I)).sum ((Bits.iter I.n s.must).foldl (fun b i => min b (I.dist i 0)) usizeMax)
    | some m =>
      if (Bits.iter I.n m).length - ((Bits.iter I.n m).filter fun i => decide (I.latest i < s.elapsed.earliest + cheapest I i)).length < ct then isizeMin
      else finish I s (((Bits.iter I.n s.must).map (cheapest I)).sum + ((sortAsc ((Bits.iter I.n m).map (cheapest I))).take ct).sum)
        ((Bits.iter I.n m).foldl (fun b i => min b (I.dist i 0)) ((Bits.iter I.n s.must).foldl (fun b i => min b (I.dist i 0)) usizeMax)) := by
  unfold rough finish
  simp only [add_earliest, List.length_map]
  split
  · rfl
  · cases s.maybe with
    | none => rfl
    | some m =>
      simp only
      by_cases h : (Bits.iter I.n m).length - ((Bits.iter I.n m).filter fun i => decide (I.latest i < s.elapsed.earliest + cheapest I i)).length < ct
      · rw [if_pos h, if_pos h]
      · rw [if_neg h, if_neg h]

theorem finish_bound {s : State} {a b : Nat} (h : finish I s a b ≠ isizeMin) : -((a + b : Nat) : Int) ≤ finish I s a b := by
  unfold finish at h ⊢
  simp only at h ⊢
  rw [if_neg (fun hh => h (if_pos hh))]
  split <;> omega

/-! ### A tour that goes through the state -/

/-- The way home from a state below `M`: the cities `X` that must be visited and the cities `E` that may be. -/
structure Way (M : State) (t i T : Nat) (l X E : List Nat) (k : Nat) : Prop where
  perm : l.Perm (X ++ E)
  must : X.Perm (Bits.iter I.n M.must)
  maybe : ∀ m, M.maybe = some m → E.Subperm (Bits.iter I.n m)
  nothing : M.maybe = none → E = []
  count : M.depth + 1 + X.length + E.length = I.n
  early : M.elapsed.earliest ≤ t
  dist : minDist I M 0 ≤ I.dist i 0
  last : k ∈ i :: l
  last' : l ≠ [] → k ∈ l
  home : t + ((l.map (cheapest I)).sum + I.dist k 0) ≤ I.latest 0
  dur : t + ((l.map (cheapest I)).sum + I.dist k 0) ≤ T
  time : ∀ j ∈ l, t + cheapest I j ≤ I.latest j

theorem Above.way {M s : State} {i t : Nat} (ha : Above (I := I) M s) (h : Exact I s i t) (hd : s.depth < I.n) {l : List Nat} {T : Nat} (hp : l.Perm (Bits.iter I.n s.must))
    (hdr : Drive I t i (l ++ [0]) T) : ∃ X E k, Way (I := I) M t i T l X E k := by
  have hnl : l.Nodup := (hp.nodup_iff).2 (Bits.nodup_iter _ _)
  have hnd : (i :: l).Nodup := by
    refine List.nodup_cons.2 ⟨?_, hnl⟩
    intro hi
    have := (Bits.mem_iter.1 (hp.mem_iff.1 hi)).2
    rw [h.ni] at this; cases this
  obtain ⟨k, h1, h2, h3, h4, h5⟩ := Drive.least l hdr h.lt hnd (fun k hk => (Bits.mem_iter.1 (hp.mem_iff.1 hk)).1)
  have hE : ∀ j ∈ l.filter (fun j => !M.must.testBit j), j < I.n ∧ (M.maybe.getD 0).testBit j = true := by
    intro j hj
    rw [List.mem_filter] at hj
    obtain ⟨g1, g2⟩ := Bits.mem_iter.1 (hp.mem_iff.1 hj.1)
    have g3 := ha.may j (by unfold State.may; rw [g2]; rfl)
    unfold State.may at g3
    have g4 : M.must.testBit j = false := by simpa using hj.2
    rw [g4, Bool.false_or] at g3
    exact ⟨g1, g3⟩
  have hperm : l.Perm (l.filter (fun j => M.must.testBit j) ++ l.filter (fun j => !M.must.testBit j)) := (List.filter_append_perm _ _).symm
  refine ⟨l.filter (fun j => M.must.testBit j), l.filter (fun j => !M.must.testBit j), k, hperm, ?_, ?_, ?_, ?_, ?_, ?_, h1, h2, h3, h4, h5⟩
  · rw [List.perm_ext_iff_of_nodup (hnl.filter _) (Bits.nodup_iter _ _)]
    intro j
    rw [List.mem_filter, Bits.mem_iter]
    constructor
    · intro ⟨g1, g2⟩
      exact ⟨(Bits.mem_iter.1 (hp.mem_iff.1 g1)).1, g2⟩
    · intro ⟨g1, g2⟩
      exact ⟨hp.mem_iff.2 (Bits.mem_iter.2 ⟨g1, ha.must j g2⟩), g2⟩
  · intro m hm
    refine List.subperm_of_subset (hnl.filter _) fun j hj => ?_
    have := hE j hj
    rw [hm] at this
    exact Bits.mem_iter.2 this
  · intro hm
    refine List.eq_nil_iff_forall_not_mem.2 fun j hj => ?_
    have := (hE j hj).2
    rw [hm] at this
    simp at this
  · have e1 := hperm.length_eq
    rw [List.length_append] at e1
    have e2 := hp.length_eq
    have e3 := h.cnt
    unfold Bits.count at e3
    have e4 := ha.depth
    omega
  · have := ha.early
    rw [h.ela] at this
    exact this
  · have := ha.dist 0
    rw [h.minDist] at this
    exact this

section
variable {M : State} {t i T : Nat} {l X E : List Nat} {k : Nat} (w : Way (I := I) M t i T l X E k)
include w

theorem Way.sum : (l.map (cheapest I)).sum = ((Bits.iter I.n M.must).map (cheapest I)).sum + (E.map (cheapest I)).sum := by
  rw [perm_sum_map w.perm, List.map_append, List.sum_append, perm_sum_map w.must]

theorem Way.not_late : (Bits.iter I.n M.must).any (fun i => decide (I.latest i < M.elapsed.earliest + cheapest I i)) = false := by
  simp only [List.any_eq_false, decide_eq_true_eq]
  intro j hj
  have := w.time j (w.perm.mem_iff.2 (List.mem_append_left _ (w.must.mem_iff.2 hj)))
  have := w.early
  omega

theorem Way.enough {m : Nat} (hm : M.maybe = some m) :
    E.length ≤ (Bits.iter I.n m).length - ((Bits.iter I.n m).filter fun i => decide (I.latest i < M.elapsed.earliest + cheapest I i)).length := by
  obtain ⟨k, h1, h2⟩ := w.maybe m hm
  have h3 := (h2.filter fun i => !decide (I.latest i < M.elapsed.earliest + cheapest I i)).length_le
  have h4 : k.filter (fun i => !decide (I.latest i < M.elapsed.earliest + cheapest I i)) = k := by
    refine List.filter_eq_self.2 fun j hj => ?_
    have := w.time j (w.perm.mem_iff.2 (List.mem_append_right _ (h1.mem_iff.1 hj)))
    have := w.early
    simp
    omega
  rw [h4, h1.length_eq] at h3
  have h5 := (List.filter_append_perm (fun i => decide (I.latest i < M.elapsed.earliest + cheapest I i)) (Bits.iter I.n m)).length_eq
  rw [List.length_append] at h5
  omega

theorem Way.back_none (hl : l ≠ []) (hm : M.maybe = none) : (Bits.iter I.n M.must).foldl (fun b i => min b (I.dist i 0)) usizeMax ≤ I.dist k 0 := by
  refine back_le ?_
  have := w.perm.mem_iff.1 (w.last' hl)
  rw [w.nothing hm, List.append_nil] at this
  exact w.must.mem_iff.1 this

theorem Way.back_some (hl : l ≠ []) {m : Nat} (hm : M.maybe = some m) :
    (Bits.iter I.n m).foldl (fun b i => min b (I.dist i 0)) ((Bits.iter I.n M.must).foldl (fun b i => min b (I.dist i 0)) usizeMax) ≤ I.dist k 0 := by
  rcases List.mem_append.1 (w.perm.mem_iff.1 (w.last' hl)) with h | h
  · exact Nat.le_trans (foldl_min_le (fun b i => min b (I.dist i 0)) (fun _ _ => Nat.min_le_left _ _) _ _) (back_le (w.must.mem_iff.1 h))
  · exact back_le ((w.maybe m hm).subset h)

/-- If the parts of the bound are right, so is the bound. -/
theorem Way.finish {a b : Nat} (h1 : a ≤ (l.map (cheapest I)).sum) (h2 : l ≠ [] → b ≤ I.dist k 0) : (t : Int) - T ≤ finish I M a b := by
  have h3 : (if a = 0 then min b (minDist I M 0) else b) ≤ I.dist k 0 := by
    by_cases hl : l = []
    · subst hl
      have := w.last
      simp at this; subst this
      simp at h1
      rw [if_pos h1]
      exact Nat.le_trans (Nat.min_le_right _ _) w.dist
    · split
      · exact Nat.le_trans (Nat.min_le_left _ _) (h2 hl)
      · exact h2 hl
  unfold Tsptw.finish
  simp only
  generalize (if a = 0 then min b (minDist I M 0) else b) = c at *
  have := w.early
  have := w.home
  have := w.dur
  rw [if_neg (by omega)]
  omega

/-- The bound never underestimates if it counts the cities that remain. -/
theorem Way.rough : (t : Int) - T ≤ rough I (I.n - M.depth - 1 - Bits.count I.n M.must) M := by
  have hc : I.n - M.depth - 1 - Bits.count I.n M.must = E.length := by
    have := w.count
    have := w.must.length_eq
    unfold Bits.count
    omega
  rw [rough_eq, w.not_late, if_neg (by simp), hc]
  cases hm : M.maybe with
  | none =>
    have := w.sum
    exact w.finish (by omega) fun hl => w.back_none hl hm
  | some m =>
    simp only
    have := w.enough hm
    rw [if_neg (by omega)]
    have := w.sum
    have := smallest_le (f := cheapest I) (w.maybe m hm)
    exact w.finish (by omega) fun hl => w.back_some hl hm

/-- The estimate counts one city too many. -/
theorem Way.estimate (hl : l ≠ []) (he : estimate I M ≠ isizeMin) : (t : Int) - T ≤ estimate I M ∨
    ∃ m j, M.maybe = some m ∧ j ∈ Bits.iter I.n m ∧ (t : Int) - T ≤ estimate I M + cheapest I j := by
  have hc : completeTour I M = E.length + 1 := by
    have := w.count
    have := w.must.length_eq
    unfold completeTour underflows Bits.count
    rw [if_neg (by rw [decide_eq_true_eq]; omega)]
    omega
  rw [estimate_rough, rough_eq, w.not_late, if_neg (by simp), hc] at he ⊢
  cases hm : M.maybe with
  | none =>
    have := w.sum
    exact Or.inl (w.finish (by omega) fun hl => w.back_none hl hm)
  | some m =>
    right
    simp only [hm] at he ⊢
    have hlt : E.length < (sortAsc ((Bits.iter I.n m).map (cheapest I))).length := by
      rw [(sortAsc_perm _).length_eq, List.length_map]
      by_cases hh : (Bits.iter I.n m).length - ((Bits.iter I.n m).filter fun i => decide (I.latest i < M.elapsed.earliest + cheapest I i)).length < E.length + 1
      · rw [if_pos hh] at he; exact absurd rfl he
      · omega
    by_cases hh : (Bits.iter I.n m).length - ((Bits.iter I.n m).filter fun i => decide (I.latest i < M.elapsed.earliest + cheapest I i)).length < E.length + 1
    · rw [if_pos hh] at he; exact absurd rfl he
    rw [if_neg hh] at he ⊢
    obtain ⟨j, hj, hj'⟩ := List.mem_map.1 ((sortAsc_perm _).mem_iff.1 (List.getElem_mem hlt))
    refine ⟨m, j, rfl, hj, ?_⟩
    have hs := smallest_le (f := cheapest I) (w.maybe m hm)
    have h1 := w.sum
    have h2 := w.back_some hl hm
    have h3 := w.dur
    have h4 := finish_bound he
    have h5 : ((sortAsc ((Bits.iter I.n m).map (cheapest I))).take (E.length + 1)).sum = ((sortAsc ((Bits.iter I.n m).map (cheapest I))).take E.length).sum + cheapest I j := by
      rw [List.take_add_one, List.sum_append, List.getElem?_eq_getElem hlt, ← hj']
      simp
    omega

end
end Verif.Tsptw
