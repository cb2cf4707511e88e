import Verif.Spec.Srflp
import Verif.Spec.Problem
import Verif.Proofs.Bits
import Verif.Proofs.Mdd.Basic
import Verif.Proofs.Srflp.Lists
/-! The states of the layout problem. -/
set_option autoImplicit false

namespace Verif.Srflp
open Verif Spec
variable {I : Inst} {F L : Nat}

/-! ### Sorting numbers -/

theorem sortAsc_perm (l : List Int) : (sortAsc l).Perm l := Dd.sortBy_perm _ _

theorem sortAsc_sorted (l : List Int) : (sortAsc l).Pairwise (· ≤ ·) := by
  have := Dd.sortBy_sorted (fun a b : Int => decide (a ≤ b)) (by intro a b h; simp at h ⊢; omega) (by intro a b c h1 h2; simp at h1 h2 ⊢; omega) l
  exact this.imp fun h => by simpa using h

/-- The sum of the `k` smallest values is that of some `k` members. -/
theorem exists_smallest {α : Type} (f : α → Int) (l : List α) {k : Nat} (hk : k ≤ l.length) :
    ∃ T : List α, T.Subperm l ∧ T.length = k ∧ ((sortAsc (l.map f)).take k).sum = (T.map f).sum := by
  have h : ∃ m : List α, m.Perm l ∧ m.map f = sortAsc (l.map f) := by
    refine ⟨Dd.sortBy (fun a b => decide (f a ≤ f b)) l, Dd.sortBy_perm _ _, ?_⟩
    refine List.Perm.eq_of_pairwise (le := (· ≤ ·)) (fun a b _ _ h1 h2 => Int.le_antisymm h1 h2) ?_ (sortAsc_sorted _) ?_
    · have := Dd.sortBy_sorted (fun a b : α => decide (f a ≤ f b)) (by intro a b h; simp at h ⊢; omega) (by intro a b c h1 h2; simp at h1 h2 ⊢; omega) l
      exact List.Pairwise.map f (fun a b h => by simpa using h) this
    · exact ((Dd.sortBy_perm _ _).map f).trans (sortAsc_perm _).symm
  obtain ⟨m, h1, h2⟩ := h
  refine ⟨m.take k, (List.take_sublist _ _).subperm.trans h1.subperm, ?_, ?_⟩
  · rw [List.length_take, h1.length_eq]; omega
  · rw [← h2, List.map_take]

/-- The sum of the `k` smallest values is not larger than that of any `k` members. -/
theorem smallest_le {α : Type} (f : α → Int) {l T : List α} (h : T.Subperm l) : ((sortAsc (l.map f)).take T.length).sum ≤ (T.map f).sum := by
  have := take_le ((subperm_map f h).trans (sortAsc_perm _).symm.subperm) (sortAsc_sorted (l.map f))
  rwa [List.length_map] at this

/-! ### Departments that may be placed -/

/-- The departments that may be placed, as a set -/
def mb (s : State) : Nat := s.maybe.getD 0

theorem maybes_eq (s : State) : maybes I s = Bits.iter I.n (mb s) := by
  unfold maybes mb
  cases s.maybe <;> simp [Bits.iter_zero]

/-- Those that may still be chosen -/
def left (I : Inst) (s : State) (d : Nat) : List Int := ((Bits.iter I.n (mb s)).filter fun i => decide (i ≠ d)).map s.at

/-- Those that must be placed after `d` -/
def musts (I : Inst) (s : State) (d : Nat) : List Nat := (Bits.iter I.n s.must).filter fun i => decide (i ≠ d)

theorem cost_eq (s : State) (d : Decision) : cost I s d =
    -(((musts I s d.value.toNat).map s.at).sum +
      ((sortAsc (left I s d.value.toNat)).take (I.n - (s.depth + 1) - (musts I s d.value.toNat).length)).sum) * I.len d.value.toNat := by
  unfold cost left musts mb
  simp only
  cases s.maybe with
  | none =>
    simp only [Option.getD_none, Bits.iter_zero]
    have : sortAsc (List.map s.at (List.filter (fun i => decide (i ≠ d.value.toNat)) [])) = [] := rfl
    rw [this]
    simp
  | some m =>
    simp only [Option.getD_some]
    split
    · rfl
    · rename_i h
      have e : I.n - (s.depth + 1) - (List.filter (fun i => decide (i ≠ d.value.toNat)) (Bits.iter I.n s.must)).length = 0 := by omega
      rw [e]; simp

theorem trans_must (s : State) (d : Decision) : (trans I s d).must = Bits.clear s.must d.value.toNat := rfl

theorem trans_mb (s : State) (d : Decision) : mb (trans I s d) = Bits.clear (mb s) d.value.toNat := by
  unfold mb trans
  cases s.maybe with
  | none => simp [Bits.clear]
  | some m => rfl

theorem trans_depth (s : State) (d : Decision) : (trans I s d).depth = s.depth + 1 := rfl

theorem trans_maybe (s : State) (d : Decision) : (trans I s d).maybe = s.maybe.map fun m => Bits.clear m d.value.toNat := rfl

theorem addFlows_length (d : Nat) (l : List Nat) (cut : List Int) : (addFlows I d l cut).length = cut.length := by
  unfold addFlows
  induction l generalizing cut with
  | nil => rfl
  | cons a l ih => rw [List.foldl_cons, ih, List.length_set]

theorem addFlows_getD (d : Nat) (l : List Nat) (hn : l.Nodup) (cut : List Int) (hl : ∀ i ∈ l, i < cut.length) (i : Nat) :
    (addFlows I d l cut).getD i 0 = cut.getD i 0 + if i ∈ l then I.flow d i else 0 := by
  unfold addFlows
  induction l generalizing cut with
  | nil => simp
  | cons a l ih =>
    rw [List.nodup_cons] at hn
    rw [List.foldl_cons, ih hn.2 _ (by intro j hj; rw [List.length_set]; exact hl j (by simp [hj]))]
    have ha := hl a (by simp)
    by_cases e : i = a
    · subst e
      rw [if_neg hn.1, if_pos (by simp), List.getD_eq_getElem?_getD, List.getElem?_set]
      simp [ha]
    · have : i ∈ a :: l ↔ i ∈ l := by simp [e]
      simp only [this]
      congr 1
      rw [List.getD_eq_getElem?_getD, List.getElem?_set_ne (fun h => e h.symm), ← List.getD_eq_getElem?_getD]

/-! ### Meaningful states -/

/-- Department `i` is not placed yet. -/
def Free (s : State) (i : Nat) : Prop := s.must.testBit i = true ∨ (mb s).testBit i = true

variable (I F) in
/-- The states that come up in a compilation -/
structure Ok (s : State) : Prop where
  must : Bits.Sub I.n s.must
  maybe : Bits.Sub I.n (mb s)
  disj : ∀ i, s.must.testBit i = true → (mb s).testBit i = false
  cut : s.cut.length = I.n
  depth : s.depth ≤ I.n
  few : Bits.count I.n s.must + s.depth ≤ I.n
  many : I.n ≤ s.depth + Bits.count I.n s.must + Bits.count I.n (mb s)
  bound : ∀ i, Free s i → -((s.depth * F : Nat) : Int) ≤ s.at i ∧ s.at i ≤ ((s.depth * F : Nat) : Int)

theorem Ok.lt {s : State} (h : Ok I F s) {i : Nat} (hi : Free s i) : i < I.n := by
  rcases hi with hi | hi
  · exact h.must i hi
  · exact h.maybe i hi

theorem free_trans {s : State} {d : Decision} {i : Nat} : Free (trans I s d) i ↔ Free s i ∧ i ≠ d.value.toNat := by
  unfold Free
  rw [trans_must, trans_mb, Bits.testBit_clear, Bits.testBit_clear]
  simp only [Bool.and_eq_true, decide_eq_true_eq]
  constructor
  · rintro (⟨h1, h2⟩ | ⟨h1, h2⟩)
    · exact ⟨Or.inl h1, fun e => h2 e.symm⟩
    · exact ⟨Or.inr h1, fun e => h2 e.symm⟩
  · rintro ⟨h1 | h1, h2⟩
    · exact Or.inl ⟨h1, fun e => h2 e.symm⟩
    · exact Or.inr ⟨h1, fun e => h2 e.symm⟩

theorem trans_cut_length (s : State) (d : Decision) : (trans I s d).cut.length = s.cut.length := by
  unfold trans
  simp only
  cases s.maybe with
  | none => simp only [Option.map_none]; rw [addFlows_length, List.length_set]
  | some m => simp only [Option.map_some]; rw [addFlows_length, addFlows_length, List.length_set]

theorem trans_at {s : State} (h : Ok I F s) {d : Decision} {i : Nat} (hi : Free s i) (hd : i ≠ d.value.toNat) :
    (trans I s d).at i = s.at i + I.flow d.value.toNat i := by
  have hset : (s.cut.set d.value.toNat 0).getD i 0 = s.at i := by
    unfold State.at
    rw [List.getD_eq_getElem?_getD, List.getElem?_set_ne (fun e => hd e.symm), ← List.getD_eq_getElem?_getD]
  have hlen : ∀ l : List Int, l.length = I.n → ∀ m, ∀ j ∈ Bits.iter I.n m, j < l.length := by
    intro l hl m j hj; rw [hl]; exact (Bits.mem_iter.1 hj).1
  have hlt := h.lt hi
  have hcl : ∀ m : Nat, (i ∈ Bits.iter I.n (Bits.clear m d.value.toNat)) ↔ m.testBit i = true := by
    intro m
    rw [Bits.mem_iter, Bits.testBit_clear]
    simp only [Bool.and_eq_true, decide_eq_true_eq]
    exact ⟨fun h => h.2.1, fun h => ⟨hlt, h, fun e => hd e.symm⟩⟩
  unfold Free mb at hi
  have hdisj := h.disj i
  unfold mb at hdisj
  unfold trans State.at
  simp only
  cases hm : s.maybe with
  | none =>
    simp only [Option.map_none]
    rw [hm] at hi
    rw [addFlows_getD _ _ (Bits.nodup_iter _ _) _ (hlen _ (by rw [List.length_set]; exact h.cut) _), hset, if_pos]
    · rfl
    · rw [hcl]; simpa using hi
  | some m =>
    simp only [Option.map_some]
    rw [hm] at hi hdisj
    simp only [Option.getD_some] at hi hdisj
    rw [addFlows_getD _ _ (Bits.nodup_iter _ _) _ (hlen _ (by rw [addFlows_length, List.length_set]; exact h.cut) _),
      addFlows_getD _ _ (Bits.nodup_iter _ _) _ (hlen _ (by rw [List.length_set]; exact h.cut) _), hset]
    simp only [hcl]
    rcases hi with hi | hi
    · rw [if_pos hi, if_neg (by rw [hdisj hi]; simp)]
      show s.at i + _ + 0 = s.at i + _
      omega
    · rw [if_pos hi, if_neg (fun h => by rw [hdisj h] at hi; cases hi)]
      show s.at i + 0 + _ = s.at i + _
      omega

/-- What is decided -/
theorem mem_dom {s : State} {x : Nat} {d : Decision} : d ∈ dom I x s ↔
    ∃ i : Nat, d = ⟨x, (i : Int)⟩ ∧ i < I.n ∧ (s.must.testBit i = true ∨ ((mb s).testBit i = true ∧ s.depth + Bits.count I.n s.must < I.n)) := by
  unfold dom
  rw [maybes_eq, List.mem_append, List.mem_map]
  constructor
  · rintro (⟨i, hi, rfl⟩ | h)
    · exact ⟨i, rfl, (Bits.mem_iter.1 hi).1, Or.inl (Bits.mem_iter.1 hi).2⟩
    · split at h
      · obtain ⟨i, hi, rfl⟩ := List.mem_map.1 h
        exact ⟨i, rfl, (Bits.mem_iter.1 hi).1, Or.inr ⟨(Bits.mem_iter.1 hi).2, by omega⟩⟩
      · cases h
  · rintro ⟨i, rfl, h1, h2 | ⟨h2, h3⟩⟩
    · exact Or.inl ⟨i, Bits.mem_iter.2 ⟨h1, h2⟩, rfl⟩
    · right
      rw [if_pos (by omega)]
      exact List.mem_map.2 ⟨i, Bits.mem_iter.2 ⟨h1, h2⟩, rfl⟩

theorem count_clear_of_not {m i : Nat} (h : m.testBit i = false) : Bits.clear m i = m := by
  unfold Bits.clear; rw [h]; rfl

theorem ok_init (F : Nat) : Ok I F (initial I) where
  must := Bits.Sub.full _
  maybe := Bits.Sub.zero _
  disj := by intro i _; simp [mb, initial]
  cut := by simp [initial]
  depth := Nat.zero_le _
  few := by
    show (Bits.iter I.n _).length + 0 ≤ I.n
    have := List.length_filter_le (fun i => (Bits.full I.n).testBit i) (List.range I.n)
    rw [List.length_range] at this
    exact this
  many := by
    have : Bits.count I.n (Bits.full I.n) = I.n := by
      unfold Bits.count Bits.iter
      rw [List.filter_eq_self.2, List.length_range]
      intro i hi
      rw [Bits.testBit_full]
      simpa using hi
    show I.n ≤ 0 + Bits.count I.n (Bits.full I.n) + _
    omega
  bound := by
    intro i _
    have : (initial I).at i = 0 := by
      unfold State.at initial
      simp only [List.getD_eq_getElem?_getD, List.getElem?_replicate]
      split <;> rfl
    rw [this]
    constructor <;> omega

theorem Ok.trans (hB : Bounded I F L) {s : State} (h : Ok I F s) {x : Nat} {d : Decision} (hd : d ∈ dom I x s) : Ok I F (trans I s d) := by
  obtain ⟨i, rfl, hi, hcase⟩ := mem_dom.1 hd
  have ht : ((⟨x, (i : Int)⟩ : Decision).value.toNat) = i := rfl
  have hfree : Free s i := hcase.imp id (·.1)
  have hcount : (s.must.testBit i = true ∧ Bits.count I.n (Bits.clear s.must i) + 1 = Bits.count I.n s.must ∧ Bits.count I.n (Bits.clear (mb s) i) = Bits.count I.n (mb s)) ∨
      (s.depth + Bits.count I.n s.must < I.n ∧ Bits.count I.n (Bits.clear s.must i) = Bits.count I.n s.must ∧ Bits.count I.n (Bits.clear (mb s) i) + 1 = Bits.count I.n (mb s)) := by
    rcases hcase with h1 | ⟨h1, h2⟩
    · left
      exact ⟨h1, Bits.count_clear hi h1, by rw [count_clear_of_not (h.disj i h1)]⟩
    · right
      refine ⟨h2, ?_, Bits.count_clear hi h1⟩
      have : s.must.testBit i = false := by
        cases e : s.must.testBit i
        · rfl
        · rw [h.disj i e] at h1; cases h1
      rw [count_clear_of_not this]
  have hfew := h.few
  have hmany := h.many
  have hdepth := h.depth
  refine ⟨h.must.clear _, ?_, ?_, ?_, ?_, ?_, ?_, ?_⟩
  · rw [trans_mb]; exact h.maybe.clear _
  · intro j hj
    rw [trans_must, Bits.testBit_clear, Bool.and_eq_true] at hj
    rw [trans_mb, Bits.testBit_clear, h.disj j hj.1]; rfl
  · rw [trans_cut_length]; exact h.cut
  · rw [trans_depth]
    rcases hcount with ⟨_, h1, _⟩ | ⟨h1, _, _⟩ <;> omega
  · rw [trans_depth, trans_must, ht]
    rcases hcount with ⟨_, h1, h2⟩ | ⟨h1, h2, h3⟩ <;> omega
  · rw [trans_depth, trans_must, trans_mb, ht]
    rcases hcount with ⟨_, h1, h2⟩ | ⟨h1, h2, h3⟩ <;> omega
  · intro j hj
    obtain ⟨h1, h2⟩ := free_trans.1 hj
    rw [trans_at h h1 h2, trans_depth, ht]
    have h3 := h.bound j h1
    have h4 := hB.flow i j hi (h.lt h1)
    rw [Nat.add_mul, Nat.one_mul]
    push_cast at h3 ⊢
    omega

theorem nextVar_single (s : State) : nextVar I [s] = if s.depth = I.n then none else some s.depth := rfl

theorem nextVar_some {s : State} {x : Nat} (h : (problem I).nextVar [s] = some x) : x = s.depth ∧ s.depth ≠ I.n := by
  change nextVar I [s] = some x at h
  rw [nextVar_single] at h
  split at h
  · cases h
  · cases h; exact ⟨rfl, by assumption⟩

theorem nextVar_none {s : State} (h : (problem I).nextVar [s] = none) : s.depth = I.n := by
  change nextVar I [s] = none at h
  rw [nextVar_single] at h
  split at h
  · assumption
  · cases h

theorem nextVar_eq {s : State} (h : s.depth ≠ I.n) : (problem I).nextVar [s] = some s.depth := by
  change nextVar I [s] = _
  rw [nextVar_single, if_neg h]

theorem nextVar_eq_none {s : State} (h : s.depth = I.n) : (problem I).nextVar [s] = none := by
  change nextVar I [s] = _
  rw [nextVar_single, if_pos h]

/-! ### What follows a department -/

theorem musts_eq (s : State) (d : Nat) : musts I s d = Bits.iter I.n (Bits.clear s.must d) := by
  unfold musts
  rw [Bits.iter_clear]
  congr 1
  funext j
  exact decide_eq_decide.2 ⟨fun h e => h e.symm, fun h e => h e.symm⟩

theorem left_eq (s : State) (d : Nat) : left I s d = (Bits.iter I.n (Bits.clear (mb s) d)).map s.at := by
  unfold left
  rw [Bits.iter_clear]
  congr 2
  funext j
  exact decide_eq_decide.2 ⟨fun h e => h e.symm, fun h e => h e.symm⟩

/-- The departments that follow, as far as the cost of a decision is concerned: those that must be placed, and the cheapest of the others -/
theorem cost_choice {s : State} (h : Ok I F s) {x : Nat} {d : Decision} (hd : d ∈ dom I x s) : ∃ T : List Nat,
    T.Subperm (Bits.iter I.n (Bits.clear (mb s) d.value.toNat)) ∧ (musts I s d.value.toNat).length + T.length + s.depth + 1 = I.n ∧
    cost I s d = -(((musts I s d.value.toNat ++ T).map s.at).sum * I.len d.value.toNat) := by
  obtain ⟨i, rfl, hi, hcase⟩ := mem_dom.1 hd
  have ht : ((⟨x, (i : Int)⟩ : Decision).value.toNat) = i := rfl
  simp only [ht]
  have hfew := h.few
  have hmany := h.many
  have hle : (musts I s i).length + s.depth + 1 ≤ I.n ∧ I.n ≤ (musts I s i).length + s.depth + 1 + (Bits.iter I.n (Bits.clear (mb s) i)).length := by
    rw [musts_eq]
    show Bits.count I.n _ + _ + 1 ≤ _ ∧ _ ≤ Bits.count I.n _ + _ + 1 + Bits.count I.n _
    rcases hcase with h1 | ⟨h1, h2⟩
    · have e1 := Bits.count_clear hi h1
      rw [count_clear_of_not (h.disj i h1)]
      omega
    · have e1 := Bits.count_clear hi h1
      have : s.must.testBit i = false := by
        cases e : s.must.testBit i
        · rfl
        · rw [h.disj i e] at h1; cases h1
      rw [count_clear_of_not this]
      omega
  obtain ⟨T, h1, h2, h3⟩ := exists_smallest s.at (Bits.iter I.n (Bits.clear (mb s) i)) (k := I.n - (s.depth + 1) - (musts I s i).length) (by omega)
  refine ⟨T, h1, by omega, ?_⟩
  rw [cost_eq, ht, left_eq, h3, List.map_append, List.sum_append]
  ring

end Verif.Srflp
