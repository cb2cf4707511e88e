import Mathlib.Data.List.Perm.Basic
import Mathlib.Tactic.Ring
import Mathlib.Tactic.Linarith
/-! Sums of the smallest members of a list, pairs of members of a list. -/
set_option autoImplicit false

namespace Verif.Srflp

/-! ### Sublists up to order -/

theorem subperm_map {α β : Type} (f : α → β) {l m : List α} (h : l.Subperm m) : (l.map f).Subperm (m.map f) := by
  obtain ⟨k, h1, h2⟩ := h
  exact ⟨k.map f, h1.map f, h2.map f⟩

theorem subperm_append {α : Type} {l m l' m' : List α} (h : l.Subperm m) (h' : l'.Subperm m') : (l ++ l').Subperm (m ++ m') := by
  obtain ⟨k, h1, h2⟩ := h
  obtain ⟨k', h3, h4⟩ := h'
  exact ⟨k ++ k', h1.append h3, h2.append h4⟩

theorem perm_sum {l m : List Int} (h : l.Perm m) : l.sum = m.sum := by
  induction h with
  | nil => rfl
  | cons a _ ih => simp [ih]
  | swap a b l => simp; ring
  | trans _ _ h1 h2 => rw [h1, h2]

/-! ### Sums of the smallest members -/

theorem take_shift (a : Int) (l : List Int) (h : ∀ b ∈ l, a ≤ b) (n : Nat) (hn : n < l.length) : a + (l.take n).sum ≤ (l.take (n + 1)).sum := by
  rw [List.take_add_one, List.sum_append, List.getElem?_eq_getElem hn]
  have := h _ (List.getElem_mem hn)
  simp
  omega

theorem take_le_sublist {X L : List Int} (hx : X.Sublist L) (h : L.Pairwise (· ≤ ·)) : (L.take X.length).sum ≤ X.sum := by
  induction hx with
  | slnil => simp
  | @cons X L a hx ih =>
    rw [List.pairwise_cons] at h
    have h1 := ih h.2
    cases X with
    | nil => simp
    | cons x X =>
      have h2 := take_shift a L h.1 X.length hx.length_le
      simp only [List.length_cons] at h1 ⊢
      rw [List.take_succ_cons, List.sum_cons]
      omega
  | @cons_cons X L a hx ih =>
    rw [List.pairwise_cons] at h
    have h1 := ih h.2
    simp only [List.length_cons, List.take_succ_cons, List.sum_cons]
    omega

/-- No choice of members of a sorted list has a smaller sum than its beginning. -/
theorem take_le {X L : List Int} (hx : X.Subperm L) (h : L.Pairwise (· ≤ ·)) : (L.take X.length).sum ≤ X.sum := by
  obtain ⟨k, h1, h2⟩ := hx
  rw [← perm_sum h1, ← h1.length_eq]
  exact take_le_sublist h2 h

theorem take_mono {L : List Int} (h : ∀ a ∈ L, 0 ≤ a) : ∀ {m n : Nat}, m ≤ n → (L.take m).sum ≤ (L.take n).sum := by
  intro m n hmn
  obtain ⟨k, rfl⟩ := Nat.exists_eq_add_of_le hmn
  clear hmn
  induction k with
  | zero => simp
  | succ k ih =>
    refine Int.le_trans ih ?_
    rw [← Nat.add_assoc, List.take_add_one (l := L) (i := m + k), List.sum_append]
    cases hk : L[m + k]? with
    | none => simp
    | some a =>
      have := h a (List.mem_of_getElem? hk)
      simp
      omega

theorem take_nonneg {L : List Int} (h : ∀ a ∈ L, 0 ≤ a) (n : Nat) : 0 ≤ (L.take n).sum := by
  have := take_mono h (Nat.zero_le n)
  simpa using this

theorem sum_nonneg {L : List Int} (h : ∀ a ∈ L, 0 ≤ a) : 0 ≤ L.sum := by
  have := take_nonneg h L.length
  rwa [List.take_length] at this

theorem take_succ_sum (L : List Int) (n : Nat) : (L.take (n + 1)).sum = (L.take n).sum + L.getD n 0 := by
  rw [List.take_add_one, List.sum_append, List.getD_eq_getElem?_getD]
  cases L[n]? <;> simp

/-- A sorted list is made of all members of `C1` and of the smallest members of `C2` and `C3`.  Its beginning is no larger than any choice of members of `C1`, `C2`, `C3`
which has no more members of `C2` and `C3` than it has itself. -/
theorem budget {F C1 C2 C3 X1 X2 X3 : List Int} {b2 b3 : Nat} (hF : F.Pairwise (· ≤ ·)) (hp : F.Perm (C1 ++ (C2.take b2 ++ C3.take b3)))
    (h1 : C1.Pairwise (· ≤ ·)) (h2 : C2.Pairwise (· ≤ ·)) (h3 : C3.Pairwise (· ≤ ·)) (x1 : X1.Subperm C1) (x2 : X2.Subperm C2) (x3 : X3.Subperm C3)
    (l2 : X2.length ≤ b2) (l3 : X3.length ≤ b3) :
    (F.take (X1.length + (X2.length + X3.length))).sum ≤ X1.sum + (X2.sum + X3.sum) := by
  have e1 := take_le x1 h1
  have e2 := take_le x2 h2
  have e3 := take_le x3 h3
  have n1 : (C1.take X1.length).length = X1.length := by rw [List.length_take]; exact Nat.min_eq_left x1.length_le
  have n2 : (C2.take X2.length).length = X2.length := by rw [List.length_take]; exact Nat.min_eq_left x2.length_le
  have n3 : (C3.take X3.length).length = X3.length := by rw [List.length_take]; exact Nat.min_eq_left x3.length_le
  have hs : (C1.take X1.length ++ (C2.take X2.length ++ C3.take X3.length)).Subperm F := by
    refine List.Subperm.trans ?_ hp.symm.subperm
    refine subperm_append (List.take_sublist _ _).subperm (subperm_append ?_ ?_)
    · exact (List.take_sublist_take_left l2).subperm
    · exact (List.take_sublist_take_left l3).subperm
  have := take_le hs hF
  simp only [List.length_append, List.sum_append, n1, n2, n3] at this
  omega

/-! ### Half of `m * (m - 1)` -/

def tri (m : Nat) : Nat := m * (m - 1) / 2

theorem tri_succ (m : Nat) : tri (m + 1) = tri m + m := by
  unfold tri
  have e : (m + 1) * (m + 1 - 1) = m * (m - 1) + m * 2 := by
    cases m with
    | zero => rfl
    | succ k => simp only [Nat.add_sub_cancel]; ring
  rw [e, Nat.add_mul_div_right _ _ (by omega)]

@[simp] theorem tri_zero : tri 0 = 0 := rfl

theorem tri_mono {m n : Nat} (h : m ≤ n) : tri m ≤ tri n := by
  obtain ⟨k, rfl⟩ := Nat.exists_eq_add_of_le h
  clear h
  induction k with
  | zero => simp
  | succ k ih => rw [← Nat.add_assoc, tri_succ]; omega

theorem tri_add (m n : Nat) : tri (m + n) = tri m + m * n + tri n := by
  induction n with
  | zero => simp
  | succ n ih => rw [← Nat.add_assoc, tri_succ, tri_succ, ih]; ring

/-! ### Pairs of members -/

/-- All pairs of a member and a later one -/
def pairsOf {α : Type} : List α → List (α × α)
  | [] => []
  | a :: l => l.map (fun b => (a, b)) ++ pairsOf l

theorem length_pairsOf {α : Type} (l : List α) : (pairsOf l).length = tri l.length := by
  induction l with
  | nil => simp [pairsOf]
  | cons a l ih => simp [pairsOf, ih, tri_succ]; omega

theorem filter_pairsOf {α : Type} (p : α → Bool) (l : List α) : (pairsOf l).filter (fun q => p q.1 && p q.2) = pairsOf (l.filter p) := by
  induction l with
  | nil => rfl
  | cons a l ih =>
    simp only [pairsOf, List.filter_append, ih, List.filter_map]
    cases ha : p a
    · rw [List.filter_cons_of_neg (by simp [ha])]
      have : List.filter ((fun q : α × α => p q.1 && p q.2) ∘ fun b => (a, b)) l = [] := by
        rw [List.filter_eq_nil_iff]; intro b _; simp [ha]
      rw [this]; rfl
    · rw [List.filter_cons_of_pos (by simp [ha])]
      have : List.filter ((fun q : α × α => p q.1 && p q.2) ∘ fun b => (a, b)) l = l.filter p := by
        congr 1; funext b; simp [ha]
      rw [this]; rfl

theorem mixed_pairsOf {α : Type} (p r : α → Bool) (l : List α) (hd : ∀ a ∈ l, ¬ (p a = true ∧ r a = true)) :
    ((pairsOf l).filter (fun q => (p q.1 && r q.2) || (r q.1 && p q.2))).length = (l.filter p).length * (l.filter r).length := by
  induction l with
  | nil => rfl
  | cons a l ih =>
    have ih := ih fun b hb => hd b (by simp [hb])
    have ha := hd a (by simp)
    simp only [pairsOf, List.filter_append, List.length_append, ih, List.filter_map, List.length_map]
    cases hp : p a <;> cases hr : r a
    · rw [List.filter_cons_of_neg (by simp [hp]), List.filter_cons_of_neg (by simp [hr])]
      have : List.filter ((fun q : α × α => (p q.1 && r q.2) || (r q.1 && p q.2)) ∘ fun b => (a, b)) l = [] := by
        rw [List.filter_eq_nil_iff]; intro b _; simp [hp, hr]
      rw [this]; simp
    · rw [List.filter_cons_of_neg (by simp [hp]), List.filter_cons_of_pos (by simp [hr])]
      have : List.filter ((fun q : α × α => (p q.1 && r q.2) || (r q.1 && p q.2)) ∘ fun b => (a, b)) l = l.filter p := by
        congr 1; funext b; simp [hp, hr]
      rw [this, List.length_cons]; ring
    · rw [List.filter_cons_of_pos (by simp [hp]), List.filter_cons_of_neg (by simp [hr])]
      have : List.filter ((fun q : α × α => (p q.1 && r q.2) || (r q.1 && p q.2)) ∘ fun b => (a, b)) l = l.filter r := by
        congr 1; funext b; simp [hp, hr]
      rw [this, List.length_cons]; ring
    · exact absurd ⟨hp, hr⟩ ha

theorem mem_pairsOf_of_lt {l : List Nat} (hl : l.Pairwise (· < ·)) {a b : Nat} : (a, b) ∈ pairsOf l ↔ a ∈ l ∧ b ∈ l ∧ a < b := by
  induction l with
  | nil => simp [pairsOf]
  | cons x l ih =>
    rw [List.pairwise_cons] at hl
    simp only [pairsOf, List.mem_append, List.mem_map, Prod.mk.injEq, List.mem_cons, ih hl.2]
    constructor
    · rintro (⟨c, hc, rfl, rfl⟩ | ⟨h1, h2, h3⟩)
      · exact ⟨Or.inl rfl, Or.inr hc, hl.1 c hc⟩
      · exact ⟨Or.inr h1, Or.inr h2, h3⟩
    · rintro ⟨h1 | h1, h2 | h2, h3⟩
      · omega
      · exact Or.inl ⟨b, h2, h1.symm, rfl⟩
      · have := hl.1 a h1; omega
      · exact Or.inr ⟨h1, h2, h3⟩

theorem nodup_pairsOf {α : Type} {l : List α} (hl : l.Nodup) : (pairsOf l).Nodup := by
  induction l with
  | nil => exact List.nodup_nil
  | cons a l ih =>
    rw [List.nodup_cons] at hl
    refine List.nodup_append.2 ⟨List.Pairwise.map _ (fun b c h e => h (Prod.mk.inj e).2) hl.2, ih hl.2, ?_⟩
    intro x hx y hy e
    obtain ⟨b, _, rfl⟩ := List.mem_map.1 hx
    subst e
    have : ∀ l : List α, ∀ q ∈ pairsOf l, q.1 ∈ l := by
      intro l
      induction l with
      | nil => intro q hq; cases hq
      | cons c l ih =>
        intro q hq
        rcases List.mem_append.1 hq with h | h
        · obtain ⟨b, _, rfl⟩ := List.mem_map.1 h; simp
        · exact List.mem_cons.2 (Or.inr (ih q h))
    exact hl.1 (this l _ hy)

end Verif.Srflp
