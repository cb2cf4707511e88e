import Verif.Proofs.Problem
/-!
A knapsack as a concrete dynamic program: it satisfies everything the theorems about decision diagrams and solvers ask of a problem and its
relaxation.  Used to show that the hypotheses of those theorems can be met (this file models no code of the repository).
-/
set_option autoImplicit false

namespace Verif.Knap
open Verif Spec

/-- An item: weight and profit. -/
abbrev Item := Nat × Nat

/-- State: number of items decided, capacity left. -/
abbrev St := Nat × Nat

def weight (items : List Item) (i : Nat) : Nat := (items.getD i (0, 0)).1
def profit (items : List Item) (i : Nat) : Nat := (items.getD i (0, 0)).2

def total (items : List Item) : Nat := (items.map (·.2)).sum

def prob (items : List Item) (cap : Nat) : Problem St :=
  { nbVars := items.length
    init := (0, cap)
    initVal := 0
    nextVar := fun l => match l with
      | [] => none
      | s :: _ => if s.1 < items.length then some s.1 else none
    dom := fun x s => if weight items x ≤ s.2 then [⟨x, 1⟩, ⟨x, 0⟩] else [⟨x, 0⟩]
    trans := fun s d => (s.1 + 1, if d.value = 1 then s.2 - weight items s.1 else s.2)
    cost := fun s d => if d.value = 1 then profit items s.1 else 0
    estimate := fun s => total (items.drop s.1) }

def maxCap : List St → Nat
  | [] => 0
  | s :: l => max s.2 (maxCap l)

def relaxation : Relaxation St :=
  { merge := fun l => ((l.headD (0, 0)).1, maxCap l)
    relax := fun _ _ _ _ c => c }

def layering : Layering St := ⟨fun _ => True, fun s => s.1, fun k => k⟩

theorem total_ge {items : List Item} {i : Nat} (hi : i < items.length) : total (items.drop i) = profit items i + total (items.drop (i+1)) := by
  unfold total profit
  rw [List.drop_eq_getElem_cons hi]
  simp only [List.map_cons, List.sum_cons]
  simp [List.getD, hi]

theorem total_drop (items : List Item) (i : Nat) : total (items.drop i) ≤ total items := by
  induction i with
  | zero => simp
  | succ i ih =>
    by_cases hi : i < items.length
    · have := total_ge hi; omega
    · rw [List.drop_eq_nil_of_le (by omega)] at ih ⊢; exact ih

theorem profit_le (items : List Item) {i : Nat} (hi : i < items.length) : profit items i ≤ total items := by
  have := total_ge hi; have := total_drop items i; omega

theorem mem_dom {items : List Item} {cap : Nat} {x : Nat} {s : St} {d : Decision} (h : d ∈ (prob items cap).dom x s) :
    d.var = x ∧ (d.value = 0 ∨ (d.value = 1 ∧ weight items x ≤ s.2)) := by
  simp only [prob] at h
  split at h
  · rename_i hw
    simp at h
    rcases h with rfl | rfl
    · exact ⟨rfl, Or.inr ⟨rfl, hw⟩⟩
    · exact ⟨rfl, Or.inl rfl⟩
  · simp at h; subst h; exact ⟨rfl, Or.inl rfl⟩

theorem wellFormed (items : List Item) (cap : Nat) (hb : 4 * ((items.length : Int) + 2) * (total items : Int) ≤ isizeMax) :
    WellFormed (prob items cap) layering (total items) := by
  refine ⟨trivial, fun _ _ _ _ _ _ => trivial, rfl, fun _ _ _ _ _ _ => rfl, rfl, ?_, ?_, ?_, hb⟩
  · intro l k hl h
    cases l with
    | nil => exact absurd rfl hl
    | cons s l =>
      have := (h s (by simp)).2
      simp only [layering] at this
      simp only [prob, layering, this]; rfl
  · simp only [prob]; omega
  · intro s x d _ hx hd
    have hlt : s.1 < items.length := by
      simp only [prob] at hx
      split at hx
      · assumption
      · cases hx
    have := profit_le items hlt
    simp only [prob]
    split <;> omega

theorem nextVar_eq (items : List Item) (cap : Nat) (s : St) : (prob items cap).nextVar [s] = if s.1 < items.length then some s.1 else none := rfl

/-- More capacity is at least as good. -/
theorem run_mono (items : List Item) (cap : Nat) {s : St} {ds : List Decision} {v : Int} {t : St} (h : Run (prob items cap) s ds v t) :
    ∀ s', s'.1 = s.1 → s.2 ≤ s'.2 → ∃ t', Run (prob items cap) s' ds v t' ∧ t'.1 = t.1 := by
  induction h with
  | nil s => intro s' h1 _; exact ⟨s', .nil s', h1⟩
  | @cons s t x d ds v hx hd h ih =>
    intro s' h1 h2
    have hm := mem_dom hd
    have hd' : d ∈ (prob items cap).dom x s' := by
      simp only [prob] at hd ⊢
      split at hd
      · rw [if_pos (by omega)]; exact hd
      · split
        · simp at hd ⊢; exact Or.inr hd
        · exact hd
    obtain ⟨t', g1, g2⟩ := ih ((prob items cap).trans s' d) (by simp [prob, h1]) (by
      simp only [prob, h1]
      split <;> omega)
    refine ⟨t', ?_, g2⟩
    have hc : (prob items cap).cost s d = (prob items cap).cost s' d := by simp only [prob, h1]
    rw [hc]
    exact .cons (by rw [nextVar_eq] at hx ⊢; rw [h1]; exact hx) hd' g1

theorem run_bound (items : List Item) (cap : Nat) {s : St} {ds : List Decision} {v : Int} {t : St} (h : Run (prob items cap) s ds v t) :
    v ≤ total (items.drop s.1) := by
  induction h with
  | nil s => exact Int.natCast_nonneg _
  | @cons s t x d ds v hx hd h ih =>
    have hlt : s.1 < items.length := by
      rw [nextVar_eq] at hx
      split at hx
      · assumption
      · cases hx
    have := total_ge hlt
    have e : ((prob items cap).trans s d).1 = s.1 + 1 := rfl
    rw [e] at ih
    have : (prob items cap).cost s d ≤ profit items s.1 := by simp only [prob]; split <;> omega
    omega

theorem admissible (items : List Item) (cap : Nat) : Admissible (prob items cap) layering := by
  intro s _ ds v ⟨t, hr, _⟩
  exact run_bound items cap hr

theorem maxCap_ge {l : List St} {s : St} (h : s ∈ l) : s.2 ≤ maxCap l := by
  induction l with
  | nil => cases h
  | cons a l ih =>
    simp only [maxCap]
    rcases List.mem_cons.1 h with rfl | h
    · omega
    · have := ih h; omega

theorem merge_lvl {l : List St} {k : Nat} (hne : l ≠ []) (h : ∀ s ∈ l, layering.ok s ∧ layering.lvl s = k) : (relaxation.merge l).1 = k := by
  cases l with
  | nil => exact absurd rfl hne
  | cons a l => exact (h a (by simp)).2

theorem soundRelaxation (items : List Item) (cap : Nat) : SoundRelaxation (prob items cap) relaxation layering (total items) := by
  refine ⟨⟨fun l k hne h => ⟨trivial, merge_lvl hne h⟩, ?_⟩, ?_⟩
  rotate_left
  · intro l k hl s x d _ hx hd hmem ds v ⟨t, hr, ht⟩
    have hne : l ≠ [] := fun h => by rw [h] at hmem; cases hmem
    obtain ⟨t', g1, g2⟩ := run_mono items cap hr (relaxation.merge l)
      (by rw [merge_lvl hne hl]; exact (hl _ hmem).2.symm) (maxCap_ge hmem)
    refine ⟨ds, v, ⟨t', g1, ?_⟩, Int.le_refl _⟩
    rw [nextVar_eq] at ht ⊢; rw [g2]; exact ht
  · intro l k _ s x d _ hx hd _
    have hlt : s.1 < items.length := by
      rw [nextVar_eq] at hx
      split at hx
      · assumption
      · cases hx
    have := profit_le items hlt
    refine ⟨Int.le_refl _, ?_⟩
    simp only [relaxation, prob]
    split <;> omega

end Verif.Knap
