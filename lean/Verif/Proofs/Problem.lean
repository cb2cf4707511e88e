import Verif.Spec.Problem
/-! Runs of a well-formed problem. -/
set_option autoImplicit false

namespace Verif.Spec
open Verif
variable {σ : Type} {p : Problem σ} {S : Layering σ} {B : Int}

theorem WellFormed.B_nonneg (h : WellFormed p S B) : 0 ≤ B := by have := h.init_bound; omega

theorem WellFormed.nextVar_one (h : WellFormed p S B) {s : σ} (hs : S.ok s) :
    p.nextVar [s] = if S.lvl s < p.nbVars then some (S.var (S.lvl s)) else none :=
  h.next_var [s] (S.lvl s) (by simp) (by simp [hs])

theorem Run.append {s t u : σ} {ds es : List Decision} {a b : Int} (h : Run p s ds a t) (h' : Run p t es b u) :
    Run p s (ds ++ es) (a + b) u := by
  induction h with
  | nil s => simpa using h'
  | cons hx hd _ ih =>
    rw [Int.add_assoc]
    exact .cons hx hd (ih h')

theorem Run.snoc {s t : σ} {ds : List Decision} {a : Int} {x : Nat} {d : Decision} (h : Run p s ds a t) (hx : p.nextVar [t] = some x)
    (hd : d ∈ p.dom x t) : Run p s (ds ++ [d]) (a + p.cost t d) (p.trans t d) := by
  have := h.append (.cons hx hd (.nil _))
  simpa using this

theorem Run.facts (hwf : WellFormed p S B) {s t : σ} {ds : List Decision} {a : Int} (h : Run p s ds a t) (hs : S.ok s) :
    S.ok t ∧ S.lvl t = S.lvl s + ds.length ∧ (S.lvl s ≤ p.nbVars → S.lvl t ≤ p.nbVars) ∧
    -((ds.length : Int) * B) ≤ a ∧ a ≤ (ds.length : Int) * B := by
  induction h with
  | nil s => simp [hs]
  | @cons s t x d ds v hx hd h ih =>
    have h1 := hwf.ok_trans _ _ _ hs hx hd
    have h2 := hwf.lvl_trans _ _ _ hs hx hd
    have h3 := hwf.cost_bound _ _ _ hs hx hd
    obtain ⟨i1, i2, i3, i4, i5⟩ := ih h1
    have hlt : S.lvl s < p.nbVars := by
      rw [hwf.nextVar_one hs] at hx
      split at hx
      · assumption
      · cases hx
    refine ⟨i1, by rw [i2, h2]; simp; omega, fun _ => i3 (by omega), ?_, ?_⟩
    · simp only [List.length_cons, Int.natCast_add, Int.add_mul]; simp; omega
    · simp only [List.length_cons, Int.natCast_add, Int.add_mul]; simp; omega

theorem Run.len (hwf : WellFormed p S B) {s t : σ} {ds : List Decision} {a : Int} (h : Run p s ds a t) (hs : S.ok s)
    (hl : S.lvl s ≤ p.nbVars) : S.lvl s + ds.length ≤ p.nbVars := by
  have := h.facts hwf hs
  have h2 := this.2.2.1 hl
  omega

theorem Completion.nil_iff {s : σ} {ds : List Decision} {v : Int} (hs : p.nextVar [s] = none) :
    Completion p s ds v ↔ ds = [] ∧ v = 0 := by
  constructor
  · rintro ⟨t, h, _⟩
    cases h with
    | nil => exact ⟨rfl, rfl⟩
    | cons hx _ _ => rw [hs] at hx; cases hx
  · rintro ⟨rfl, rfl⟩
    exact ⟨s, .nil s, hs⟩

theorem Completion.cases {s : σ} {ds : List Decision} {v : Int} {x : Nat} (h : Completion p s ds v) (hs : p.nextVar [s] = some x) :
    ∃ d ds' v', d ∈ p.dom x s ∧ ds = d :: ds' ∧ v = p.cost s d + v' ∧ Completion p (p.trans s d) ds' v' := by
  obtain ⟨t, h, ht⟩ := h
  cases h with
  | nil => rw [ht] at hs; cases hs
  | cons hx hd h =>
    rw [hs] at hx; cases hx
    exact ⟨_, _, _, hd, rfl, rfl, t, h, ht⟩

/-- The value of a completion is bounded by the number of variables left. -/
theorem Completion.bound (hwf : WellFormed p S B) {s : σ} {ds : List Decision} {v : Int} (h : Completion p s ds v) (hs : S.ok s)
    (hl : S.lvl s ≤ p.nbVars) : -(((p.nbVars : Int) - S.lvl s) * B) ≤ v ∧ v ≤ ((p.nbVars : Int) - S.lvl s) * B := by
  obtain ⟨t, hr, _⟩ := h
  have h1 := hr.facts hwf hs
  have h2 := hr.len hwf hs hl
  have hB := hwf.B_nonneg
  have : (ds.length : Int) * B ≤ ((p.nbVars : Int) - S.lvl s) * B := Int.mul_le_mul_of_nonneg_right (by omega) hB
  omega

end Verif.Spec
