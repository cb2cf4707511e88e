import Verif.Spec.Problem
/-! Checking runs of a problem by evaluation, for the examples. -/
set_option autoImplicit false

namespace Verif.Inst
open Verif Spec
variable {σ : Type}

/-- Follows the decisions from `s`, if they are legal. -/
def follow (p : Problem σ) : σ → List Decision → Option (Int × σ)
  | s, [] => some (0, s)
  | s, d :: ds =>
    match p.nextVar [s] with
    | none => none
    | some x => if d ∈ p.dom x s then (follow p (p.trans s d) ds).map fun r => (p.cost s d + r.1, r.2) else none

theorem follow_run {p : Problem σ} : ∀ (ds : List Decision) (s : σ) {v : Int} {t : σ}, follow p s ds = some (v, t) → Run p s ds v t := by
  intro ds
  induction ds with
  | nil => intro s v t h; cases h; exact Run.nil _
  | cons d ds ih =>
    intro s v t h
    unfold follow at h
    split at h
    · cases h
    · rename_i x hx
      split at h
      · rename_i hd
        obtain ⟨⟨u, t'⟩, h1, h2⟩ := Option.map_eq_some_iff.1 h
        cases h2
        exact Run.cons hx hd (ih _ h1)
      · cases h

/-- The value of a complete list of decisions. -/
def complete (p : Problem σ) (s : σ) (ds : List Decision) : Option Int :=
  match follow p s ds with
  | none => none
  | some (v, t) => if (p.nextVar [t]).isNone then some v else none

theorem complete_spec {p : Problem σ} {s : σ} {ds : List Decision} {v : Int} (h : complete p s ds = some v) : Completion p s ds v := by
  unfold complete at h
  split at h
  · cases h
  · rename_i u t hf
    split at h
    · rename_i hn
      cases h
      exact ⟨t, follow_run ds s hf, by simpa using hn⟩
    · cases h

theorem complete_solution {p : Problem σ} {ds : List Decision} {v : Int} (h : complete p p.init ds = some v) : Solution p ds (p.initVal + v) :=
  ⟨v, complete_spec h, rfl⟩

/-- No completion of `s` is worth more than `b`; `k` limits the number of steps. -/
def below (p : Problem σ) : Nat → σ → Int → Bool
  | 0, _, _ => false
  | k + 1, s, b =>
    match p.nextVar [s] with
    | none => decide (0 ≤ b)
    | some x => (p.dom x s).all fun d => below p k (p.trans s d) (b - p.cost s d)

theorem below_spec {p : Problem σ} : ∀ {k : Nat} {s : σ} {b : Int}, below p k s b = true → ∀ {ds : List Decision} {v : Int}, Completion p s ds v → v ≤ b := by
  intro k
  induction k with
  | zero => intro s b h; cases h
  | succ k ih =>
    rintro s b h ds v ⟨t, hr, ht⟩
    unfold below at h
    cases hr with
    | nil =>
      rw [ht] at h
      simpa using h
    | cons hx hd hr =>
      rw [hx] at h
      have := ih (List.all_eq_true.1 h _ hd) ⟨t, hr, ht⟩
      omega

end Verif.Inst
