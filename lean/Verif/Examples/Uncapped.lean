import Verif.Examples.Turns
import Verif.Spec.Uncapped
/-!
A schedule for two threads in which no bound is lowered (this file models no code of the repository).
-/
set_option autoImplicit false

namespace Verif.Inst
open Verif Spec
variable {σ : Type} [DecidableEq σ] [Inhabited σ]

/-- `Uncapped`, for one thread. -/
def uncappedT (lb : Int) (t : BThread σ) : Bool :=
  match t.pc with
  | .post n _ => t.mdd.exact || t.mdd.drainCutset.all fun q => decide (q.ub ≤ n.ub ∨ q.ub ≤ lb)
  | _ => true

theorem uncapped_iff {F : Type} (s : BSys σ F) : (s.threads.all (uncappedT s.crit.bestLb)) = true ↔ Uncapped s := by
  simp only [List.all_eq_true, Uncapped]
  refine forall_congr' fun t => forall_congr' fun _ => ?_
  obtain ⟨pc, m⟩ := t
  cases pc with
  | post n dd =>
    simp only [uncappedT, Bool.or_eq_true, List.all_eq_true, decide_eq_true_eq]
    constructor
    · rintro h n' dd' e hx q hq
      cases e
      rcases h with h | h
      · rw [hx] at h; cases h
      · exact h q hq
    · intro h
      cases hx : m.exact with
      | true => exact Or.inl rfl
      | false => exact Or.inr (h n dd rfl hx)
  | _ => simp [uncappedT]

instance {F : Type} (s : BSys σ F) : Decidable (Uncapped s) := decidable_of_iff _ (uncapped_iff s)

/-- On the instance of `raceRun`: thread 0 processes the root, then both threads work at the same time. -/
def uncappedRun : List (Nat × Bool) :=
  ([0, 0, 0, 0, 0, 0, 0, 1, 1, 1, 1, 1, 0, 1, 1, 1, 0, 1, 1, 1, 0, 1, 1, 1, 0, 1, 1, 1, 0, 1, 1, 1, 0, 1, 1, 0, 1, 0]).map fun i => (i, false)

end Verif.Inst
