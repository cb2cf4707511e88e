import Verif.Examples.Race
import Verif.Spec.Turns
/-!
Schedules for the solver with a barrier with a condition on every state (this file models no code of the repository).
-/
set_option autoImplicit false

namespace Verif.Inst
open Verif Spec
variable {σ : Type} [DecidableEq σ] [Inhabited σ]

/-- Runs a schedule, tests every state with `P` and the last one with `f`. -/
def atest (cfg : SolverCfg σ) (P f : BSys σ cfg.fr.F → Bool) : BSys σ cfg.fr.F → List (Nat × Bool) → Bool
  | s, [] => P s && f s
  | s, x :: l => P s && match Bar.step cfg s (.run x.1 x.2 orc none) with
    | .ok s' => atest cfg P f s' l
    | _ => false

theorem atest_spec {cfg : SolverCfg σ} {P f : BSys σ cfg.fr.F → Bool} : ∀ (l : List (Nat × Bool)) (s : BSys σ cfg.fr.F), atest cfg P f s l = true →
    Along cfg (fun s => P s = true) s (bsched l) ∧ ∃ s', Bar.runs cfg s (bsched l) = .ok s' ∧ f s' = true := by
  intro l
  induction l with
  | nil =>
    intro s h
    simp only [atest, Bool.and_eq_true] at h
    exact ⟨h.1, s, rfl, h.2⟩
  | cons x l ih =>
    intro s h
    simp only [atest, Bool.and_eq_true] at h
    obtain ⟨h1, h2⟩ := h
    split at h2
    · rename_i s1 hs
      obtain ⟨g1, s', g2, g3⟩ := ih s1 h2
      refine ⟨⟨h1, ?_⟩, s', ?_, g3⟩
      · intro s2 hs2
        rw [hs] at hs2; cases hs2
        exact g1
      · show Bar.runs cfg s (BLbl.run x.1 x.2 orc none :: bsched l) = _
        unfold Bar.runs
        rw [hs]; exact g2
    · cases h2

theorem Along.imp {cfg : SolverCfg σ} {P Q : BSys σ cfg.fr.F → Prop} (hPQ : ∀ s, P s → Q s) : ∀ (ls : List (BLbl σ)) (s : BSys σ cfg.fr.F),
    Along cfg P s ls → Along cfg Q s ls := by
  intro ls
  induction ls with
  | nil => intro s h; exact hPQ s h
  | cons l ls ih => intro s h; exact ⟨hPQ s h.1, fun s' hs => ih s' (h.2 s' hs)⟩

theorem along_test {cfg : SolverCfg σ} {Q : BSys σ cfg.fr.F → Prop} [DecidablePred Q] {f : BSys σ cfg.fr.F → Bool} {l : List (Nat × Bool)}
    (hl : l.all (fun x => !x.2) = true)
    (h : (match Bar.init cfg with | none => false | some s => atest cfg (fun s => decide (Q s)) f s l) = true) : ∃ s, ReachableAlong cfg Q s ∧ f s = true := by
  split at h
  · cases h
  · rename_i s0 h0
    obtain ⟨g1, s', g2, g3⟩ := atest_spec l s0 h
    refine ⟨s', ⟨s0, bsched l, h0, fun x hx => ⟨(bsched_valid l x hx).1, (bsched_valid l x hx).2, bsched_noint hl x hx⟩, ?_, g2⟩, g3⟩
    exact Along.imp (fun s hs => by simpa using hs) _ _ g1

instance {F : Type} (s : BSys σ F) : Decidable (OneHolder s) := inferInstanceAs (Decidable (_ ≤ _))
instance {F : Type} (s : BSys σ F) : Decidable (OneProcessing s) := inferInstanceAs (Decidable (_ ≤ _))

/-- On the instance of `raceRun`: thread 0 processes the root, takes (1,2) and waits; thread 1 takes (1,1) and processes it from beginning to end, takes (4,1) and waits;
thread 0 processes (1,2) from beginning to end, takes (2,2), whose bound is now only 5, and processes it from beginning to end, which stores a threshold for (5,1);
thread 1 processes (4,1), where this threshold cuts off the optimum. -/
def overtakenRun : List (Nat × Bool) :=
  (List.replicate 8 0 ++ List.replicate 8 1 ++ List.replicate 13 0 ++ List.replicate 4 1 ++ [0]).map fun i => (i, false)

/-- On the same instance the two threads work in turns, on two and three nodes. -/
def turnsRun : List (Nat × Bool) :=
  (List.replicate 7 1 ++ List.replicate 7 0 ++ List.replicate 7 1 ++ List.replicate 4 0 ++ List.replicate 7 1 ++ [0, 1]).map fun i => (i, false)

end Verif.Inst
