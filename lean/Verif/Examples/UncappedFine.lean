import Verif.Examples.Locks
import Verif.Examples.Uncapped
import Verif.Spec.UncappedFine
/-!
Schedules at the level of single accesses in which no bound is lowered (this file models no code of the repository).
-/
set_option autoImplicit false

namespace Verif.Inst
open Verif Spec
variable {σ : Type} [DecidableEq σ] [Inhabited σ]

instance {F : Type} (s : FSys σ F) : Decidable (FUncapped s) := inferInstanceAs (Decidable (Uncapped s.sys))

/-- Two threads take turns at every access, as far as they can move; all states are tested with `q`, the last one with `f`. -/
def fturns (cfg : SolverCfg σ) (q f : FSys σ cfg.fr.F → Bool) : Nat → Nat → FSys σ cfg.fr.F → Bool
  | 0, _, _ => false
  | fuel + 1, i, s =>
    q s &&
      match Fine.step cfg s (.run i false orc) with
      | .ok s' => fturns cfg q f fuel (1 - i) s'
      | _ =>
        match Fine.step cfg s (.run (1 - i) false orc) with
        | .ok s' => fturns cfg q f fuel i s'
        | _ => f s

theorem fturns_spec {cfg : SolverCfg σ} {Q : FSys σ cfg.fr.F → Prop} [DecidablePred Q] {f : FSys σ cfg.fr.F → Bool} : ∀ (fuel i : Nat) (s : FSys σ cfg.fr.F),
    fturns cfg (fun s => decide (Q s)) f fuel i s = true →
    ∃ ls s', (∀ l ∈ ls, FValidLbl l ∧ FNoInterrupt l) ∧ FAlong cfg Q s ls ∧ Fine.runs cfg s ls = .ok s' ∧ f s' = true
  | 0, _, _, h => by cases h
  | fuel + 1, i, s, h => by
    unfold fturns at h
    simp only [Bool.and_eq_true, decide_eq_true_eq] at h
    obtain ⟨h1, h2⟩ := h
    have next : ∀ (j : Nat) (s1 : FSys σ cfg.fr.F) (k : Nat), Fine.step cfg s (.run j false orc) = .ok s1 → fturns cfg (fun s => decide (Q s)) f fuel k s1 = true →
        ∃ ls s', (∀ l ∈ ls, FValidLbl l ∧ FNoInterrupt l) ∧ FAlong cfg Q s ls ∧ Fine.runs cfg s ls = .ok s' ∧ f s' = true := by
      intro j s1 k hs hk
      obtain ⟨ls, s', g1, g2, g3, g4⟩ := fturns_spec fuel k s1 hk
      refine ⟨.run j false orc :: ls, s', ?_, ⟨h1, ?_⟩, by simp only [Fine.runs, hs]; exact g3, g4⟩
      · intro l hl
        rcases List.mem_cons.1 hl with rfl | hl
        · exact ⟨orc_valid, rfl⟩
        · exact g1 l hl
      · intro s2 h2
        rw [hs] at h2; cases h2
        exact g2
    split at h2
    · rename_i s1 hs
      exact next i s1 _ hs h2
    · split at h2
      · rename_i s1 hs
        exact next (1 - i) s1 _ hs h2
      · exact ⟨[], s, by simp, h1, rfl, h2⟩

theorem fturns_reach {cfg : SolverCfg σ} {Q : FSys σ cfg.fr.F → Prop} [DecidablePred Q] {f : FSys σ cfg.fr.F → Bool} {fuel : Nat}
    (h : (match Fine.init cfg with | none => false | some s => fturns cfg (fun s => decide (Q s)) f fuel 0 s) = true) : ∃ s, FReachableMaxAlong cfg Q s ∧ f s = true := by
  split at h
  · cases h
  · rename_i s0 h0
    obtain ⟨ls, s', g1, g2, g3, g4⟩ := fturns_spec fuel 0 s0 h
    exact ⟨s', ⟨s0, ls, h0, g1, g2, g3⟩, g4⟩

end Verif.Inst
