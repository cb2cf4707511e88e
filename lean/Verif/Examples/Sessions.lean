import Verif.Examples.Race
import Verif.Spec.Session
/-!
Concrete sequences of calls of a solver (this file models no code of the repository).
-/
set_option autoImplicit false

namespace Verif.Inst
open Verif Spec
variable {σ : Type} [DecidableEq σ] [Inhabited σ]

/-- Runs one schedule for every call, starting from the state `s`, and tests the result. -/
def calls (cfg : SolverCfg σ) (f : Sys σ cfg.fr.F → Bool) : Sys σ cfg.fr.F → List (Nat × Bool) → List (List (Nat × Bool)) → Bool
  | s, l, ls => match Par.runs cfg s (sched l) with
    | .ok s' => match ls with
      | [] => f s'
      | l' :: ls' => allDone s' && (match Par.again cfg s'.crit with
        | some s'' => calls cfg f s'' l' ls'
        | none => false)
    | _ => false

theorem session_runs {cfg : SolverCfg σ} {stop : Bool} (l : List (Nat × Bool)) (hl : stop = false → l.all (fun x => !x.2) = true) :
    ∀ s s' : Sys σ cfg.fr.F, Session cfg stop s → Par.runs cfg s (sched l) = .ok s' → Session cfg stop s' := by
  induction l with
  | nil => intro s s' h hs; cases hs; exact h
  | cons x l ih =>
    intro s s' h hs
    simp only [sched, List.map_cons, Par.runs] at hs
    split at hs
    · rename_i s1 h1
      refine ih (fun e => by have := hl e; simp only [List.all_cons, Bool.and_eq_true] at this; exact this.2) s1 s' (.step (l := .run x.1 x.2 orc) h orc_valid ?_ h1) hs
      intro e i intr o he
      have := hl e
      simp only [List.all_cons, Bool.and_eq_true, Bool.not_eq_true'] at this
      cases he; exact this.1
    · cases hs
    · cases hs

theorem calls_spec {cfg : SolverCfg σ} {stop : Bool} {f : Sys σ cfg.fr.F → Bool} : ∀ (ls : List (List (Nat × Bool))) (l : List (Nat × Bool)) (s : Sys σ cfg.fr.F),
    Session cfg stop s → (stop = false → (l :: ls).all (fun l => l.all fun x => !x.2) = true) → calls cfg f s l ls = true → ∃ s', Session cfg stop s' ∧ f s' = true := by
  intro ls
  induction ls with
  | nil =>
    intro l s h hl hc
    unfold calls at hc
    split at hc
    · rename_i s' h1
      exact ⟨s', session_runs l (fun e => by simpa using hl e) s s' h h1, hc⟩
    · cases hc
  | cons l' ls ih =>
    intro l s h hl hc
    unfold calls at hc
    split at hc
    · rename_i s1 h1
      simp only [Bool.and_eq_true] at hc
      obtain ⟨h2, hc⟩ := hc
      split at hc
      · rename_i s2 h3
        refine ih l' s2 (.again (session_runs l (fun e => ?_) s s1 h h1) (allDone_spec h2) h3) (fun e => ?_) hc
        · have := hl e; rw [List.all_cons, Bool.and_eq_true] at this; exact this.1
        · have := hl e; rw [List.all_cons, Bool.and_eq_true] at this; exact this.2
      · cases hc
    · cases hc

/-- As `calls`, from the start. -/
def session (cfg : SolverCfg σ) (l : List (Nat × Bool)) (ls : List (List (Nat × Bool))) (f : Sys σ cfg.fr.F → Bool) : Bool :=
  match Par.init cfg with
  | none => false
  | some s => calls cfg f s l ls

theorem session_spec {cfg : SolverCfg σ} {stop : Bool} {l : List (Nat × Bool)} {ls : List (List (Nat × Bool))} {f : Sys σ cfg.fr.F → Bool}
    (hl : stop = false → (l :: ls).all (fun l => l.all fun x => !x.2) = true) (h : session cfg l ls f = true) : ∃ s, Session cfg stop s ∧ f s = true := by
  unfold session at h
  split at h
  · cases h
  · rename_i s0 h0
    exact calls_spec ls l s0 (.first h0) hl h

/-! The same for the solver with a barrier. -/

def bcalls (cfg : SolverCfg σ) (f : BSys σ cfg.fr.F → Bool) : BSys σ cfg.fr.F → List (Nat × Bool) → List (List (Nat × Bool)) → Bool
  | s, l, ls => match Bar.runs cfg s (bsched l) with
    | .ok s' => match ls with
      | [] => f s'
      | l' :: ls' => bAllDone s' && (match Bar.again cfg s'.crit s'.bars with
        | some s'' => bcalls cfg f s'' l' ls'
        | none => false)
    | _ => false

theorem bsession_runs {cfg : SolverCfg σ} {stop sharp : Bool} (l : List (Nat × Bool)) (hl : stop = false → l.all (fun x => !x.2) = true) :
    ∀ s s' : BSys σ cfg.fr.F, BSession cfg stop sharp s → Bar.runs cfg s (bsched l) = .ok s' → BSession cfg stop sharp s' := by
  induction l with
  | nil => intro s s' h hs; cases hs; exact h
  | cons x l ih =>
    intro s s' h hs
    simp only [bsched, List.map_cons, Bar.runs] at hs
    split at hs
    · rename_i s1 h1
      refine ih (fun e => by have := hl e; simp only [List.all_cons, Bool.and_eq_true] at this; exact this.2) s1 s' (.step (l := .run x.1 x.2 orc none) h orc_valid ?_ (fun _ => rfl) h1) hs
      intro e
      have := hl e
      simp only [List.all_cons, Bool.and_eq_true, Bool.not_eq_true'] at this
      exact this.1
    · cases hs
    · cases hs

theorem bcalls_spec {cfg : SolverCfg σ} {stop sharp : Bool} {f : BSys σ cfg.fr.F → Bool} : ∀ (ls : List (List (Nat × Bool))) (l : List (Nat × Bool)) (s : BSys σ cfg.fr.F),
    BSession cfg stop sharp s → (stop = false → (l :: ls).all (fun l => l.all fun x => !x.2) = true) → bcalls cfg f s l ls = true → ∃ s', BSession cfg stop sharp s' ∧ f s' = true := by
  intro ls
  induction ls with
  | nil =>
    intro l s h hl hc
    unfold bcalls at hc
    split at hc
    · rename_i s' h1
      exact ⟨s', bsession_runs l (fun e => by simpa using hl e) s s' h h1, hc⟩
    · cases hc
  | cons l' ls ih =>
    intro l s h hl hc
    unfold bcalls at hc
    split at hc
    · rename_i s1 h1
      simp only [Bool.and_eq_true] at hc
      obtain ⟨h2, hc⟩ := hc
      split at hc
      · rename_i s2 h3
        refine ih l' s2 (.again (bsession_runs l (fun e => ?_) s s1 h h1) (bAllDone_spec h2) h3) (fun e => ?_) hc
        · have := hl e; rw [List.all_cons, Bool.and_eq_true] at this; exact this.1
        · have := hl e; rw [List.all_cons, Bool.and_eq_true] at this; exact this.2
      · cases hc
    · cases hc

def bsession (cfg : SolverCfg σ) (l : List (Nat × Bool)) (ls : List (List (Nat × Bool))) (f : BSys σ cfg.fr.F → Bool) : Bool :=
  match Bar.init cfg with
  | none => false
  | some s => bcalls cfg f s l ls

theorem bsession_spec {cfg : SolverCfg σ} {stop sharp : Bool} {l : List (Nat × Bool)} {ls : List (List (Nat × Bool))} {f : BSys σ cfg.fr.F → Bool}
    (hl : stop = false → (l :: ls).all (fun l => l.all fun x => !x.2) = true) (h : bsession cfg l ls f = true) : ∃ s, BSession cfg stop sharp s ∧ f s = true := by
  unfold bsession at h
  split at h
  · cases h
  · rename_i s0 h0
    exact bcalls_spec ls l s0 (.first h0) hl h

end Verif.Inst
