import Verif.Model.Barrier
/-!
Workers that panic (`src/solver/parallel.rs:381-399, 427-447`, `src/solver/barrier.rs:439-457, 484-505`).

A worker panics while it compiles a diagram if the user's code panics, or if the width is 0 (`src/mdd/with_all.rs:410`, `src/mdd/with_barrier.rs:466`).  In a build that unwinds (all but release builds, `Cargo.toml:28`)
the panic ends this thread only: no lock is held during a compilation, nothing of the shared data is taken back, and `notify_node_finished` is not called.  `std::thread::scope` waits until all
threads have ended, and then panics.
-/
set_option autoImplicit false

namespace Verif
variable {σ : Type} [DecidableEq σ] [Inhabited σ]

/-- The labels of a run in which workers may panic: a step, or the panic of a worker that compiles a diagram. -/
inductive Fate (α : Type) where
  | step (l : α)
  | crash (i : Nat)

/-- A state, and the workers that ended with a panic. -/
structure Torn (α : Type) where
  sys : α
  dead : List Nat

/-- The worker that moves. -/
def Lbl.who : Lbl σ → Nat
  | .run i _ _ => i
  | .spurious i => i

/-- The worker that moves. -/
def BLbl.who : BLbl σ → Nat
  | .run i _ _ _ => i
  | .spurious i => i

namespace Par
variable (cfg : SolverCfg σ)

/-- The worker is about to compile a diagram, or compiles it (`parallel.rs:229`, `parallel.rs:240`). -/
def compiling (t : Thread σ) : Bool :=
  match t.pc with
  | .restr _ _ => true
  | .relx _ _ _ => true
  | _ => false

/-- One step of a run in which workers may panic; `none`: not possible. -/
def tornStep (s : Torn (Sys σ cfg.fr.F)) : Fate (Lbl σ) → Option (Torn (Sys σ cfg.fr.F))
  | .step l =>
    if l.who ∈ s.dead then none
    else match Par.step cfg s.sys l with
      | .ok s' => some { s with sys := s' }
      | _ => none
  | .crash i =>
    if i ∈ s.dead then none
    else match s.sys.threads[i]? with
      | some t => if compiling t then some { s with dead := i :: s.dead } else none
      | none => none

/-- Performs the steps of a schedule. -/
def tornRuns (s : Torn (Sys σ cfg.fr.F)) : List (Fate (Lbl σ)) → Option (Torn (Sys σ cfg.fr.F))
  | [] => some s
  | l :: ls => (tornStep cfg s l).bind fun s => tornRuns s ls

end Par

namespace Bar
variable (cfg : SolverCfg σ)

/-- The worker is about to compile a diagram, or compiles it (`barrier.rs:248`, `barrier.rs:259`). -/
def compiling (t : BThread σ) : Bool :=
  match t.pc with
  | .restr _ _ => true
  | .relx _ _ _ => true
  | _ => false

/-- One step of a run in which workers may panic; `none`: not possible. -/
def tornStep (s : Torn (BSys σ cfg.fr.F)) : Fate (BLbl σ) → Option (Torn (BSys σ cfg.fr.F))
  | .step l =>
    if l.who ∈ s.dead then none
    else match Bar.step cfg s.sys l with
      | .ok s' => some { s with sys := s' }
      | _ => none
  | .crash i =>
    if i ∈ s.dead then none
    else match s.sys.threads[i]? with
      | some t => if compiling t then some { s with dead := i :: s.dead } else none
      | none => none

/-- Performs the steps of a schedule. -/
def tornRuns (s : Torn (BSys σ cfg.fr.F)) : List (Fate (BLbl σ)) → Option (Torn (BSys σ cfg.fr.F))
  | [] => some s
  | l :: ls => (tornStep cfg s l).bind fun s => tornRuns s ls

end Bar
end Verif
