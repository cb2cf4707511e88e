import Verif.Model.Crash
/-!
An `interrupt` that panics (`src/solver/parallel.rs:297-311`, `src/solver/barrier.rs:325-346`).

`get_workload` calls the function that the caller has given to `maximize_with_interrupt` while it holds the lock.  In a build that unwinds (all but release builds, `Cargo.toml:28`) a panic of this
function releases the lock (the mutex knows no poisoning) and ends this thread only.
-/
set_option autoImplicit false

namespace Verif.Par
variable {σ : Type} [DecidableEq σ] [Inhabited σ] (cfg : SolverCfg σ)

/-- `interrupt()` panics in the worker `i` (`parallel.rs:297-309`): it is called if the search is neither complete nor interrupted, and nothing has been changed until then; `none`: it is not called
now. -/
def askPanic (s : Torn (Sys σ cfg.fr.F)) (i : Nat) : Option (Torn (Sys σ cfg.fr.F)) :=
  if i ∈ s.dead then none
  else match s.sys.threads[i]? with
    | none => none
    | some t =>
      match t.pc with
      | .idle =>
        if (s.sys.crit.ongoing = 0 ∧ cfg.fr.len s.sys.crit.fringe = 0) ∨ s.sys.crit.interrupted = true then none
        else some { s with dead := i :: s.dead }
      | _ => none

/-- One step of a run in which `interrupt()` may panic; `none`: not possible. -/
def askStep (s : Torn (Sys σ cfg.fr.F)) : Fate (Lbl σ) → Option (Torn (Sys σ cfg.fr.F))
  | .step l => tornStep cfg s (.step l)
  | .crash i => askPanic cfg s i

/-- Performs the steps of a schedule. -/
def askRuns (s : Torn (Sys σ cfg.fr.F)) : List (Fate (Lbl σ)) → Option (Torn (Sys σ cfg.fr.F))
  | [] => some s
  | l :: ls => (askStep cfg s l).bind fun s => askRuns s ls

/-- One step of a run in which workers may panic in `interrupt()` and while they compile a diagram; `none`: not possible. -/
def mixStep (s : Torn (Sys σ cfg.fr.F)) : Fate (Lbl σ) → Option (Torn (Sys σ cfg.fr.F))
  | .step l => tornStep cfg s (.step l)
  | .crash i =>
    match tornStep cfg s (.crash i) with
    | some s' => some s'
    | none => askPanic cfg s i

/-- Performs the steps of a schedule. -/
def mixRuns (s : Torn (Sys σ cfg.fr.F)) : List (Fate (Lbl σ)) → Option (Torn (Sys σ cfg.fr.F))
  | [] => some s
  | l :: ls => (mixStep cfg s l).bind fun s => mixRuns s ls

/-- The worker `i` calls `interrupt()` in its next step (`parallel.rs:299-309`). -/
def asks (s : Sys σ cfg.fr.F) (i : Nat) : Bool :=
  match s.threads[i]? with
  | some t =>
    match t.pc with
    | .idle => !(decide (s.crit.ongoing = 0 ∧ cfg.fr.len s.crit.fringe = 0) || s.crit.interrupted)
    | _ => false
  | none => false

/-- The answer of `interrupt()` in a step, if it is called. -/
def heard (s : Sys σ cfg.fr.F) : Lbl σ → List Bool
  | .run i intr _ => if asks cfg s i then [intr] else []
  | .spurious _ => []

/-- The answers of `interrupt()` in a run. -/
def answers (s : Sys σ cfg.fr.F) : List (Lbl σ) → List Bool
  | [] => []
  | l :: ls =>
    match step cfg s l with
    | .ok s' => heard cfg s l ++ answers s' ls
    | _ => []

end Verif.Par

namespace Verif.Bar
variable {σ : Type} [DecidableEq σ] [Inhabited σ] (cfg : SolverCfg σ)

/-- `interrupt()` panics in the worker `i` (`barrier.rs:325-346`): the layers of the barrier that are not active any more have been cleared before; `none`: it is not called now. -/
def askPanic (s : Torn (BSys σ cfg.fr.F)) (i : Nat) : Option (Torn (BSys σ cfg.fr.F)) :=
  if i ∈ s.dead then none
  else match s.sys.threads[i]? with
    | none => none
    | some t =>
      match t.pc with
      | .idle =>
        match cleanup cfg (cfg.p.nbVars + 1) s.sys.crit s.sys.bars with
        | none => none
        | some (c, b) =>
          if (c.ongoing = 0 ∧ cfg.fr.len c.fringe = 0) ∨ c.interrupted = true then none
          else some { sys := { s.sys with crit := c, bars := b }, dead := i :: s.dead }
      | _ => none

/-- One step of a run in which `interrupt()` may panic; `none`: not possible. -/
def askStep (s : Torn (BSys σ cfg.fr.F)) : Fate (BLbl σ) → Option (Torn (BSys σ cfg.fr.F))
  | .step l => tornStep cfg s (.step l)
  | .crash i => askPanic cfg s i

/-- Performs the steps of a schedule. -/
def askRuns (s : Torn (BSys σ cfg.fr.F)) : List (Fate (BLbl σ)) → Option (Torn (BSys σ cfg.fr.F))
  | [] => some s
  | l :: ls => (askStep cfg s l).bind fun s => askRuns s ls

/-- One step of a run in which workers may panic in `interrupt()` and while they compile a diagram; `none`: not possible. -/
def mixStep (s : Torn (BSys σ cfg.fr.F)) : Fate (BLbl σ) → Option (Torn (BSys σ cfg.fr.F))
  | .step l => tornStep cfg s (.step l)
  | .crash i =>
    match tornStep cfg s (.crash i) with
    | some s' => some s'
    | none => askPanic cfg s i

/-- Performs the steps of a schedule. -/
def mixRuns (s : Torn (BSys σ cfg.fr.F)) : List (Fate (BLbl σ)) → Option (Torn (BSys σ cfg.fr.F))
  | [] => some s
  | l :: ls => (mixStep cfg s l).bind fun s => mixRuns s ls

/-- The worker `i` calls `interrupt()` in its next step (`barrier.rs:334-344`; the cleaning of the barrier before, 325-331, changes nothing of what is tested). -/
def asks (s : BSys σ cfg.fr.F) (i : Nat) : Bool :=
  match s.threads[i]? with
  | some t =>
    match t.pc with
    | .idle => !(decide (s.crit.ongoing = 0 ∧ cfg.fr.len s.crit.fringe = 0) || s.crit.interrupted)
    | _ => false
  | none => false

/-- The answer of `interrupt()` in a step, if it is called. -/
def heard (s : BSys σ cfg.fr.F) : BLbl σ → List Bool
  | .run i intr _ _ => if asks cfg s i then [intr] else []
  | .spurious _ => []

/-- The answers of `interrupt()` in a run. -/
def answers (s : BSys σ cfg.fr.F) : List (BLbl σ) → List Bool
  | [] => []
  | l :: ls =>
    match step cfg s l with
    | .ok s' => heard cfg s l ++ answers s' ls
    | _ => []

end Verif.Bar
