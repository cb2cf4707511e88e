import Verif.Model.Crash
/-!
Workers without a cell in `upper_bounds` (`src/solver/parallel.rs:174-177`: `with_nb_threads` changes the number of workers, not the length of that vector).

The same holds for the solver with a barrier (`src/solver/barrier.rs:190-194`).

Such a worker panics in `get_workload` when it has got a node, at `critical.upper_bounds[thread_id] = nn.ub`, after the node has been taken off the frontier and counted (`parallel.rs:343-351`).  In a
build that unwinds the lock is released (the mutex knows no poisoning), and the node is lost.
-/
set_option autoImplicit false

namespace Verif.Par
variable {σ : Type} [DecidableEq σ] [Inhabited σ] (cfg : SolverCfg σ)

/-- The worker `i` takes a node and panics (`parallel.rs:297-351`); `none`: this does not happen now. -/
def strayStep (s : Torn (Sys σ cfg.fr.F)) (i : Nat) : Option (Torn (Sys σ cfg.fr.F)) :=
  if i ∈ s.dead then none
  else match s.sys.threads[i]? with
    | none => none
    | some t =>
      match t.pc with
      | .idle =>
        let c := s.sys.crit
        if (c.ongoing = 0 ∧ cfg.fr.len c.fringe = 0) ∨ c.interrupted = true ∨ cfg.fr.len c.fringe = 0 ∨ i < c.upperBounds.length then none
        else
          match cfg.fr.pop c.fringe with
          | some (f, some nn) =>
            if nn.ub ≤ c.bestLb then none
            else some { sys := { s.sys with crit := { c with fringe := f, ongoing := c.ongoing + 1, explored := c.explored + 1 } }, dead := i :: s.dead }
          | _ => none
      | _ => none

/-- One step of a run in which workers may panic while they compile a diagram or take a node. -/
def fallStep (s : Torn (Sys σ cfg.fr.F)) : Fate (Lbl σ) → Option (Torn (Sys σ cfg.fr.F))
  | .step l => tornStep cfg s (.step l)
  | .crash i =>
    match tornStep cfg s (.crash i) with
    | some s' => some s'
    | none => strayStep cfg s i

/-- Performs the steps of a schedule. -/
def fallRuns (s : Torn (Sys σ cfg.fr.F)) : List (Fate (Lbl σ)) → Option (Torn (Sys σ cfg.fr.F))
  | [] => some s
  | l :: ls => (fallStep cfg s l).bind fun s => fallRuns s ls

end Verif.Par

namespace Verif.Bar
variable {σ : Type} [DecidableEq σ] [Inhabited σ] (cfg : SolverCfg σ)

/-- `barrier.rs:372-406`: the loop up to the panic of a worker without a cell, which happens after the node has been entered into the barrier and counted, but before the counters of its layer change;
`none`: this does not happen. -/
def strayLoop (i : Nat) (v : Option (View σ)) : Nat → BCrit σ cfg.fr.F → Bars σ → Option (BCrit σ cfg.fr.F × Bars σ)
  | 0, _, _ => none
  | fuel + 1, c, b =>
    match cfg.fr.pop c.fringe with
    | some (f, some nn) =>
      if nn.ub ≤ c.bestLb then none
      else if nn.path.length < b.length then
        if mustExplore ((seen v b).pop fuel nn.path.length nn.state) nn.value then
          match b.insert nn.path.length nn.state { theta := nn.value, explored := true } with
          | some b => if i < c.upperBounds.length then none else some ({ c with fringe := f, ongoing := c.ongoing + 1, explored := c.explored + 1 }, b)
          | none => none
        else
          match decAt c.openBy nn.path.length with
          | none => none
          | some ob => if cfg.fr.len f = 0 then none else strayLoop i v fuel { c with fringe := f, openBy := ob } b
      else none
    | _ => none

/-- The worker `i` takes a node and panics (`barrier.rs:320-406`); `none`: this does not happen now. -/
def strayStep (s : Torn (BSys σ cfg.fr.F)) (i : Nat) (v : Option (View σ)) : Option (Torn (BSys σ cfg.fr.F)) :=
  if i ∈ s.dead then none
  else match s.sys.threads[i]? with
    | none => none
    | some t =>
      match t.pc with
      | .idle =>
        match cleanup cfg (cfg.p.nbVars + 1) s.sys.crit s.sys.bars with
        | none => none
        | some (c, b) =>
          if (c.ongoing = 0 ∧ cfg.fr.len c.fringe = 0) ∨ c.interrupted = true ∨ cfg.fr.len c.fringe = 0 then none
          else (strayLoop cfg i v (cfg.fr.len c.fringe) c b).map fun r => { sys := { s.sys with crit := r.1, bars := r.2 }, dead := i :: s.dead }
      | _ => none

/-- The labels of a run in which workers may also panic because they have no cell. -/
inductive Fall (σ : Type) where
  | torn (f : Fate (BLbl σ))
  | stray (i : Nat) (v : Option (View σ))

/-- One step of such a run; `none`: not possible. -/
def fallStep (s : Torn (BSys σ cfg.fr.F)) : Fall σ → Option (Torn (BSys σ cfg.fr.F))
  | .torn f => tornStep cfg s f
  | .stray i v => strayStep cfg s i v

/-- Performs the steps of a schedule. -/
def fallRuns (s : Torn (BSys σ cfg.fr.F)) : List (Fall σ) → Option (Torn (BSys σ cfg.fr.F))
  | [] => some s
  | l :: ls => (fallStep cfg s l).bind fun s => fallRuns s ls

end Verif.Bar
