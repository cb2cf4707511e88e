import Verif.Model.BarrierFine
/-! `get_workload` cut into pieces. -/
set_option autoImplicit false

namespace Verif.Fine
open Verif Bar
variable {σ : Type} [DecidableEq σ] [Inhabited σ] {cfg : SolverCfg σ}

/-- The part of `get_workload` after the clean-up. -/
def tail (cfg : SolverCfg σ) (i : Nat) (v : Option (View σ)) (intr : Bool) (c : BCrit σ cfg.fr.F) (b : Bars σ) : Option (BCrit σ cfg.fr.F × Bars σ × WorkLoad σ) :=
  if c.ongoing = 0 ∧ cfg.fr.len c.fringe = 0 then some ({ c with bestUb := c.bestLb }, b, .complete)
  else if c.interrupted then some (c, b, .interruption)
  else if intr then
    if c.ongoing > 0 then
      some ({ c with interrupted := true, bestUb := Par.ongoingUb c.upperBounds, fringe := cfg.fr.clear c.fringe }, b, .interruption)
    else
      match cfg.fr.pop c.fringe with
      | some (f, some nn) => some ({ c with interrupted := true, bestUb := nn.ub, fringe := cfg.fr.clear f }, b, .interruption)
      | _ => none
  else if cfg.fr.len c.fringe = 0 then some (c, b, .wait)
  else popLoop cfg i v (cfg.fr.len c.fringe) c b

/-- The rest of `get_workload` during the clean-up. -/
def restClean (cfg : SolverCfg σ) (i : Nat) (v : Option (View σ)) (intr : Bool) (fuel : Nat) (c : BCrit σ cfg.fr.F) (b : Bars σ) :
    Option (BCrit σ cfg.fr.F × Bars σ × WorkLoad σ) :=
  match cleanup cfg fuel c b with
  | none => none
  | some (c, b) => tail cfg i v intr c b

/-- The rest of `get_workload` once a node to explore has been found. -/
def restTake (cfg : SolverCfg σ) (i : Nat) (n : SubProblem σ) (f : cfg.fr.F) (ob : List Nat) (c : BCrit σ cfg.fr.F) (b : Bars σ) :
    Option (BCrit σ cfg.fr.F × Bars σ × WorkLoad σ) :=
  match b.insert n.path.length n.state { theta := n.value, explored := true }, incAt c.ongoingBy n.path.length with
  | some b, some gb =>
    if i < c.upperBounds.length then
      some ({ c with
        fringe := f
        ongoing := c.ongoing + 1
        explored := c.explored + 1
        upperBounds := c.upperBounds.set i n.ub
        openBy := ob
        ongoingBy := gb }, b, .item n)
    else none
  | _, _ => none

theorem getWorkload_eq (c : BCrit σ cfg.fr.F) (b : Bars σ) (i : Nat) (intr : Bool) (v : Option (View σ)) :
    getWorkload cfg c b i intr v = restClean cfg i v intr (cfg.p.nbVars + 1) c b := rfl

theorem restClean_succ (i : Nat) (v : Option (View σ)) (intr : Bool) (fuel : Nat) (c : BCrit σ cfg.fr.F) (b : Bars σ) :
    restClean cfg i v intr (fuel + 1) c b =
      if c.lowest < cfg.p.nbVars then
        match c.openBy[c.lowest]?, c.ongoingBy[c.lowest]? with
        | some x, some y =>
          if x + y = 0 then
            match b.clear c.lowest with
            | none => none
            | some b => restClean cfg i v intr fuel { c with lowest := c.lowest + 1 } b
          else tail cfg i v intr c b
        | _, _ => none
      else tail cfg i v intr c b := by
  unfold restClean
  rw [cleanup]
  by_cases h1 : c.lowest < cfg.p.nbVars
  · rw [if_pos h1, if_pos h1]
    cases c.openBy[c.lowest]? with
    | none => rfl
    | some x =>
      cases c.ongoingBy[c.lowest]? with
      | none => rfl
      | some y =>
        simp only
        by_cases h2 : x + y = 0
        · rw [if_pos h2, if_pos h2]
          cases b.clear c.lowest with
          | none => rfl
          | some b => rfl
        · rw [if_neg h2, if_neg h2]
  · rw [if_neg h1, if_neg h1]

theorem popLoop_succ (i : Nat) (v : Option (View σ)) (fuel : Nat) (c : BCrit σ cfg.fr.F) (b : Bars σ) :
    popLoop cfg i v (fuel + 1) c b =
      match cfg.fr.pop c.fringe with
      | some (f, some nn) =>
        if nn.ub ≤ c.bestLb then
          some ({ c with fringe := cfg.fr.clear f, openBy := c.openBy.map fun _ => 0 }, b, .starvation)
        else if nn.path.length < b.length then
          match decAt c.openBy nn.path.length with
          | none => none
          | some ob =>
            if mustExplore ((seen v b).pop fuel nn.path.length nn.state) nn.value then restTake cfg i nn f ob c b
            else if cfg.fr.len f = 0 then some ({ c with fringe := f, openBy := ob }, b, .starvation)
            else popLoop cfg i v fuel { c with fringe := f, openBy := ob } b
        else none
      | _ => none := by
  rw [popLoop]
  rfl

end Verif.Fine
