import Verif.Model.Frontier
import Verif.Model.Mdd
/-!
Model of `src/solver/parallel.rs` (`ParallelSolver`); line numbers below refer to that file.

A run is a sequence of steps of a labelled transition system.  One step = one critical section (the code between `critical.lock()` and the release of
the lock) together with the thread-local computation that precedes it: local computations do not touch the shared data, so they commute with the steps of
other threads.  Which thread moves, what `interrupt()` answers and how hash order and ties in unstable sorts are resolved is chosen by the label.

Simplifications: the lock itself is not modelled (mutual exclusion is what makes a critical section one step); the condition variable is the set of
threads that wait on it; time is not modelled; `usize` counters are unbounded naturals, but `ongoing -= 1` on zero is a panic.
-/
set_option autoImplicit false

namespace Verif
variable {σ : Type} [DecidableEq σ] [Inhabited σ]

/-- The parameters of a solver (62-73, 98-108, 140-177). -/
structure SolverCfg (σ : Type) where
  p : Problem σ
  r : Relaxation σ
  rank : σ → σ → Ordering
  width : σ → Nat
  cutset : CutsetType
  fr : FrontierOps σ
  /-- The number of threads given to `new`/`custom` (118-128, 140-172): the length of `upper_bounds`. -/
  custom : Nat
  /-- The number of threads started (174-177 may change it). -/
  nbThreads : Nat

/-- 11-53 -/
structure Crit (σ : Type) (F : Type) where
  fringe : F
  ongoing : Nat
  explored : Nat
  exploredDd : Nat
  bestLb : Int
  bestUb : Int
  bestSol : Option (List Decision)
  upperBounds : List Int
  interrupted : Bool

/-- Where a worker is. -/
inductive Pc (σ : Type) where
  /-- about to call `get_workload` (386, 434) -/
  | idle
  /-- parked in `monitor.wait` (338) -/
  | waiting
  /-- got a node, about to read `best_lb` (211) -/
  | start (n : SubProblem σ)
  /-- `best_lb` read, about to compile the restricted diagram (217-231) -/
  | restr (n : SubProblem σ) (lb : Int)
  /-- restricted diagram not exact, about to read `best_lb` again (237) -/
  | relb (n : SubProblem σ) (dd : Nat)
  /-- about to compile the relaxed diagram (238-246) -/
  | relx (n : SubProblem σ) (lb : Int) (dd : Nat)
  /-- about to call `notify_node_finished` (393, 441) -/
  | fin (dd : Nat)
  /-- left the loop (387-388, 435-436) -/
  | done

structure Thread (σ : Type) where
  pc : Pc σ
  mdd : Dd σ

structure Sys (σ : Type) (F : Type) where
  crit : Crit σ F
  threads : List (Thread σ)

/-- 81-90; `wait` is the call of `monitor.wait` at line 338. -/
inductive WorkLoad (σ : Type) where
  | complete
  | interruption
  | starvation
  | wait
  | item (n : SubProblem σ)

inductive Lbl (σ : Type) where
  /-- The thread performs its next step; `intr` is the answer of `interrupt()` should it be asked, `o` resolves hash order and ties. -/
  | run (i : Nat) (intr : Bool) (o : Oracle σ)
  /-- A spurious wake-up. -/
  | spurious (i : Nat)

inductive Res (α : Type) where
  /-- not possible now -/
  | blocked
  | panic
  | ok (a : α)

namespace Par
variable (cfg : SolverCfg σ)

/-- 313-328: the bound recorded when the interruption is noticed while nodes are being processed. -/
def ongoingUb (ubs : List Int) : Int :=
  match ubs.filter (fun x => x ≠ isizeMax) with
  | [] => isizeMax
  | u :: us => us.foldl max u

/-- 297-354; `none` is a panic. -/
def getWorkload (c : Crit σ cfg.fr.F) (i : Nat) (intr : Bool) : Option (Crit σ cfg.fr.F × WorkLoad σ) :=
  if c.ongoing = 0 ∧ cfg.fr.len c.fringe = 0 then some ({ c with bestUb := c.bestLb }, .complete)
  else if c.interrupted then some (c, .interruption)
  else if intr then
    if c.ongoing > 0 then
      some ({ c with interrupted := true, bestUb := ongoingUb c.upperBounds, fringe := cfg.fr.clear c.fringe }, .interruption)
    else
      match cfg.fr.pop c.fringe with
      | some (f, some nn) => some ({ c with interrupted := true, bestUb := nn.ub, fringe := cfg.fr.clear f }, .interruption)
      | _ => none
  else if cfg.fr.len c.fringe = 0 then some (c, .wait)
  else
    match cfg.fr.pop c.fringe with
    | some (f, some nn) =>
      if nn.ub ≤ c.bestLb then some ({ c with fringe := cfg.fr.clear f }, .starvation)
      else if i < c.upperBounds.length then
        some ({ c with fringe := f, ongoing := c.ongoing + 1, explored := c.explored + 1, upperBounds := c.upperBounds.set i nn.ub }, .item nn)
      else none
    | _ => none

/-- 258-265 -/
def maybeUpdateBest (c : Crit σ cfg.fr.F) (D : Dd σ) : Crit σ cfg.fr.F :=
  let v := D.bestValue.getD isizeMin
  if v > c.bestLb then { c with bestLb := v, bestSol := D.bestSolution } else c

/-- 268-278: the closure passed to `drain_cutset`. -/
def pushCutset (bestLb ub : Int) : cfg.fr.F → List (SubProblem σ) → Option cfg.fr.F
  | f, [] => some f
  | f, n :: l =>
    let n := { n with ub := min ub n.ub }
    if n.ub > bestLb then
      match cfg.fr.push f n with
      | none => none
      | some f => pushCutset bestLb ub f l
    else pushCutset bestLb ub f l

/-- 268-278 -/
def enqueueCutset (c : Crit σ cfg.fr.F) (D : Dd σ) (ub : Int) : Option (Crit σ cfg.fr.F) :=
  match pushCutset cfg c.bestLb ub c.fringe D.drainCutset with
  | none => none
  | some f => some { c with fringe := f }

/-- `notify_all` (285): the waiting threads return from `get_workload` with `Starvation` and go round their loop. -/
def wake (t : Thread σ) : Thread σ :=
  match t.pc with
  | .waiting => { t with pc := .idle }
  | _ => t

/-- 217-229, 238-240 -/
def input (t : CompilationType) (n : SubProblem σ) (lb : Int) : Input σ :=
  { compType := t, maxWidth := cfg.width n.state, residual := n, bestLb := lb }

/-- One step of the thread `i` (201-249, 280-286, 382-398, 430-446). -/
def stepThread (s : Sys σ cfg.fr.F) (i : Nat) (t : Thread σ) (intr : Bool) (o : Oracle σ) : Res (Sys σ cfg.fr.F) :=
  let put (c : Crit σ cfg.fr.F) (t' : Thread σ) : Res (Sys σ cfg.fr.F) := .ok { crit := c, threads := s.threads.set i t' }
  match t.pc with
  | .waiting => .blocked
  | .done => .blocked
  | .idle =>
    match getWorkload cfg s.crit i intr with
    | none => .panic
    | some (c, .complete) => put c { t with pc := .done }
    | some (c, .interruption) => put c { t with pc := .done }
    | some (c, .starvation) => put c t
    | some (c, .wait) => put c { t with pc := .waiting }
    | some (c, .item n) => put c { t with pc := .start n }
  | .start n =>
    if n.ub ≤ s.crit.bestLb then put s.crit { t with pc := .fin 0 }
    else put s.crit { t with pc := .restr n s.crit.bestLb }
  | .restr n lb =>
    match t.mdd.compile .all o cfg.p cfg.r cfg.rank Reads.none (input cfg .restricted n lb) with
    | none => .panic
    | some D =>
      put (maybeUpdateBest cfg s.crit D) { pc := if D.exact then .fin D.explored else .relb n D.explored, mdd := D }
  | .relb n dd => put s.crit { t with pc := .relx n s.crit.bestLb dd }
  | .relx n lb dd =>
    match t.mdd.compile .all o cfg.p cfg.r cfg.rank Reads.none (input cfg .relaxed n lb) with
    | none => .panic
    | some D =>
      if D.exact then put (maybeUpdateBest cfg s.crit D) { pc := .fin (dd + D.explored), mdd := D }
      else
        match enqueueCutset cfg s.crit D n.ub with
        | none => .panic
        | some c => put c { pc := .fin (dd + D.explored), mdd := { D with cutset := [] } }
  | .fin dd =>
    if s.crit.ongoing = 0 ∨ ¬ i < s.crit.upperBounds.length then .panic
    else
      .ok { crit := { s.crit with
              ongoing := s.crit.ongoing - 1
              upperBounds := s.crit.upperBounds.set i isizeMax
              exploredDd := s.crit.exploredDd + dd }
            threads := (s.threads.set i { t with pc := .idle }).map wake }

def step (s : Sys σ cfg.fr.F) : Lbl σ → Res (Sys σ cfg.fr.F)
  | .run i intr o =>
    match s.threads[i]? with
    | none => .blocked
    | some t => stepThread cfg s i t intr o
  | .spurious i =>
    match s.threads[i]? with
    | some t =>
      match t.pc with
      | .waiting => .ok { s with threads := s.threads.set i { t with pc := .idle } }
      | _ => .blocked
    | none => .blocked

/-- 187-195 -/
def rootNode : SubProblem σ := { state := cfg.p.init, value := cfg.p.initVal, path := [], ub := isizeMax }

/-- The state right after the threads have been spawned (140-172, 182-185, 378-384, 423-432), for a solver that got a new frontier.
`none`: pushing the root panicked. -/
def init : Option (Sys σ cfg.fr.F) :=
  match cfg.fr.push cfg.fr.new (rootNode cfg) with
  | none => none
  | some f =>
    some
      { crit :=
          { fringe := f
            ongoing := 0
            explored := 0
            exploredDd := 0
            bestLb := isizeMin
            bestUb := isizeMax
            bestSol := none
            upperBounds := List.replicate cfg.custom isizeMax
            interrupted := false }
        threads := List.replicate cfg.nbThreads { pc := .idle, mdd := Dd.new cfg.cutset } }

/-- A further call of `maximize` or `maximize_with_interrupt` on a solver with the critical data `c` (182-185, 378-384, 423-432): the root is pushed on the frontier as it
is, everything else (best solution, bounds, counters, the flag `interrupted`) is kept, and new threads are spawned.  `none`: pushing the root panicked. -/
def again (c : Crit σ cfg.fr.F) : Option (Sys σ cfg.fr.F) :=
  match cfg.fr.push c.fringe (rootNode cfg) with
  | none => none
  | some f =>
    some
      { crit := { c with fringe := f }
        threads := List.replicate cfg.nbThreads { pc := .idle, mdd := Dd.new cfg.cutset } }

/-- Performs the steps of a schedule. -/
def runs (s : Sys σ cfg.fr.F) : List (Lbl σ) → Res (Sys σ cfg.fr.F)
  | [] => .ok s
  | l :: ls =>
    match step cfg s l with
    | .ok s' => runs s' ls
    | .panic => .panic
    | .blocked => .blocked

/-- 403-405 -/
def bestSolution (c : Crit σ cfg.fr.F) : Option (List Decision) := c.bestSol
/-- 408-411 -/
def bestValue (c : Crit σ cfg.fr.F) : Option Int := c.bestSol.map fun _ => c.bestLb
/-- 448-454: `maximize_with_interrupt` returned `Proved`. -/
def proved (c : Crit σ cfg.fr.F) : Bool := !c.interrupted
/-- 465-467 -/
def bestLowerBound (c : Crit σ cfg.fr.F) : Int := c.bestLb
/-- 469-471 -/
def bestUpperBound (c : Crit σ cfg.fr.F) : Int := c.bestUb
/-- 356-358 -/
def getExplored (c : Crit σ cfg.fr.F) : Nat := c.explored

/-- 360-362 -/
def getExploredDd (c : Crit σ cfg.fr.F) : Nat := c.exploredDd

end Par
end Verif
