import Verif.Model.Parallel
/-!
Model of `src/solver/barrier.rs` (`BarrierParallelSolver`); line numbers without a prefix refer to that file, `B:n` to `src/mdd/with_barrier.rs`.

As in `Model/Parallel.lean`, one step = one critical section together with the thread-local computation before it.  What is new is the
barrier: one map per layer, each under its own read-write lock, read and written by the threads *outside* the critical section.  A compilation reads the
threshold of a given state at most once and never after having stored one for the same layer.  So all that other threads can do to a compilation
is to determine what it sees for each state.  This is the optional `View` in the label of a step:

* without a view, a step sees the contents of the barrier at that moment: all the reads of a compilation happen at once.  With one thread this is all that can
  happen; with several threads it is one of the possible interleavings;
* with arbitrary views every interleaving is included (and more), which is what the theorems about any number of threads use.

`Model/BarrierFine.lean` makes every access to the barrier a step; `Props/BarrierFine.lean` proves these two statements.

The relaxed compilation and its stores are one step, the critical section in which the cutset is pushed is the next one.
-/
set_option autoImplicit false

namespace Verif
variable {σ : Type} [DecidableEq σ] [Inhabited σ]

/-- B:48-51 -/
structure BarrierInfo where
  theta : Int
  explored : Bool
deriving Repr, DecidableEq

/-- One `FxHashMap` per layer (68-91, 157-161), as association lists. -/
abbrev Bars (σ : Type) := List (List (σ × BarrierInfo))

namespace Bars

/-- `barriers[d].read().get(s)`; a layer out of range is handled by the callers -/
def get (b : Bars σ) (d : Nat) (s : σ) : Option BarrierInfo := (b.getD d []).lookup s

/-- `barriers[d].write().insert(s, i)`; `none`: index out of range -/
def insert (b : Bars σ) (d : Nat) (s : σ) (i : BarrierInfo) : Option (Bars σ) :=
  match b[d]? with
  | none => none
  | some l => some (b.set d ((s, i) :: l.filter fun x => decide (x.1 ≠ s)))

/-- `barriers[d].write().clear()`; `none`: index out of range -/
def clear (b : Bars σ) (d : Nat) : Option (Bars σ) :=
  if d < b.length then some (b.set d []) else none

/-- The condition under which `try_update_barrier` stores (B:616-623). -/
def improves (old : Option BarrierInfo) (theta : Int) (explored : Bool) : Bool :=
  match old with
  | none => true
  | some i => decide (theta > i.theta) || (decide (theta = i.theta) && !i.explored && explored)

/-- B:613-631, when no other thread interferes between the test and the store. -/
def tryUpdate (b : Bars σ) (u : Update σ) : Option (Bars σ) :=
  if u.depth < b.length then
    if improves (b.get u.depth u.state) u.theta u.explored then b.insert u.depth u.state { theta := u.theta, explored := u.explored } else some b
  else none

/-- The stores of a compilation, in order. -/
def tryUpdates (b : Bars σ) : List (Update σ) → Option (Bars σ)
  | [] => some b
  | u :: us =>
    match b.tryUpdate u with
    | none => none
    | some b => tryUpdates b us

end Bars

/-- What a thread sees of the barrier while it performs a step. -/
structure View (σ : Type) where
  /-- `is_empty()` of a layer (B:277) -/
  isEmpty : Nat → Bool
  /-- `get(state)` of a layer during a compilation (B:284) -/
  get : Nat → σ → Option BarrierInfo
  /-- `get(state)` of a layer for a popped node (382); the same state may be popped more than once, so the first argument tells the iterations
  of the loop apart: it is the number of iterations still allowed -/
  pop : Nat → Nat → σ → Option BarrierInfo

/-- What a compilation uses of it. -/
def View.reads (v : View σ) : Reads σ := ⟨v.isEmpty, fun d s => (v.get d s).map BarrierInfo.theta⟩

/-- The current contents. -/
def Bars.view (b : Bars σ) : View σ := ⟨fun d => (b.getD d []).isEmpty, b.get, fun _ => b.get⟩

/-- 12-64 -/
structure BCrit (σ : Type) (F : Type) where
  fringe : F
  ongoing : Nat
  explored : Nat
  exploredDd : Nat
  openBy : List Nat
  ongoingBy : List Nat
  lowest : Nat
  bestLb : Int
  bestUb : Int
  bestSol : Option (List Decision)
  upperBounds : List Int
  interrupted : Bool

/-- Where a worker is. -/
inductive BPc (σ : Type) where
  /-- about to call `get_workload` (445, 491) -/
  | idle
  /-- parked in `monitor.wait` (368) -/
  | waiting
  /-- got a node, about to read `best_lb` (230) -/
  | start (n : SubProblem σ)
  /-- `best_lb` read, about to compile the restricted diagram (236-250) -/
  | restr (n : SubProblem σ) (lb : Int)
  /-- restricted diagram not exact, about to read `best_lb` again (256) -/
  | relb (n : SubProblem σ) (dd : Nat)
  /-- about to compile the relaxed diagram (257-260) -/
  | relx (n : SubProblem σ) (lb : Int) (dd : Nat)
  /-- relaxed diagram compiled, about to update the incumbent or to push the cutset (261-265) -/
  | post (n : SubProblem σ) (dd : Nat)
  /-- about to call `notify_node_finished` for a node of that depth (452, 498) -/
  | fin (depth : Nat) (dd : Nat)
  /-- left the loop (446-447) -/
  | done

structure BThread (σ : Type) where
  pc : BPc σ
  mdd : Dd σ

structure BSys (σ : Type) (F : Type) where
  crit : BCrit σ F
  bars : Bars σ
  threads : List (BThread σ)

inductive BLbl (σ : Type) where
  /-- The thread performs its next step; `intr` is the answer of `interrupt()` should it be asked, `o` resolves hash order and ties,
  `v` is what the thread sees of the barrier (`none`: its contents at that moment). -/
  | run (i : Nat) (intr : Bool) (o : Oracle σ) (v : Option (View σ))
  /-- A spurious wake-up. -/
  | spurious (i : Nat)

namespace Bar
variable (cfg : SolverCfg σ)

/-- `v[d] += 1` on a vector of counters -/
def incAt (l : List Nat) (d : Nat) : Option (List Nat) :=
  match l[d]? with
  | none => none
  | some k => some (l.set d (k + 1))

/-- `v[d] -= 1` on a vector of `usize`: zero panics -/
def decAt (l : List Nat) (d : Nat) : Option (List Nat) :=
  match l[d]? with
  | some (k + 1) => some (l.set d k)
  | _ => none

/-- 331-335; the first argument bounds the number of iterations -/
def cleanup : Nat → BCrit σ cfg.fr.F → Bars σ → Option (BCrit σ cfg.fr.F × Bars σ)
  | 0, _, _ => none
  | fuel + 1, c, b =>
    if c.lowest < cfg.p.nbVars then
      match c.openBy[c.lowest]?, c.ongoingBy[c.lowest]? with
      | some x, some y =>
        if x + y = 0 then
          match b.clear c.lowest with
          | none => none
          | some b => cleanup fuel { c with lowest := c.lowest + 1 } b
        else some (c, b)
      | _, _ => none
    else some (c, b)

/-- 383: the node has to be explored -/
def mustExplore (info : Option BarrierInfo) (value : Int) : Bool :=
  match info with
  | none => true
  | some i => decide (value > i.theta) || (decide (value = i.theta) && !i.explored)

/-- What a step with view `v` sees of the barrier `b`. -/
def seen (v : Option (View σ)) (b : Bars σ) : View σ := v.getD b.view

/-- 372-412; the first argument bounds the number of iterations -/
def popLoop (i : Nat) (v : Option (View σ)) : Nat → BCrit σ cfg.fr.F → Bars σ → Option (BCrit σ cfg.fr.F × Bars σ × WorkLoad σ)
  | 0, _, _ => none
  | fuel + 1, c, b =>
    match cfg.fr.pop c.fringe with
    | some (f, some nn) =>
      if nn.ub ≤ c.bestLb then
        some ({ c with fringe := cfg.fr.clear f, openBy := c.openBy.map fun _ => 0 }, b, .starvation)
      else if nn.path.length < b.length then
        match decAt c.openBy nn.path.length with
        | none => none
        | some ob =>
          if mustExplore ((seen v b).pop fuel nn.path.length nn.state) nn.value then
            match b.insert nn.path.length nn.state { theta := nn.value, explored := true }, incAt c.ongoingBy nn.path.length with
            | some b, some gb =>
              if i < c.upperBounds.length then
                some ({ c with
                  fringe := f
                  ongoing := c.ongoing + 1
                  explored := c.explored + 1
                  upperBounds := c.upperBounds.set i nn.ub
                  openBy := ob
                  ongoingBy := gb }, b, .item nn)
              else none
            | _, _ => none
          else if cfg.fr.len f = 0 then some ({ c with fringe := f, openBy := ob }, b, .starvation)
          else popLoop i v fuel { c with fringe := f, openBy := ob } b
      else none
    | _ => none

/-- 320-413; `none` is a panic. -/
def getWorkload (c : BCrit σ cfg.fr.F) (b : Bars σ) (i : Nat) (intr : Bool) (v : Option (View σ)) : Option (BCrit σ cfg.fr.F × Bars σ × WorkLoad σ) :=
  match cleanup cfg (cfg.p.nbVars + 1) c b with
  | none => none
  | some (c, b) =>
    if c.ongoing = 0 ∧ cfg.fr.len c.fringe = 0 then some ({ c with bestUb := c.bestLb }, b, .complete)
    else if c.interrupted then some (c, b, .interruption)
    else if intr then
      if c.ongoing > 0 then
        some ({ c with interrupted := true, bestUb := Par.ongoingUb c.upperBounds, fringe := cfg.fr.clear c.fringe }, b, .interruption)
      else
        match cfg.fr.pop c.fringe with
        | some (f, some nn) => some ({ c with interrupted := true, bestUb := nn.ub, fringe := cfg.fr.clear f }, b, .interruption)
        | _ => none
    else if cfg.fr.len c.fringe = 0 then some (c, b, .wait)
    else popLoop cfg i v (cfg.fr.len c.fringe) c b

/-- 277-284 -/
def maybeUpdateBest (c : BCrit σ cfg.fr.F) (D : Dd σ) : BCrit σ cfg.fr.F :=
  let v := D.bestValue.getD isizeMin
  if v > c.bestLb then { c with bestLb := v, bestSol := D.bestSolution } else c

/-- 291-298: the closure passed to `drain_cutset`; `none` is a panic -/
def pushCutset (ub : Int) : BCrit σ cfg.fr.F → List (SubProblem σ) → Option (BCrit σ cfg.fr.F)
  | c, [] => some c
  | c, n :: l =>
    let n := { n with ub := min ub n.ub }
    if n.ub > c.bestLb then
      match cfg.fr.push c.fringe n, incAt c.openBy n.path.length with
      | some f, some ob => pushCutset ub { c with fringe := f, openBy := ob } l
      | _, _ => none
    else pushCutset ub c l

/-- `notify_all` (308) -/
def wake (t : BThread σ) : BThread σ :=
  match t.pc with
  | .waiting => { t with pc := .idle }
  | _ => t

/-- One step of the thread `i` (220-309, 440-456, 485-505). -/
def stepThread (s : BSys σ cfg.fr.F) (i : Nat) (t : BThread σ) (intr : Bool) (o : Oracle σ) (v : Option (View σ)) : Res (BSys σ cfg.fr.F) :=
  let put (c : BCrit σ cfg.fr.F) (b : Bars σ) (t' : BThread σ) : Res (BSys σ cfg.fr.F) := .ok { crit := c, bars := b, threads := s.threads.set i t' }
  match t.pc with
  | .waiting => .blocked
  | .done => .blocked
  | .idle =>
    match getWorkload cfg s.crit s.bars i intr v with
    | none => .panic
    | some (c, b, .complete) => put c b { t with pc := .done }
    | some (c, b, .interruption) => put c b { t with pc := .done }
    | some (c, b, .starvation) => put c b t
    | some (c, b, .wait) => put c b { t with pc := .waiting }
    | some (c, b, .item n) => put c b { t with pc := .start n }
  | .start n =>
    if n.ub ≤ s.crit.bestLb then put s.crit s.bars { t with pc := .fin n.path.length 0 }
    else put s.crit s.bars { t with pc := .restr n s.crit.bestLb }
  | .restr n lb =>
    match t.mdd.compile .barrier o cfg.p cfg.r cfg.rank (seen v s.bars).reads (Par.input cfg .restricted n lb) with
    | none => .panic
    | some D =>
      match s.bars.tryUpdates D.updates with
      | none => .panic
      | some b =>
        put (maybeUpdateBest cfg s.crit D) b { pc := if D.exact then .fin n.path.length D.explored else .relb n D.explored, mdd := D }
  | .relb n dd => put s.crit s.bars { t with pc := .relx n s.crit.bestLb dd }
  | .relx n lb dd =>
    match t.mdd.compile .barrier o cfg.p cfg.r cfg.rank (seen v s.bars).reads (Par.input cfg .relaxed n lb) with
    | none => .panic
    | some D =>
      match s.bars.tryUpdates D.updates with
      | none => .panic
      | some b => put s.crit b { pc := .post n (dd + D.explored), mdd := D }
  | .post n dd =>
    if t.mdd.exact then put (maybeUpdateBest cfg s.crit t.mdd) s.bars { t with pc := .fin n.path.length dd }
    else
      match pushCutset cfg n.ub s.crit t.mdd.drainCutset with
      | none => .panic
      | some c => put c s.bars { pc := .fin n.path.length dd, mdd := { t.mdd with cutset := [] } }
  | .fin depth dd =>
    if s.crit.ongoing = 0 ∨ ¬ i < s.crit.upperBounds.length then .panic
    else
      match decAt s.crit.ongoingBy depth with
      | none => .panic
      | some gb =>
        .ok { crit := { s.crit with
                ongoing := s.crit.ongoing - 1
                upperBounds := s.crit.upperBounds.set i isizeMax
                ongoingBy := gb
                exploredDd := s.crit.exploredDd + dd }
              bars := s.bars
              threads := (s.threads.set i { t with pc := .idle }).map wake }

def step (s : BSys σ cfg.fr.F) : BLbl σ → Res (BSys σ cfg.fr.F)
  | .run i intr o v =>
    match s.threads[i]? with
    | none => .blocked
    | some t => stepThread cfg s i t intr o v
  | .spurious i =>
    match s.threads[i]? with
    | some t =>
      match t.pc with
      | .waiting => .ok { s with threads := s.threads.set i { t with pc := .idle } }
      | _ => .blocked
    | none => .blocked

/-- The state right after the threads have been spawned (149-189, 199-214, 436-443, 481-490), for a new solver.
`none`: pushing the root panicked. -/
def init : Option (BSys σ cfg.fr.F) :=
  match cfg.fr.push cfg.fr.new (Par.rootNode cfg), incAt (List.replicate (cfg.p.nbVars + 1) 0) 0 with
  | some f, some ob =>
    some
      { crit :=
          { fringe := f
            ongoing := 0
            explored := 0
            exploredDd := 0
            openBy := ob
            ongoingBy := List.replicate (cfg.p.nbVars + 1) 0
            lowest := 0
            bestLb := isizeMin
            bestUb := isizeMax
            bestSol := none
            upperBounds := List.replicate cfg.custom isizeMax
            interrupted := false }
        bars := List.replicate (cfg.p.nbVars + 1) []
        threads := List.replicate cfg.nbThreads { pc := .idle, mdd := Dd.new cfg.cutset } }
  | _, _ => none

/-- A further call of `maximize` or `maximize_with_interrupt` on a solver with the critical data `c` and the barrier `b` (199-204, 436-443, 481-490): the root is pushed on
the frontier as it is and counted, everything else (best solution, bounds, counters, lowest active layer, thresholds, the flag `interrupted`) is kept, and new threads are
spawned.  `none`: pushing the root panicked. -/
def again (c : BCrit σ cfg.fr.F) (b : Bars σ) : Option (BSys σ cfg.fr.F) :=
  match cfg.fr.push c.fringe (Par.rootNode cfg), incAt c.openBy 0 with
  | some f, some ob =>
    some
      { crit := { c with fringe := f, openBy := ob }
        bars := b
        threads := List.replicate cfg.nbThreads { pc := .idle, mdd := Dd.new cfg.cutset } }
  | _, _ => none

/-- Performs the steps of a schedule. -/
def runs (s : BSys σ cfg.fr.F) : List (BLbl σ) → Res (BSys σ cfg.fr.F)
  | [] => .ok s
  | l :: ls =>
    match step cfg s l with
    | .ok s' => runs s' ls
    | .panic => .panic
    | .blocked => .blocked

/-- 462-464 -/
def bestSolution (c : BCrit σ cfg.fr.F) : Option (List Decision) := c.bestSol
/-- 467-470 -/
def bestValue (c : BCrit σ cfg.fr.F) : Option Int := c.bestSol.map fun _ => c.bestLb
/-- 508-513: `maximize_with_interrupt` returned `Proved`. -/
def proved (c : BCrit σ cfg.fr.F) : Bool := !c.interrupted
/-- 524-526 -/
def bestLowerBound (c : BCrit σ cfg.fr.F) : Int := c.bestLb
/-- 528-530 -/
def bestUpperBound (c : BCrit σ cfg.fr.F) : Int := c.bestUb
/-- 415-417 -/
def getExplored (c : BCrit σ cfg.fr.F) : Nat := c.explored

/-- 419-421 -/
def getExploredDd (c : BCrit σ cfg.fr.F) : Nat := c.exploredDd

end Bar
end Verif
