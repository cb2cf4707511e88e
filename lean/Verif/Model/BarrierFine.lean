import Verif.Model.Barrier
/-!
Model of `src/solver/barrier.rs` and `src/mdd/with_barrier.rs` at the level of single accesses to the shared barrier; line numbers without a prefix refer to the
former file, `B:n` to the latter.

In `Model/Barrier.lean` a whole `get_workload` and a whole compilation are one step each, and what the other threads do meanwhile is hidden in the
view of the step.  Here one step makes at most one access to the barrier (one acquisition of the read-write lock of a layer), and the mutex of the critical
data is explicit: `get_workload` holds it while it reads, writes and clears the barrier, the compilations access the barrier without it.  So the state is that of
`Model/Barrier.lean` plus the holder of the mutex and, for each thread, how far it is within a `get_workload` or a compilation.

The remaining simplification is that computations which access nothing shared are part of the step after or before them.
-/
set_option autoImplicit false

namespace Verif
variable {σ : Type} [DecidableEq σ] [Inhabited σ]

/-- What a compilation does when it has stored the thresholds it has computed so far. -/
inductive Cont (σ : Type) where
  /-- next iteration of the loop: iterations allowed, depth, diagram, the layer just expanded -/
  | more (fuel depth : Nat) (m : Dd σ) (currL : List Nat)
  /-- nothing -/
  | last (D : Dd σ)

/-- Where a compilation is (B:226-353). -/
inductive Work (σ : Type) where
  /-- at the top of the loop (B:264) -/
  | top (fuel depth : Nat) (m : Dd σ) (currL : List Nat)
  /-- about to call `is_empty` on the barrier of the layer (B:277) -/
  | look (fuel depth var : Nat) (m : Dd σ) (currL : List Nat)
  /-- in `retain_mut` (B:279-294): nodes still to be tested, nodes kept -/
  | prune (fuel depth var : Nat) (m : Dd σ) (todo kept : List Nat)
  /-- in `try_update_barrier`, about to read (B:620-626), for each of the list in turn -/
  | test (us : List (Update σ)) (k : Cont σ)
  /-- in `try_update_barrier`, about to write (B:628-630) -/
  | write (u : Update σ) (us : List (Update σ)) (k : Cont σ)

/-- Outcome of a step of a compilation. -/
inductive WorkRes (σ : Type) where
  | panic
  | next (w : Work σ) (b : Bars σ)
  | finished (D : Dd σ)

namespace Fine
variable (cfg : SolverCfg σ)

/-- B:297-338: the rest of an iteration, up to its first store.  The stores of the iteration are performed one by one afterwards; the expansion of the nodes
in between does not depend on them. -/
def layerEnd (o : Oracle σ) (inp : Input σ) (fuel depth var : Nat) (m : Dd σ) (currL : List Nat) : Option (Work σ) :=
  match m.squashLayer .barrier o cfg.rank cfg.r inp inp.residual.path.length depth currL with
  | none => none
  | some (m1, l) =>
    let m2 := l.foldl (Dd.expandOne .barrier cfg.p inp var depth) m1
    some (.test (m2.updates.drop m.updates.length) (.more fuel (depth + 1) m2 l))

/-- B:264-277: the beginning of an iteration, up to the first access to the barrier; `none` is an endless loop. -/
def layerTop (o : Oracle σ) (inp : Input σ) : Nat → Nat → Dd σ → List Nat → Option (Work σ)
  | 0, _, _, _ => none
  | fuel + 1, depth, m, currL =>
    let order := o.hashOrd m.nextL
    match cfg.p.nextVar (order.map (·.1)) with
    | none =>
      let D := m.finish .barrier o inp
      some (.test (D.updates.drop m.updates.length) (.last D))
    | some var =>
      let m := { m with prevL := currL, nextL := [] }
      let currL := order.map (·.2)
      if currL.isEmpty then some (.test [] (.last m))
      else if depth > inp.residual.path.length then some (.look fuel depth var m currL)
      else layerEnd cfg o inp fuel depth var m currL

/-- One step of a compilation. -/
def stepWork (o : Oracle σ) (inp : Input σ) (b : Bars σ) : Work σ → WorkRes σ
  | .top fuel depth m currL =>
    match layerTop cfg o inp fuel depth m currL with
    | none => .panic
    | some w => .next w b
  | .look fuel depth var m currL =>
    match b[depth]? with
    | none => .panic
    | some l =>
      if l.isEmpty then
        match layerEnd cfg o inp fuel depth var m currL with
        | none => .panic
        | some w => .next w b
      else .next (.prune fuel depth var m currL []) b
  | .prune fuel depth var m [] kept =>
    match layerEnd cfg o inp fuel depth var m kept with
    | none => .panic
    | some w => .next w b
  | .prune fuel depth var m (i :: todo) kept =>
    if depth < b.length then
      let r := Dd.pruneOne b.view.reads depth (m, kept) i
      .next (.prune fuel depth var r.1 todo r.2) b
    else .panic
  | .test [] (.more fuel depth m currL) => .next (.top fuel depth m currL) b
  | .test [] (.last D) => .finished D
  | .test (u :: us) k =>
    if u.depth < b.length then
      if Bars.improves (b.get u.depth u.state) u.theta u.explored then .next (.write u us k) b else .next (.test us k) b
    else .panic
  | .write u us k =>
    match b.insert u.depth u.state { theta := u.theta, explored := u.explored } with
    | none => .panic
    | some b => .next (.test us k) b

end Fine

/-- How far a thread is within a `get_workload` or a compilation. -/
inductive Sub (σ : Type) (F : Type) where
  /-- holds the mutex, in the loop that cleans up the barrier (331-335) -/
  | clean
  /-- holds the mutex, in the loop that looks for a node to explore (372-412) -/
  | pop
  /-- holds the mutex, about to store the threshold of the node it will explore (395); fringe and counters without that node -/
  | take (n : SubProblem σ) (f : F) (ob : List Nat)
  /-- compiles a diagram -/
  | comp (o : Oracle σ) (w : Work σ)

structure FSys (σ : Type) (F : Type) where
  sys : BSys σ F
  /-- who holds the mutex of the critical data between steps -/
  holder : Option Nat
  sub : Nat → Option (Sub σ F)

inductive FLbl (σ : Type) where
  /-- The thread performs its next step; `intr` is the answer of `interrupt()` should it be asked, `o` resolves hash order and ties. -/
  | run (i : Nat) (intr : Bool) (o : Oracle σ)
  /-- A spurious wake-up. -/
  | spurious (i : Nat)

namespace Fine
variable (cfg : SolverCfg σ)

/-- `sub` with a new entry for `i` -/
def setSub {α : Type} (f : Nat → Option α) (i : Nat) (x : Option α) : Nat → Option α := fun j => if j = i then x else f j

/-- 337-371: after the clean-up -/
def decideWork (s : FSys σ cfg.fr.F) (i : Nat) (t : BThread σ) (intr : Bool) : Res (FSys σ cfg.fr.F) :=
  let c := s.sys.crit
  let release (c : BCrit σ cfg.fr.F) (pc : BPc σ) : Res (FSys σ cfg.fr.F) :=
    .ok { sys := { s.sys with crit := c, threads := s.sys.threads.set i { t with pc := pc } }, holder := none, sub := setSub s.sub i none }
  if c.ongoing = 0 ∧ cfg.fr.len c.fringe = 0 then release { c with bestUb := c.bestLb } .done
  else if c.interrupted then release c .done
  else if intr then
    if c.ongoing > 0 then release { c with interrupted := true, bestUb := Par.ongoingUb c.upperBounds, fringe := cfg.fr.clear c.fringe } .done
    else
      match cfg.fr.pop c.fringe with
      | some (f, some nn) => release { c with interrupted := true, bestUb := nn.ub, fringe := cfg.fr.clear f } .done
      | _ => .panic
  else if cfg.fr.len c.fringe = 0 then release c .waiting
  else .ok { s with sub := setSub s.sub i (some .pop) }

/-- One step of a thread that is within a `get_workload` or a compilation. -/
def stepSub (s : FSys σ cfg.fr.F) (i : Nat) (t : BThread σ) (intr : Bool) : Sub σ cfg.fr.F → Res (FSys σ cfg.fr.F)
  | .clean =>
    let c := s.sys.crit
    if c.lowest < cfg.p.nbVars then
      match c.openBy[c.lowest]?, c.ongoingBy[c.lowest]? with
      | some x, some y =>
        if x + y = 0 then
          match s.sys.bars.clear c.lowest with
          | none => .panic
          | some b => .ok { s with sys := { s.sys with crit := { c with lowest := c.lowest + 1 }, bars := b } }
        else decideWork cfg s i t intr
      | _, _ => .panic
    else decideWork cfg s i t intr
  | .pop =>
    let c := s.sys.crit
    match cfg.fr.pop c.fringe with
    | some (f, some nn) =>
      if nn.ub ≤ c.bestLb then
        .ok { sys := { s.sys with crit := { c with fringe := cfg.fr.clear f, openBy := c.openBy.map fun _ => 0 } }
              holder := none, sub := setSub s.sub i none }
      else if nn.path.length < s.sys.bars.length then
        match Bar.decAt c.openBy nn.path.length with
        | none => .panic
        | some ob =>
          if Bar.mustExplore (s.sys.bars.get nn.path.length nn.state) nn.value then .ok { s with sub := setSub s.sub i (some (.take nn f ob)) }
          else if cfg.fr.len f = 0 then
            .ok { sys := { s.sys with crit := { c with fringe := f, openBy := ob } }, holder := none, sub := setSub s.sub i none }
          else .ok { s with sys := { s.sys with crit := { c with fringe := f, openBy := ob } } }
      else .panic
    | _ => .panic
  | .take nn f ob =>
    let c := s.sys.crit
    match s.sys.bars.insert nn.path.length nn.state { theta := nn.value, explored := true }, Bar.incAt c.ongoingBy nn.path.length with
    | some b, some gb =>
      if i < c.upperBounds.length then
        .ok { sys :=
                { crit := { c with
                    fringe := f
                    ongoing := c.ongoing + 1
                    explored := c.explored + 1
                    upperBounds := c.upperBounds.set i nn.ub
                    openBy := ob
                    ongoingBy := gb }
                  bars := b
                  threads := s.sys.threads.set i { t with pc := .start nn } }
              holder := none
              sub := setSub s.sub i none }
      else .panic
    | _, _ => .panic
  | .comp o w =>
    match t.pc with
    | .restr n lb =>
      match stepWork cfg o (Par.input cfg .restricted n lb) s.sys.bars w with
      | .panic => .panic
      | .next w b => .ok { s with sys := { s.sys with bars := b }, sub := setSub s.sub i (some (.comp o w)) }
      | .finished D =>
        -- `maybe_update_best` (251) waits for the mutex
        if s.holder = none then
          .ok { s with
            sys := { s.sys with
              crit := Bar.maybeUpdateBest cfg s.sys.crit D
              threads := s.sys.threads.set i { pc := if D.exact then .fin n.path.length D.explored else .relb n D.explored, mdd := D } }
            sub := setSub s.sub i none }
        else .blocked
    | .relx n lb dd =>
      match stepWork cfg o (Par.input cfg .relaxed n lb) s.sys.bars w with
      | .panic => .panic
      | .next w b => .ok { s with sys := { s.sys with bars := b }, sub := setSub s.sub i (some (.comp o w)) }
      | .finished D =>
        .ok { s with
          sys := { s.sys with threads := s.sys.threads.set i { pc := .post n (dd + D.explored), mdd := D } }
          sub := setSub s.sub i none }
    | _ => .blocked

/-- The thread begins to compile a diagram (B:232-262). -/
def beginComp (s : FSys σ cfg.fr.F) (i : Nat) (t : BThread σ) (o : Oracle σ) (inp : Input σ) : FSys σ cfg.fr.F :=
  { s with sub := setSub s.sub i (some (.comp o (.top (cfg.p.nbVars + 2) inp.residual.path.length (t.mdd.start inp) []))) }

/-- One step of the thread `i`. -/
def stepThread (s : FSys σ cfg.fr.F) (i : Nat) (t : BThread σ) (intr : Bool) (o : Oracle σ) : Res (FSys σ cfg.fr.F) :=
  match s.sub i with
  | some w => stepSub cfg s i t intr w
  | none =>
    match t.pc with
    | .waiting => .blocked
    | .done => .blocked
    -- 328: `get_workload` waits for the mutex
    | .idle => if s.holder = none then .ok { s with holder := some i, sub := setSub s.sub i (some .clean) } else .blocked
    | .restr n lb => .ok (beginComp cfg s i t o (Par.input cfg .restricted n lb))
    | .relx n lb _ => .ok (beginComp cfg s i t o (Par.input cfg .relaxed n lb))
    -- the other critical sections (268, 277, 288, 302) do not access the barrier
    | _ =>
      if s.holder = none then
        match Bar.stepThread cfg s.sys i t intr o none with
        | .ok s' => .ok { s with sys := s' }
        | .panic => .panic
        | .blocked => .blocked
      else .blocked

def step (s : FSys σ cfg.fr.F) : FLbl σ → Res (FSys σ cfg.fr.F)
  | .run i intr o =>
    match s.sys.threads[i]? with
    | none => .blocked
    | some t => stepThread cfg s i t intr o
  | .spurious i =>
    match s.sys.threads[i]? with
    | some t =>
      match t.pc with
      | .waiting => .ok { s with sys := { s.sys with threads := s.sys.threads.set i { t with pc := .idle } } }
      | _ => .blocked
    | none => .blocked

/-- The state right after the threads have been spawned. -/
def init : Option (FSys σ cfg.fr.F) := (Bar.init cfg).map fun s => ⟨s, none, fun _ => none⟩

/-- Performs the steps of a schedule. -/
def runs (s : FSys σ cfg.fr.F) : List (FLbl σ) → Res (FSys σ cfg.fr.F)
  | [] => .ok s
  | l :: ls =>
    match step cfg s l with
    | .ok s' => runs s' ls
    | .panic => .panic
    | .blocked => .blocked

end Fine
end Verif
