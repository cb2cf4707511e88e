import Verif.Model.Mdd
/-!
What a dynamic program *means*, independently of any decision diagram, and what a user must guarantee about a problem and its
relaxation.

`Run p s ds v t`: starting in state `s`, the decisions `ds` (in the order they are taken) are all legal, cost `v` in total and lead to `t`.
A *completion* is a run that ends where no variable is left; a *solution* is a completion of the initial state.
-/
set_option autoImplicit false

namespace Verif.Spec
open Verif
variable {σ : Type}

/-- Legal sequences of decisions with their total cost (plain integer addition). -/
inductive Run (p : Problem σ) : σ → List Decision → Int → σ → Prop
  | nil (s : σ) : Run p s [] 0 s
  | cons {s t : σ} {x : Nat} {d : Decision} {ds : List Decision} {v : Int} (hx : p.nextVar [s] = some x)
      (hd : d ∈ p.dom x s) (h : Run p (p.trans s d) ds v t) : Run p s (d :: ds) (p.cost s d + v) t

/-- A complete assignment of the variables that are free in `s`. -/
def Completion (p : Problem σ) (s : σ) (ds : List Decision) (v : Int) : Prop :=
  ∃ t, Run p s ds v t ∧ p.nextVar [t] = none

/-- `ds`, taken in this order from the initial state, reaches `s` with objective value `v` so far. -/
def Reach (p : Problem σ) (s : σ) (ds : List Decision) (v : Int) : Prop :=
  ∃ u, Run p p.init ds u s ∧ v = p.initVal + u

/-- A feasible solution and its objective value. -/
def Solution (p : Problem σ) (ds : List Decision) (v : Int) : Prop :=
  ∃ u, Completion p p.init ds u ∧ v = p.initVal + u

/-- The largest objective value of a feasible solution. -/
def IsOptimum (p : Problem σ) (v : Int) : Prop :=
  (∃ ds, Solution p ds v) ∧ ∀ ds v', Solution p ds v' → v' ≤ v

/-- No feasible solution at all. -/
def Infeasible (p : Problem σ) : Prop := ∀ ds v, ¬ Solution p ds v

/-- The list of decisions `sol`, in whatever order, is a feasible solution of value `v`. -/
def IsSolutionOf (p : Problem σ) (sol : List Decision) (v : Int) : Prop :=
  ∃ ds, sol.Perm ds ∧ Solution p ds v

/-- A subproblem is genuine: its recorded decisions, in some order, reach its state with its recorded value. -/
def Genuine (p : Problem σ) (n : SubProblem σ) : Prop :=
  ∃ ds, n.path.Perm ds ∧ Reach p n.state ds n.value

/-- A complete solution that goes through the subproblem `n`: its value is that of `n` plus a completion of its state. -/
def Through (p : Problem σ) (n : SubProblem σ) (v : Int) : Prop :=
  ∃ ds u, Completion p n.state ds u ∧ v = n.value + u

/-- `u` is the value of the best completion of `s`. -/
def BestCompletion (p : Problem σ) (s : σ) (u : Int) : Prop :=
  (∃ ds, Completion p s ds u) ∧ ∀ ds v, Completion p s ds v → v ≤ u

/-! ### What the user guarantees -/

/-- Auxiliary description of the states of a problem: which states are meaningful, after how many decisions a state is
reached, and which variable is decided at each stage. -/
structure Layering (σ : Type) where
  ok : σ → Prop
  lvl : σ → Nat
  var : Nat → Nat

/-- A well-formed dynamic program: states know how many decisions have been taken, the next variable depends on that number only,
there are `nbVars` of them, each transition takes one decision, and costs are bounded by `B` so that no sum overflows. -/
structure WellFormed (p : Problem σ) (S : Layering σ) (B : Int) : Prop where
  ok_init : S.ok p.init
  ok_trans : ∀ s x d, S.ok s → p.nextVar [s] = some x → d ∈ p.dom x s → S.ok (p.trans s d)
  lvl_init : S.lvl p.init = 0
  lvl_trans : ∀ s x d, S.ok s → p.nextVar [s] = some x → d ∈ p.dom x s → S.lvl (p.trans s d) = S.lvl s + 1
  next_nil : p.nextVar [] = none
  next_var : ∀ l k, l ≠ [] → (∀ s ∈ l, S.ok s ∧ S.lvl s = k) →
    p.nextVar l = if k < p.nbVars then some (S.var k) else none
  init_bound : -B ≤ p.initVal ∧ p.initVal ≤ B
  cost_bound : ∀ s x d, S.ok s → p.nextVar [s] = some x → d ∈ p.dom x s → -B ≤ p.cost s d ∧ p.cost s d ≤ B
  no_overflow : 4 * ((p.nbVars : Int) + 2) * B ≤ isizeMax

/-- The rough upper bound never underestimates the best completion (for every meaningful state, merged ones included). -/
def Admissible (p : Problem σ) (S : Layering σ) : Prop :=
  ∀ s, S.ok s → ∀ ds v, Completion p s ds v → v ≤ p.estimate s

/-- What a relaxation must do for the diagrams to be built at all: merging states of one layer gives a state of that layer, and relaxing never
lowers the cost of a transition, nor raises it beyond `B`. -/
structure LayeredRelaxation (p : Problem σ) (r : Relaxation σ) (S : Layering σ) (B : Int) : Prop where
  merge_ok : ∀ l k, l ≠ [] → (∀ s ∈ l, S.ok s ∧ S.lvl s = k) → S.ok (r.merge l) ∧ S.lvl (r.merge l) = k
  relax_cost : ∀ l k, (∀ s ∈ l, S.ok s ∧ S.lvl s = k) → ∀ s x d, S.ok s → p.nextVar [s] = some x → d ∈ p.dom x s →
    p.trans s d ∈ l →
    p.cost s d ≤ r.relax s (p.trans s d) (r.merge l) d (p.cost s d) ∧
    r.relax s (p.trans s d) (r.merge l) d (p.cost s d) ≤ B

/-- A sound relaxation.  Take a transition that leads from `s` to a state `t` which is then merged with other states of its layer: whatever
can be completed from `t` can be completed from the merged state such that the relaxed cost of the transition plus the new completion is
at least as good. -/
structure SoundRelaxation (p : Problem σ) (r : Relaxation σ) (S : Layering σ) (B : Int) : Prop extends LayeredRelaxation p r S B where
  merge_dom : ∀ l k, (∀ s ∈ l, S.ok s ∧ S.lvl s = k) → ∀ s x d, S.ok s → p.nextVar [s] = some x → d ∈ p.dom x s →
    p.trans s d ∈ l → ∀ ds v, Completion p (p.trans s d) ds v →
    ∃ ds' v', Completion p (r.merge l) ds' v' ∧
      p.cost s d + v ≤ r.relax s (p.trans s d) (r.merge l) d (p.cost s d) + v'

/-- What a compilation needs to know about the subproblem it starts from.  Every genuine subproblem satisfies it (`Genuine.rootOK`). -/
structure RootOK (p : Problem σ) (S : Layering σ) (B : Int) (n : SubProblem σ) : Prop where
  ok : S.ok n.state
  lvl : S.lvl n.state = n.path.length
  le : n.path.length ≤ p.nbVars
  bound : -(((n.path.length : Int) + 1) * B) ≤ n.value ∧ n.value ≤ ((n.path.length : Int) + 1) * B

/-- `b` is the largest objective value of a complete solution that goes through `n`. -/
def BestThrough (p : Problem σ) (n : SubProblem σ) (b : Int) : Prop := Through p n b ∧ ∀ w, Through p n w → w ≤ b

/-- All complete assignments end in the same state. -/
def UniqueTerminal (p : Problem σ) (S : Layering σ) : Prop :=
  ∀ s t, S.ok s → S.ok t → p.nextVar [s] = none → p.nextVar [t] = none → s = t

/-- The barrier can take part in a compilation only if the diagram has one and it is not empty. -/
def NoBarrier (v : Variant) (rd : Reads σ) : Prop := v = .all ∨ ∀ d, rd.isEmpty d = true

/-- A completion worth `w` runs through a state the barrier had a threshold for, deeper than `d0` and with a value not above the
threshold: the only reason for which a compilation may lose a completion. -/
def PrunedBelow (p : Problem σ) (S : Layering σ) (B : Int) (rd : Reads σ) (d0 : Nat) (w : Int) : Prop :=
  ∃ d s θ y ds u, d0 < d ∧ S.ok s ∧ S.lvl s = d ∧ rd.isEmpty d = false ∧ rd.theta d s = some θ ∧ y ≤ θ ∧
    -(((d : Int) + 1) * B) ≤ y ∧ y ≤ ((d : Int) + 1) * B ∧ Completion p s ds u ∧ w ≤ y + u

/-- The same, below the root of a compilation. -/
def PrunedAt (p : Problem σ) (S : Layering σ) (B : Int) (rd : Reads σ) (inp : Input σ) (w : Int) : Prop :=
  PrunedBelow p S B rd inp.residual.path.length w

end Verif.Spec
