import Verif.Model.Mdd
import Mathlib.Data.List.Defs
/-! Walks through a compiled diagram, and the subproblems a cutset should consist of. -/
set_option autoImplicit false

namespace Verif.Dd
variable {σ : Type} [Inhabited σ]

/-- A walk along edges of the diagram, with its total cost. -/
inductive Walk (m : Dd σ) : Nat → Nat → Int → Prop
  | nil (i : Nat) : Walk m i i 0
  | cons {q t e : Nat} {w : Int} (he : e ∈ m.inIds q) (h : Walk m q t w) : Walk m (m.edge e).src t ((m.edge e).cost + w)

end Verif.Dd

namespace Verif.Spec
open Verif
variable {σ : Type} [Inhabited σ]

/-- `w` is the cost of a walk from node `i` to a node where no variable is left to decide. -/
def Completes (p : Problem σ) (D : Dd σ) (i : Nat) (w : Int) : Prop :=
  ∃ t, t < D.nodes.length ∧ p.nextVar [(D.node t).state] = none ∧ D.Walk i t w

/-- `w` is the largest cost of such a walk. -/
structure Longest (p : Problem σ) (D : Dd σ) (i : Nat) (w : Int) : Prop where
  completes : Completes p D i w
  le : ∀ w', Completes p D i w' → w' ≤ w

/-- `n` is the subproblem of node `i`, and its upper bound is the better one of the two the diagram provides: the estimate of the problem, and the
longest walk to the end of the diagram. -/
structure SubOf (p : Problem σ) (D : Dd σ) (i : Nat) (n : SubProblem σ) : Prop where
  state : n.state = (D.node i).state
  value : n.value = (D.node i).value
  path : n.path = D.bestPath i
  ub : ∃ w, Longest p D i w ∧ n.ub = min (satAdd n.value (p.estimate n.state)) (n.value + w)

/-- Node `i` represents the sub-problems of its state exactly. -/
def ExactNode (D : Dd σ) (i : Nat) : Prop := i < D.nodes.length ∧ (D.node i).flags.isExact = true
def InexactNode (D : Dd σ) (i : Nat) : Prop := i < D.nodes.length ∧ (D.node i).flags.isExact = false

/-- The last layer all of whose predecessors and itself hold exact nodes only; `lvl` tells the layer of a state. -/
structure LastExact (lvl : σ → Nat) (D : Dd σ) (d : Nat) : Prop where
  exact : ∀ i, i < D.nodes.length → lvl (D.node i).state ≤ d → ExactNode D i
  last : ∃ i, lvl (D.node i).state = d + 1 ∧ InexactNode D i

/-- An exact node with an edge into an inexact node from which the end can be reached. -/
def OnFrontier (p : Problem σ) (D : Dd σ) (i : Nat) : Prop :=
  ExactNode D i ∧ ∃ q e, InexactNode D q ∧ e ∈ D.inIds q ∧ (D.edge e).src = i ∧ ∃ w, Completes p D q w

/-- The cutset consists of the subproblems of the selected nodes from which the end can be reached, one for each. -/
def Consists (p : Problem σ) (D : Dd σ) (sel : Nat → Prop) : Prop :=
  ∃ ids : List Nat, ids.Nodup ∧ (∀ i, i ∈ ids ↔ sel i ∧ ∃ w, Completes p D i w) ∧ List.Forall₂ (SubOf p D) ids D.drainCutset

end Verif.Spec
