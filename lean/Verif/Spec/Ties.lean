import Verif.Model.Mdd
/-!
Notions used to state which of several equally good ways into a node a diagram keeps.
-/
set_option autoImplicit false

namespace Verif.Spec
open Verif
variable {σ : Type} [DecidableEq σ] [Inhabited σ]

/-- A way into the next layer: a node of the current layer and a decision. -/
abbrev Way := Nat × Decision

/-- Where the way leads. -/
def Way.target (p : Problem σ) (m : Dd σ) (z : Way) : σ := p.trans (m.node z.1).state z.2

/-- The value of the longest path that ends with it. -/
def Way.value (p : Problem σ) (m : Dd σ) (z : Way) : Int := satAdd (m.node z.1).value (p.cost (m.node z.1).state z.2)

/-- Its first node stands for itself only. -/
def Way.exact (m : Dd σ) (z : Way) : Bool := (m.node z.1).flags.isExact

/-- The ways out of the nodes `cur`, in the order in which they are tried: nodes that cannot lead to anything better than `lb` are passed over. -/
def ways (p : Problem σ) (lb : Int) (var : Nat) (m : Dd σ) (cur : List Nat) : List Way :=
  cur.flatMap fun i =>
    if satAdd (p.estimate (m.node i).state) (m.node i).value > lb then (p.dom var (m.node i).state).map fun d => (i, d) else []

/-- A way `y` tried after `z` takes its place: it is better, or (with a barrier) as good and exact. -/
def Way.ousts (v : Variant) (p : Problem σ) (m : Dd σ) (y z : Way) : Prop :=
  z.value p m < y.value p m ∨ (v = .barrier ∧ z.value p m = y.value p m ∧ y.exact m = true)

/-- The value of the longest path into the merged node `s` through the edge `z.2` of the node `z.1` that is merged. -/
def mergedValue (r : Relaxation σ) (s : σ) (m : Dd σ) (z : Nat × Nat) : Int :=
  satAdd (m.node (m.edge z.2).src).value (r.relax (m.node (m.edge z.2).src).state (m.node z.1).state s (m.edge z.2).decision (m.edge z.2).cost)

end Verif.Spec
