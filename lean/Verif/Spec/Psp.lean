import Verif.Model.Psp
/-!
What the production planning problem asks for, independently of the dynamic program.

One machine makes at most one unit per period.  `demand i t` units of item `i` are due at the end of period `t` (0 or 1).  Units may be made in advance; keeping a unit of `i` in
stock for one period costs `stocking i`.  Making `b` after `a`, with only idle periods in between, costs `changeover a b`.
-/
set_option autoImplicit false

namespace Verif.Psp
variable (I : Inst)

/-- A plan says which item is made in which period, if any. -/
abbrev Plan := Nat → Option Nat

/-- Units of `i` made before period `p` -/
def made (f : Plan) (i p : Nat) : Nat := (List.range p).countP fun t => f t == some i

/-- Units of `i` due before period `p` -/
def due (i p : Nat) : Nat := ((List.range p).map (I.demand i)).sum

/-- All demands are met in time and nothing else is made. -/
structure Feasible (f : Plan) : Prop where
  item : ∀ t, t < I.periods → ∀ i, f t = some i → i < I.items
  inTime : ∀ i, i < I.items → ∀ p, p ≤ I.periods → due I i p ≤ made f i p
  total : ∀ i, i < I.items → made f i I.periods = due I i I.periods

/-- Stocking costs: at the end of each period, the stock of each item is what has been made minus what was due. -/
def stockCost (f : Plan) : Nat :=
  ((List.range I.items).map fun i => I.stocking i * ((List.range I.periods).map fun t => made f i (t + 1) - due I i (t + 1)).sum).sum

/-- The costs of the changeovers in a sequence of items. -/
def chain : List Nat → Nat
  | a :: b :: l => I.changeover a b + chain (b :: l)
  | _ => 0

/-- The cost of a plan. -/
def planCost (f : Plan) : Nat := stockCost I f + chain I ((List.range I.periods).filterMap f)

/-- `c` is the cost of a cheapest feasible plan. -/
def Cheapest (c : Nat) : Prop := (∃ f, Feasible I f ∧ planCost I f = c) ∧ ∀ f, Feasible I f → c ≤ planCost I f

/-- The decisions of a plan for the first `t` periods, from the last of them to the first. -/
def decisions (f : Plan) : Nat → List Decision
  | 0 => []
  | t + 1 => (⟨t, match f t with | some i => (i : Int) | none => -1⟩ : Decision) :: decisions f t

/-- At most one unit of an item is due in a period. -/
def UnitDemand : Prop := ∀ i t, i < I.items → t < I.periods → I.demand i t ≤ 1

/-- Inserting a third item is never cheaper. -/
def Triangle : Prop := ∀ a b c, a < I.items → b < I.items → c < I.items → I.changeover a c ≤ I.changeover a b + I.changeover b c

/-- A changeover and keeping a unit for the whole time cost at most `B`, and `B` is small enough for the values of the solver. -/
structure Bounded (B : Nat) : Prop where
  step : ∀ i j, i < I.items → j < I.items → I.changeover i j + I.stocking i * I.periods ≤ B
  small : 4 * (I.periods + 2) * B ≤ 2 ^ 63 - 1

end Verif.Psp
