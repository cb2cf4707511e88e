import Verif.Model.Srflp
/-!
What the single row facility layout problem asks for, independently of the dynamic program.

`n` departments of given lengths are put side by side in a row.  The cost of a layout is the sum, over all pairs of departments, of the flow between them times the distance
between their middles.  (Everything is doubled, so that halves of lengths are integers.)
-/
set_option autoImplicit false

namespace Verif.Srflp
variable (I : Inst)

/-- The order in which the departments are put, from left to right -/
def Layout (l : List Nat) : Prop := l.Perm (List.range I.n)

/-- Twice the distance of the middle of department `i` from the left end of the row: all that is to the left of it, and half of itself -/
def middle2 (l : List Nat) (i : Nat) : Int := 2 * ((l.take (l.idxOf i)).map I.len).sum + I.len i

/-- Twice the cost of a layout -/
def cost2 (l : List Nat) : Int := ((pairs I.n).map fun p => I.flow p.1 p.2 * ((middle2 I l p.1 - middle2 I l p.2).natAbs : Int)).sum

/-- Twice the part of the cost that does not depend on the layout: half of each of the two departments of a pair.  (`_root_value` in the code, `model.rs:272-283`.) -/
def fixed2 : Int := ((pairs I.n).map fun p => I.flow p.1 p.2 * (I.len p.1 + I.len p.2)).sum

/-- `c` is twice the cost of a cheapest layout. -/
def Cheapest2 (c : Int) : Prop := (∃ l, Layout I l ∧ cost2 I l = c) ∧ ∀ l, Layout I l → c ≤ cost2 I l

/-- The decisions that place the given departments, from variable `x` on -/
def places : Nat → List Nat → List Decision
  | _, [] => []
  | x, j :: l => (⟨x, (j : Int)⟩ : Decision) :: places (x + 1) l

/-- The flow from `i` to `j` is that from `j` to `i`.  (The program makes it so when it reads an instance.) -/
def Symmetric : Prop := ∀ i j, i < I.n → j < I.n → I.flow i j = I.flow j i

/-- No length is negative. -/
def Lengths : Prop := ∀ i, i < I.n → 0 ≤ I.len i

/-- No flow is negative. -/
def Flows : Prop := ∀ i j, i < I.n → j < I.n → 0 ≤ I.flow i j

/-- Flows and lengths are bounded by `F` and `L`, which are small enough for the values of the solver. -/
structure Bounded (F L : Nat) : Prop where
  flow : ∀ i j, i < I.n → j < I.n → -(F : Int) ≤ I.flow i j ∧ I.flow i j ≤ F
  len : ∀ i, i < I.n → -(L : Int) ≤ I.len i ∧ I.len i ≤ L
  small : 4 * (I.n + 2) * (I.n * I.n * F * (L + 1)) ≤ 2 ^ 63 - 1

/-- Flows and lengths are so small that single precision tells all quotients of a cut and a length apart. -/
def Precise (F L : Nat) : Prop := I.n * F * L < 2 ^ 23

end Verif.Srflp
