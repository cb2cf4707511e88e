import Verif.Model.Tsptw
/-!
What the travelling salesman problem with time windows asks for, independently of the dynamic program.

The salesman leaves the depot 0 at time 0, visits every other city exactly once and returns.  Travelling from `i` to `j` takes `dist i j`; they must arrive
no later than `latest j`, and wait until `earliest j` if they arrive before.  The duration of a tour is the time at which the return to the depot is complete.
-/
set_option autoImplicit false

namespace Verif.Tsptw
variable (I : Inst)

/-- The time at which `j` is dealt with when `i` is left at time `t`. -/
def leaveTime (t i j : Nat) : Nat := max (t + I.dist i j) (I.earliest j)

/-- Leaving `i` at time `t`, the cities of the list are visited in order and in time, and the last one is left at time `T`. -/
inductive Drive : Nat → Nat → List Nat → Nat → Prop
  | stop (t i : Nat) : Drive t i [] t
  | go {t i j : Nat} {l : List Nat} {T : Nat} (h : t + I.dist i j ≤ I.latest j) (hd : Drive (leaveTime I t i j) j l T) : Drive t i (j :: l) T

/-- A feasible tour of duration `T`: the order of the cities. -/
def Tour (l : List Nat) (T : Nat) : Prop := l.Perm (List.range' 1 (I.n - 1)) ∧ Drive I 0 0 (l ++ [0]) T

/-- `T` is the duration of a shortest feasible tour. -/
def Shortest (T : Nat) : Prop := (∃ l, Tour I l T) ∧ ∀ l T', Tour I l T' → T ≤ T'

/-- Going through a third city is never shorter. -/
def Triangle : Prop := ∀ i j k, i < I.n → j < I.n → k < I.n → I.dist i k ≤ I.dist i j + I.dist j k

/-- The decisions that visit the given cities, from variable `x` on. -/
def visits : Nat → List Nat → List Decision
  | _, [] => []
  | x, j :: l => (⟨x, (j : Int)⟩ : Decision) :: visits (x + 1) l

/-- Travelling and waiting take at most `B`, and `B` is small enough for the values of the solver. -/
structure Bounded (B : Nat) : Prop where
  step : ∀ i j, i < I.n → j < I.n → I.dist i j + I.earliest j ≤ B
  small : 4 * (I.n + 2) * B ≤ 2 ^ 63 - 1

end Verif.Tsptw
