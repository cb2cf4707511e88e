import Verif.Spec.Problem
/-!
Beam search: the layers of states reached by a decision diagram that truncates its layers.
-/
set_option autoImplicit false

namespace Verif.Spec
variable {σ : Type}

/-- A layer: different states, with the value of the best path found to each. -/
abbrev Layer (σ : Type) := List (σ × Int)

/-- The comparator `rank` is a total preorder. -/
structure Ranking (rank : σ → σ → Ordering) : Prop where
  swap : ∀ a b, rank b a = (rank a b).swap
  trans : ∀ a b c, (rank a b).isLE = true → (rank b c).isLE = true → (rank a c).isLE = true

/-- Different states of the same layer are ranked. -/
def NoTies (rank : σ → σ → Ordering) (S : Layering σ) : Prop := ∀ a b, S.ok a → S.ok b → S.lvl a = S.lvl b → rank a b = .eq → a = b

/-- `a` is at least as promising as `b`: a better value or, if the values are equal, not a worse state. -/
def Preferred (rank : σ → σ → Ordering) (a b : σ × Int) : Prop := b.2 < a.2 ∨ (b.2 = a.2 ∧ rank a.1 b.1 ≠ .lt)

/-- `Y` is what remains of the layer `X` when only `w` states are kept (`none`: no limit): the most promising ones. -/
structure Truncated (rank : σ → σ → Ordering) (w : Option Nat) (X Y : Layer σ) : Prop where
  sub : ∀ a ∈ Y, a ∈ X
  nodup : Y.Nodup
  size : Y.length = match w with
    | none => X.length
    | some w => min w X.length
  best : ∀ a ∈ Y, ∀ b ∈ X, b ∉ Y → Preferred rank a b

/-- State `s` is reached with value `u` by one decision about variable `x` from a state of the layer `X` whose upper bound exceeds `lb`. -/
def Child (p : Problem σ) (x : Nat) (lb : Int) (X : Layer σ) (s : σ) (u : Int) : Prop :=
  ∃ a ∈ X, lb < satAdd (p.estimate a.1) a.2 ∧ ∃ d ∈ p.dom x a.1, s = p.trans a.1 d ∧ u = a.2 + p.cost a.1 d

/-- `Y` consists of all the children of the layer `X`, each with its best value. -/
structure Children (p : Problem σ) (x : Nat) (lb : Int) (X Y : Layer σ) : Prop where
  keys : (Y.map (·.1)).Nodup
  real : ∀ b ∈ Y, Child p x lb X b.1 b.2
  best : ∀ b ∈ Y, ∀ u, Child p x lb X b.1 u → u ≤ b.2
  all : ∀ s u, Child p x lb X s u → ∃ b ∈ Y, b.1 = s

/-- `Beam … n k X`: `X` is a layer a beam search of width `w` from the subproblem `n` may reach after `k` decisions.  States that do not pass the test `pass`
(given the number of decisions, the state and its value) are dropped before the layer is truncated. -/
inductive Beam (p : Problem σ) (S : Layering σ) (rank : σ → σ → Ordering) (w : Option Nat) (lb : Int) (pass : Nat → σ × Int → Bool) (n : SubProblem σ) :
    Nat → Layer σ → Prop
  | root : Beam p S rank w lb pass n 0 [(n.state, n.value)]
  | step {k : Nat} {X Y Z : Layer σ} (h : Beam p S rank w lb pass n k X) (hk : n.path.length + k < p.nbVars)
      (ht : Truncated rank w (X.filter (pass (n.path.length + k))) Y) (hc : Children p (S.var (n.path.length + k)) lb Y Z) :
      Beam p S rank w lb pass n (k + 1) Z

/-- The search is over: all variables are decided, or no state is left. -/
def BeamEnds (p : Problem σ) (n : SubProblem σ) (k : Nat) (X : Layer σ) : Prop := X = [] ∨ p.nbVars ≤ n.path.length + k

/-- The best value of a layer. -/
def Layer.best (X : Layer σ) : Option Int := (X.map (·.2)).max?

/-- The width that applies to a diagram of the given type. -/
def beamWidth (c : CompilationType) (w : Nat) : Option Nat := if c = .restricted then some w else none

/-- The test that applies to the diagrams of the two kinds: `with_barrier` drops the states whose value does not exceed their threshold. -/
def passes (v : Variant) (rd : Reads σ) (rootDepth : Nat) (D : Nat) (a : σ × Int) : Bool :=
  match v with
  | .all => true
  | .barrier => decide (D ≤ rootDepth) || rd.isEmpty D || decide ((rd.theta D a.1).getD isizeMin < a.2)

end Verif.Spec
