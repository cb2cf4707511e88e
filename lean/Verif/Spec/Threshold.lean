import Verif.Spec.Walks
/-!
The thresholds a relaxed diagram stores.

A state that is reached again with a value of at most its threshold need not be explored: wherever the diagram leads from there, either nothing better
than the incumbent can be found, or a node that is explored anyway is reached with a value that is at least as good.  `Limit` says, for the nodes where a walk
through the diagram may be stopped, up to which value this is so; the threshold of a node is the largest value that respects all limits.
-/
set_option autoImplicit false

namespace Verif.Spec
open Verif
variable {σ : Type} [Inhabited σ]

/-- Node `x` has not been merged into another one. -/
def Live (D : Dd σ) (x : Nat) : Prop := x < D.nodes.length ∧ (D.node x).flags.isDeleted = false

/-- Node `x` was not expanded because of a threshold that had been stored before. -/
def Barred (D : Dd σ) (x : Nat) : Prop := (D.node x).flags.isPrunedByBarrier = true

/-- The nodes whose completions are left to the subproblems of the cutset, and the last layer as far as it is exact. -/
def CutNode (p : Problem σ) (lvl : σ → Nat) (D : Dd σ) (x : Nat) : Prop :=
  (D.cutsetType = .lastExactLayer ∧ (LastExact lvl D (lvl (D.node x).state) ∨
    ((∀ i, i < D.nodes.length → ExactNode D i) ∧ p.nextVar [(D.node x).state] = none))) ∨
  (D.cutsetType = .frontier ∧ (OnFrontier p D x ∨ (ExactNode D x ∧ p.nextVar [(D.node x).state] = none)))

/-- The longest walk from `x` to the end of the diagram, `isize::MIN` if there is none. -/
def Below (p : Problem σ) (D : Dd σ) (x : Nat) (b : Int) : Prop := Longest p D x b ∨ ((¬ ∃ w, Completes p D x w) ∧ b = isizeMin)

/-- Up to which value a walk that reaches `x` may be stopped there. -/
inductive Limit (p : Problem σ) (lvl : σ → Nat) (rd : Reads σ) (lb : Int) (D : Dd σ) (x : Nat) : Int → Prop
  | any (hl : Live D x) : Limit p lvl rd lb D x isizeMax
  | barred (hl : Live D x) (hb : Barred D x) : Limit p lvl rd lb D x ((rd.theta (lvl (D.node x).state) (D.node x).state).getD isizeMin)
  | hopeless (hl : Live D x) (hb : ¬ Barred D x) (hv : p.nextVar [(D.node x).state] ≠ none) (hle : satAdd (p.estimate (D.node x).state) (D.node x).value ≤ lb) :
      Limit p lvl rd lb D x (satSub lb (p.estimate (D.node x).state))
  | below (hl : Live D x) (hb : ¬ Barred D x) (hc : CutNode p lvl D x) {b : Int} (hbot : Below p D x b) (hlt : satAdd (D.node x).value b < lb) :
      Limit p lvl rd lb D x (satSub lb b)
  | cut (hl : Live D x) (hb : ¬ Barred D x) (hc : CutNode p lvl D x) {b : Int} (hbot : Below p D x b) (hge : lb ≤ satAdd (D.node x).value b) :
      Limit p lvl rd lb D x (D.node x).value

/-- The largest value with which no walk from `i` exceeds a limit. -/
structure Threshold (p : Problem σ) (lvl : σ → Nat) (rd : Reads σ) (lb : Int) (D : Dd σ) (i : Nat) (t : Int) : Prop where
  le : ∀ x w l, D.Walk i x w → Limit p lvl rd lb D x l → t + w ≤ l
  attained : ∃ x w l, D.Walk i x w ∧ Limit p lvl rd lb D x l ∧ t + w = l

/-- The nodes whose thresholds are stored. -/
structure Recorded (lvl : σ → Nat) (D : Dd σ) (i : Nat) : Prop where
  live : Live D i
  exact : ExactNode D i
  barred : ¬ Barred D i
  above : D.cutsetType = .lastExactLayer → ∀ d, LastExact lvl D d → lvl (D.node i).state ≤ d

end Verif.Spec
