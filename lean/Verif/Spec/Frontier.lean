import Verif.Model.Prelude
/-!
Specification of a frontier without duplicates, in terms of the history of calls and their results only.
-/
set_option autoImplicit false

namespace Verif.Spec
variable {σ : Type}

/-- A call of the frontier API. -/
inductive FOp (σ : Type)
  | push (n : SubProblem σ)
  | pop
  | clear
  | len

/-- A call together with its result. -/
inductive FEv (σ : Type)
  | pushed (n : SubProblem σ)
  | popped (r : Option (SubProblem σ))
  | cleared
  | length (k : Nat)

/-- The call of an event. -/
def FEv.op : FEv σ → FOp σ
  | .pushed n => .push n
  | .popped _ => .pop
  | .cleared => .clear
  | .length _ => .len

variable [DecidableEq σ]

/-- Effect of one event on the list of pending pushes of state `s`. -/
def pendStep (s : σ) (acc : List (SubProblem σ)) : FEv σ → List (SubProblem σ)
  | .pushed n => if n.state = s then acc ++ [n] else acc
  | .popped (some n) => if n.state = s then [] else acc
  | .popped none => acc
  | .cleared => []
  | .length _ => acc

/-- The nodes with state `s` pushed since that state was last popped or the frontier cleared (oldest first). -/
def pending (h : List (FEv σ)) (s : σ) : List (SubProblem σ) := h.foldl (pendStep s) []

/-- `n` carries the value and the path of the earliest node with the greatest value of the list `l`,
and the greatest upper bound of `l`. -/
def IsBestOf (l : List (SubProblem σ)) (n : SubProblem σ) : Prop :=
  (∃ pre m post, l = pre ++ m :: post ∧ m.state = n.state ∧ m.value = n.value ∧ m.path = n.path ∧
      (∀ x ∈ pre, x.value < m.value) ∧ (∀ x ∈ post, x.value ≤ m.value)) ∧
    (∃ x ∈ l, x.ub = n.ub) ∧ (∀ x ∈ l, x.ub ≤ n.ub)

/-- What the result of a call has to be after history `h`. -/
def Correct (h : List (FEv σ)) : FEv σ → Prop
  | .pushed _ => True
  | .cleared => True
  | .popped none => ∀ s, pending h s = []
  | .popped (some n) =>
      IsBestOf (pending h n.state) n ∧ ∀ s, ∀ m ∈ pending h s, m.ub ≤ n.ub
  | .length k => ∃ l : List σ, l.Nodup ∧ (∀ s, s ∈ l ↔ pending h s ≠ []) ∧ l.length = k

/-- Every result in the trace is correct with respect to the events before it. -/
def GoodTrace (evs : List (FEv σ)) : Prop :=
  ∀ pre e post, evs = pre ++ e :: post → Correct pre e

end Verif.Spec
