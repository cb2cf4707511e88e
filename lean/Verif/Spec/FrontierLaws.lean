import Verif.Model.Frontier
/-!
What a solver may expect of a frontier, in terms of the nodes it holds.
-/
set_option autoImplicit false

namespace Verif.Spec
variable {σ : Type}

/-- Two nodes of the same state put together: the longer path with its value, the larger bound. -/
def combine (old n : SubProblem σ) : SubProblem σ :=
  if n.value > old.value then { n with ub := max n.ub old.ub } else { old with ub := max n.ub old.ub }

/-- The contract of `Frontier` (`src/prelude.rs:108-129`): a frontier holds a multiset of nodes; `push` adds a node, possibly by combining it with
one of the same state; `pop` removes a node of largest upper bound; no operation panics. -/
structure FrontierLaws (φ : FrontierOps σ) where
  inv : φ.F → Prop
  holds : φ.F → List (SubProblem σ)
  new_inv : inv φ.new
  new_holds : holds φ.new = []
  push : ∀ f n, inv f → ∃ f', φ.push f n = some f' ∧ inv f' ∧
    ((holds f').Perm (n :: holds f) ∨
      ∃ old rest, old.state = n.state ∧ (holds f).Perm (old :: rest) ∧ (holds f').Perm (combine old n :: rest))
  pop : ∀ f, inv f →
    (∃ f', holds f = [] ∧ φ.pop f = some (f', none) ∧ inv f' ∧ holds f' = []) ∨
    (∃ f' n, φ.pop f = some (f', some n) ∧ inv f' ∧ (holds f).Perm (n :: holds f') ∧ ∀ m ∈ holds f, m.ub ≤ n.ub)
  clear : ∀ f, inv f → inv (φ.clear f) ∧ holds (φ.clear f) = []
  len : ∀ f, inv f → φ.len f = (holds f).length

end Verif.Spec
