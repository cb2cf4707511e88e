import Verif.Spec.Solver
/-!
Partial assignments that exclude each other, and the nodes a schedule gives to workers.
-/
set_option autoImplicit false

namespace Verif.Spec
variable {σ : Type} [DecidableEq σ] [Inhabited σ]

/-- Every decision of the domain of a variable is about that variable. -/
def DomainVar (p : Problem σ) : Prop := ∀ x s d, d ∈ p.dom x s → d.var = x

/-- Some variable has different values in the two partial assignments. -/
def Disagree (a b : List Decision) : Prop := ∃ d ∈ a, ∃ d' ∈ b, d.var = d'.var ∧ d.value ≠ d'.value

/-- The partial assignment `b` is `a` with further decisions. -/
def Extends (a b : List Decision) : Prop := ∃ c, c ≠ [] ∧ b = a ++ c

/-- The node the worker `i` has just been given. -/
def nodeOf {F : Type} (s : Sys σ F) (i : Nat) : Option (SubProblem σ) :=
  match s.threads[i]? with
  | some t => match t.pc with
    | .start n => some n
    | _ => none
  | none => none

/-- The nodes a schedule gives to workers, in order. -/
def givenOut (cfg : SolverCfg σ) : Sys σ cfg.fr.F → List (Lbl σ) → List (SubProblem σ)
  | _, [] => []
  | s, l :: ls =>
    match l, Par.step cfg s l with
    | .run i _ _, .ok s' => (nodeOf s' i).toList ++ givenOut cfg s' ls
    | .spurious _, .ok s' => givenOut cfg s' ls
    | _, _ => []

end Verif.Spec
