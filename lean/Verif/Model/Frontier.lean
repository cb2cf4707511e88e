import Verif.Model.NoDup
/-!
The `Frontier` trait (`src/prelude.rs:108-129`) and its two implementations.
-/
set_option autoImplicit false

namespace Verif

/-- `src/prelude.rs:108-129`.  `none` is a panic.  `is_empty` is `len() == 0` in both implementations (`src/prelude.rs:126-128`, not overridden). -/
structure FrontierOps (σ : Type) where
  F : Type
  new : F
  push : F → SubProblem σ → Option F
  pop : F → Option (F × Option (SubProblem σ))
  clear : F → F
  len : F → Nat

variable {σ : Type} [DecidableEq σ]

/-- `src/frontier/no_dup.rs:53-161`: `impl Frontier for NoDupFrontier`. -/
def noDupOps (rank : σ → σ → Ordering) : FrontierOps σ :=
  { F := NoDup σ
    new := NoDup.new
    push := fun f n => f.push rank n
    pop := fun f => f.pop rank
    clear := NoDup.clear
    len := NoDup.len }

/-- A largest element for the comparator (the last one among equals, as the running maximum is replaced when it is not larger). -/
def maxElem (rank : σ → σ → Ordering) : SubProblem σ → List (SubProblem σ) → SubProblem σ
  | a, [] => a
  | a, b :: l => maxElem rank (if maxUB rank a b = .gt then a else b) l

/-- `src/frontier/simple.rs:6-34`.  The heap of the crate `binary-heap-plus` is represented by its contents; `pop` removes a largest element for
`MaxUB`.  (Which one of several equally good elements is popped is not specified by the crate; the solver theorems quantify over every frontier that
satisfies `Spec.FrontierLaws`, which leaves that open.) -/
def simpleOps (rank : σ → σ → Ordering) : FrontierOps σ :=
  { F := List (SubProblem σ)
    new := []
    push := fun l n => some (n :: l)
    pop := fun l => match l with
      | [] => some ([], none)
      | a :: l' => some ((a :: l').erase (maxElem rank a l'), some (maxElem rank a l'))
    clear := fun _ => []
    len := List.length }

end Verif
