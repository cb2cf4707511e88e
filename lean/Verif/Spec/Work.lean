import Verif.Spec.Barrier
/-!
How much work a schedule does: the nodes expanded by the diagrams it compiles.
-/
set_option autoImplicit false

namespace Verif.Spec
variable {σ : Type} [DecidableEq σ] [Inhabited σ]

/-- The next step of worker `i` compiles a diagram. -/
def Compiles {F : Type} (s : Sys σ F) (i : Nat) : Bool :=
  match s.threads[i]? with
  | some t => match t.pc with
    | .restr _ _ => true
    | .relx _ _ _ => true
    | _ => false
  | none => false

/-- The number of nodes expanded in the diagram worker `i` holds. -/
def diagramWork {F : Type} (s : Sys σ F) (i : Nat) : Nat :=
  match s.threads[i]? with
  | some t => t.mdd.explored
  | none => 0

/-- The number of nodes expanded in all the diagrams a schedule compiles. -/
def totalWork (cfg : SolverCfg σ) : Sys σ cfg.fr.F → List (Lbl σ) → Nat
  | _, [] => 0
  | s, l :: ls =>
    match l, Par.step cfg s l with
    | .run i _ _, .ok s' => (if Compiles s i then diagramWork s' i else 0) + totalWork cfg s' ls
    | .spurious _, .ok s' => totalWork cfg s' ls
    | _, _ => 0

/-- The number of diagrams a schedule compiles. -/
def compilations (cfg : SolverCfg σ) : Sys σ cfg.fr.F → List (Lbl σ) → Nat
  | _, [] => 0
  | s, l :: ls =>
    match l, Par.step cfg s l with
    | .run i _ _, .ok s' => (if Compiles s i then 1 else 0) + compilations cfg s' ls
    | .spurious _, .ok s' => compilations cfg s' ls
    | _, _ => 0

/-- The same for the solver with a barrier. -/
def bCompiles {F : Type} (s : BSys σ F) (i : Nat) : Bool :=
  match s.threads[i]? with
  | some t => match t.pc with
    | .restr _ _ => true
    | .relx _ _ _ => true
    | _ => false
  | none => false

def bDiagramWork {F : Type} (s : BSys σ F) (i : Nat) : Nat :=
  match s.threads[i]? with
  | some t => t.mdd.explored
  | none => 0

def bTotalWork (cfg : SolverCfg σ) : BSys σ cfg.fr.F → List (BLbl σ) → Nat
  | _, [] => 0
  | s, l :: ls =>
    match l, Bar.step cfg s l with
    | .run i _ _ _, .ok s' => (if bCompiles s i then bDiagramWork s' i else 0) + bTotalWork cfg s' ls
    | .spurious _, .ok s' => bTotalWork cfg s' ls
    | _, _ => 0

def bCompilations (cfg : SolverCfg σ) : BSys σ cfg.fr.F → List (BLbl σ) → Nat
  | _, [] => 0
  | s, l :: ls =>
    match l, Bar.step cfg s l with
    | .run i _ _ _, .ok s' => (if bCompiles s i then 1 else 0) + bCompilations cfg s' ls
    | .spurious _, .ok s' => bCompilations cfg s' ls
    | _, _ => 0

end Verif.Spec
