import Verif.Spec.Problem
import Verif.Spec.FrontierLaws
import Verif.Model.Parallel
/-!
What the user of a solver guarantees, and the notions used to state what the solver guarantees.
-/
set_option autoImplicit false

namespace Verif.Spec
variable {σ : Type} [DecidableEq σ] [Inhabited σ]

/-- What the theorems that do not concern optimality assume of the parameters of a solver: a well-formed problem, a relaxation that respects its
layers and a width of at least one.  Neither the rough bound nor the merged states need to be right. -/
structure BaseCfg (cfg : SolverCfg σ) (S : Layering σ) (B : Int) : Prop where
  wf : WellFormed cfg.p S B
  lay : LayeredRelaxation cfg.p cfg.r S B
  width : ∀ s, 1 ≤ cfg.width s

/-- What the theorems about optimality assume of the parameters of a solver: a well-formed problem with an admissible bound, a sound relaxation and a width of at
least one.  (`S` and `B` describe the layers of the problem and bound its costs.) -/
structure GoodCfg (cfg : SolverCfg σ) (S : Layering σ) (B : Int) : Prop where
  wf : WellFormed cfg.p S B
  adm : Admissible cfg.p S
  rel : SoundRelaxation cfg.p cfg.r S B
  width : ∀ s, 1 ≤ cfg.width s

theorem GoodCfg.base {cfg : SolverCfg σ} {S : Layering σ} {B : Int} (h : GoodCfg cfg S B) : BaseCfg cfg S B :=
  ⟨h.wf, h.rel.toLayeredRelaxation, h.width⟩

/-- The cutset covers all solutions: last exact layer, or frontier for a problem with a single terminal state (see C20). -/
def CutOK (cfg : SolverCfg σ) (S : Layering σ) : Prop := cfg.cutset = .lastExactLayer ∨ UniqueTerminal cfg.p S

/-- The schedule resolves hash order and ties by permutations only. -/
def ValidLbl : Lbl σ → Prop
  | .run _ _ o => o.Valid
  | .spurious _ => True

/-- `s` can be reached from the start of a run by some schedule: any interleaving, any answers of `interrupt()`, any resolution of
hash order and ties. -/
def Reachable (cfg : SolverCfg σ) (s : Sys σ cfg.fr.F) : Prop :=
  ∃ s0 ls, Par.init cfg = some s0 ∧ (∀ l ∈ ls, ValidLbl l) ∧ Par.runs cfg s0 ls = .ok s

/-- As `Reachable`, when `interrupt()` always answers no: the runs of `maximize()`. -/
def ReachableMax (cfg : SolverCfg σ) (s : Sys σ cfg.fr.F) : Prop :=
  ∃ s0 ls, Par.init cfg = some s0 ∧ (∀ l ∈ ls, ValidLbl l) ∧ (∀ l ∈ ls, ∀ i intr o, l = .run i intr o → intr = false) ∧ Par.runs cfg s0 ls = .ok s

/-- All workers have left their loop: `maximize` returns. -/
def Finished {F : Type} (s : Sys σ F) : Prop := ∀ t ∈ s.threads, t.pc = .done

/-- The worker `i` has just been given a node. -/
def GotNode {F : Type} (s : Sys σ F) (i : Nat) : Bool :=
  match s.threads[i]? with
  | some t => match t.pc with
    | .start _ => true
    | _ => false
  | none => false

/-- How many times a schedule gives a node to a worker. -/
def handedOut (cfg : SolverCfg σ) : Sys σ cfg.fr.F → List (Lbl σ) → Nat
  | _, [] => 0
  | s, l :: ls =>
    match l, Par.step cfg s l with
    | .run i _ _, .ok s' => (if GotNode s' i then 1 else 0) + handedOut cfg s' ls
    | .spurious _, .ok s' => handedOut cfg s' ls
    | _, _ => 0

/-- How many workers hold a node: from the moment they got it until they report that they have finished with it. -/
def holders {F : Type} (s : Sys σ F) : Nat :=
  s.threads.countP fun t => match t.pc with
    | .idle => false
    | .waiting => false
    | .done => false
    | _ => true

end Verif.Spec
