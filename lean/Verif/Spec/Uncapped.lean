import Verif.Spec.Turns
/-!
Runs of the solver with a barrier in which threads see thresholds that were really stored, and in which the bound of a node is not lowered to that of its parent.
-/
set_option autoImplicit false

namespace Verif.Spec
variable {σ : Type} [DecidableEq σ] [Inhabited σ]

/-- The thresholds a worker stores when it gets from `t` to `t'`: that of the node it has been given, or those of the relaxed diagram it has compiled. -/
def offer (t t' : BThread σ) : List (Update σ) :=
  match t.pc, t'.pc with
  | .idle, .start n => [⟨n.path.length, n.state, n.value, true⟩]
  | .relx _ _ _, .post _ _ => t'.mdd.updates
  | _, _ => []

/-- The thresholds stored by a step from `s` to `s'`. -/
def offers {F : Type} (s s' : BSys σ F) : List (Update σ) := (s.threads.zip s'.threads).flatMap fun x => offer x.1 x.2

/-- All thresholds stored in a run. -/
def offered (cfg : SolverCfg σ) : BSys σ cfg.fr.F → List (BLbl σ) → List (Update σ)
  | _, [] => []
  | s, l :: ls =>
    match Bar.step cfg s l with
    | .ok s' => offers s s' ++ offered cfg s' ls
    | _ => []

/-- The step sees the barrier as it is, or at every access no threshold or one of `A` (compilations do not read the flag `explored`). -/
def Honest (A : List (Update σ)) : BLbl σ → Prop
  | .run _ _ _ (some v) => (∀ d s i, v.get d s = some i → ∃ e, ⟨d, s, i.theta, e⟩ ∈ A) ∧ ∀ k d s i, v.pop k d s = some i → ⟨d, s, i.theta, i.explored⟩ ∈ A
  | .run _ _ _ none => True
  | .spurious _ => True

/-- No node that is about to be pushed has a bound that is both improving and larger than that of its parent, to which it would be lowered. -/
def Uncapped {F : Type} (s : BSys σ F) : Prop :=
  ∀ t ∈ s.threads, ∀ n dd, t.pc = .post n dd → t.mdd.exact = false → ∀ q ∈ t.mdd.drainCutset, q.ub ≤ n.ub ∨ q.ub ≤ s.crit.bestLb

/-- `s` is reached by a run, interrupted or not, in which threads see stored thresholds only (stored at any time of the run, and perhaps replaced or removed since)
and in which no bound is lowered. -/
def HonestUncapped (cfg : SolverCfg σ) (s : BSys σ cfg.fr.F) : Prop :=
  ∃ s0 ls, Bar.init cfg = some s0 ∧ (∀ l ∈ ls, BValidLbl l ∧ Honest (offered cfg s0 ls) l) ∧ Along cfg Uncapped s0 ls ∧ Bar.runs cfg s0 ls = .ok s

/-- As `HonestUncapped`, when `interrupt()` always answers no: a run of `maximize()`. -/
def HonestUncappedMax (cfg : SolverCfg σ) (s : BSys σ cfg.fr.F) : Prop :=
  ∃ s0 ls, Bar.init cfg = some s0 ∧ (∀ l ∈ ls, BValidLbl l ∧ NoInterrupt l ∧ Honest (offered cfg s0 ls) l) ∧ Along cfg Uncapped s0 ls ∧ Bar.runs cfg s0 ls = .ok s

end Verif.Spec
