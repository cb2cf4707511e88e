import Verif.Spec.Barrier
/-! Width heuristics. -/
set_option autoImplicit false

namespace Verif.Spec
variable {σ : Type} [DecidableEq σ] [Inhabited σ]

/-- `f` and the width of the solver agree on the states in which a variable is free. -/
def SameWidth (cfg : SolverCfg σ) (f : σ → Nat) : Prop := ∀ s, cfg.p.nextVar [s] ≠ none → f s = cfg.width s

/-- The solver with the parameters `cfg` panics in some run of `maximize()`. -/
def Panics (cfg : SolverCfg σ) : Prop :=
  ∃ s0 ls, Par.init cfg = some s0 ∧ (∀ l ∈ ls, ValidLbl l) ∧ (∀ l ∈ ls, ∀ i intr o, l = .run i intr o → intr = false) ∧ Par.runs cfg s0 ls = .panic

/-- The same for the solver with barriers. -/
def BPanics (cfg : SolverCfg σ) : Prop :=
  ∃ s0 ls, Bar.init cfg = some s0 ∧ (∀ l ∈ ls, BValidLbl l ∧ Sharp l ∧ NoInterrupt l) ∧ Bar.runs cfg s0 ls = .panic

end Verif.Spec
