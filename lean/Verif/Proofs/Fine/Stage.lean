import Verif.Model.BarrierFine
import Mathlib.Data.DFinsupp.WellFounded
import Mathlib.Data.Prod.Lex
/-! How far a thread is from its next step of the coarse model. -/
set_option autoImplicit false

namespace Verif.Fine
open Verif
variable {σ : Type} [DecidableEq σ] [Inhabited σ] {cfg : SolverCfg σ}

abbrev Rank := Nat ×ₗ Nat ×ₗ Nat

def rank3 (a b c : Nat) : Rank := toLex (a, toLex (b, c))

theorem rank3_lt {a b c a' b' c' : Nat} : rank3 a b c < rank3 a' b' c' ↔ a < a' ∨ a = a' ∧ (b < b' ∨ b = b' ∧ c < c') := by
  simp [rank3, Prod.Lex.toLex_lt_toLex]

/-- The position of a compilation. -/
def workStage : Work σ → Rank
  | .top f _ _ _ => rank3 f 0 0
  | .look f _ _ _ _ => rank3 f 4 0
  | .prune f _ _ _ todo _ => rank3 f 3 todo.length
  | .test us (.more f _ _ _) => rank3 f 2 (2 * us.length)
  | .test us (.last _) => rank3 0 2 (2 * us.length)
  | .write _ us (.more f _ _ _) => rank3 f 2 (2 * us.length + 1)
  | .write _ us (.last _) => rank3 0 2 (2 * us.length + 1)

theorem layerEnd_stage {o : Oracle σ} {inp : Input σ} {f d var : Nat} {m : Dd σ} {l : List Nat} {w : Work σ} (h : layerEnd cfg o inp f d var m l = some w) :
    workStage w < rank3 f 3 0 := by
  unfold layerEnd at h
  split at h
  · cases h
  · cases h
    simp [workStage, rank3_lt]

/-- Each step of a compilation brings it closer to its end. -/
theorem stepWork_stage {o : Oracle σ} {inp : Input σ} {b b' : Bars σ} {w w' : Work σ} (h : stepWork cfg o inp b w = .next w' b') : workStage w' < workStage w := by
  have hend : ∀ {f d var : Nat} {m : Dd σ} {l : List Nat} {x : Rank}, (match layerEnd cfg o inp f d var m l with
      | none => WorkRes.panic
      | some w => .next w b) = .next w' b' → rank3 f 3 0 ≤ x → workStage w' < x := by
    intro f d var m l x h hx
    split at h
    · cases h
    · rename_i w1 h1
      cases h
      exact lt_of_lt_of_le (layerEnd_stage h1) hx
  cases w with
  | top f d m l =>
    cases f with
    | zero => simp [stepWork, layerTop] at h
    | succ f =>
      simp only [stepWork] at h
      split at h
      · cases h
      · rename_i w1 h1
        cases h
        unfold layerTop at h1
        simp only at h1
        split at h1
        · cases h1; simp [workStage, rank3_lt]
        · split at h1
          · cases h1; simp [workStage, rank3_lt]
          · split at h1
            · cases h1; simp [workStage, rank3_lt]
            · exact lt_of_lt_of_le (layerEnd_stage h1) (le_of_lt (by simp [workStage, rank3_lt]))
  | look f d var m l =>
    simp only [stepWork] at h
    split at h
    · cases h
    · split at h
      · exact hend h (le_of_lt (by simp [workStage, rank3_lt]))
      · cases h; simp [workStage, rank3_lt]
  | prune f d var m todo kept =>
    cases todo with
    | nil => simp only [stepWork] at h; exact hend h (le_of_eq rfl)
    | cons i todo =>
      simp only [stepWork] at h
      split at h
      · cases h; simp [workStage, rank3_lt]
      · cases h
  | test us k =>
    cases us with
    | nil => cases k <;> simp only [stepWork] at h <;> cases h; simp [workStage, rank3_lt]
    | cons u us =>
      simp only [stepWork] at h
      split at h
      · split at h <;> cases h <;> cases k <;> simp [workStage, rank3_lt] <;> omega
      · cases h
  | write u us k =>
    simp only [stepWork] at h
    split at h
    · cases h
    · cases h; cases k <;> simp [workStage, rank3_lt]

/-- The position of a thread. -/
def stage (cfg : SolverCfg σ) (c : BCrit σ cfg.fr.F) (t : BThread σ) : Option (Sub σ cfg.fr.F) → Rank
  | none =>
    match t.pc with
    | .idle => rank3 3 0 0
    | .restr _ _ => rank3 (cfg.p.nbVars + 3) 0 0
    | .relx _ _ _ => rank3 (cfg.p.nbVars + 3) 0 0
    | _ => rank3 0 0 0
  | some .clean => rank3 2 (cfg.p.nbVars - c.lowest) 0
  | some .pop => rank3 1 (cfg.fr.len c.fringe) 0
  | some (.take _ _ _) => rank3 0 0 0
  | some (.comp _ w) => workStage w

end Verif.Fine
