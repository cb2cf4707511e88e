import Verif.Spec.Narrow
/-! How many states can be reached, computed. -/
set_option autoImplicit false

namespace Verif.Inst
open Verif Spec
variable {σ : Type} [DecidableEq σ]

/-- The states that can be reached from those of a list by one decision. -/
def nextLayer (p : Problem σ) (l : List σ) : List σ :=
  (l.flatMap fun s => match p.nextVar [s] with | none => [] | some x => (p.dom x s).map fun d => p.trans s d).eraseDups

/-- No more than `w` states in any of the next `k` layers. -/
def narrowFrom (p : Problem σ) (w : Nat) : Nat → List σ → Bool
  | 0, _ => true
  | k + 1, l => decide (l.length ≤ w) && narrowFrom p w k (nextLayer p l)

def narrowB (p : Problem σ) (w : Nat) : Bool := narrowFrom p w p.nbVars [p.init]

theorem narrowFrom_spec {p : Problem σ} {w : Nat} : ∀ (n : Nat) (l : List σ), narrowFrom p w n l = true → ∀ k, k < n →
    ∃ l' : List σ, l'.length ≤ w ∧ ∀ s0 ∈ l, ∀ ds v s, Run p s0 ds v s → ds.length = k → s ∈ l'
  | 0, _, _, k, hk => by omega
  | n + 1, l, h, k, hk => by
    simp only [narrowFrom, Bool.and_eq_true, decide_eq_true_eq] at h
    cases k with
    | zero =>
      refine ⟨l, h.1, ?_⟩
      intro s0 hs0 ds v s hr hlen
      have : ds = [] := List.length_eq_zero_iff.1 hlen
      subst this
      cases hr
      exact hs0
    | succ k =>
      obtain ⟨l', h1, h2⟩ := narrowFrom_spec n _ h.2 k (by omega)
      refine ⟨l', h1, ?_⟩
      intro s0 hs0 ds v s hr hlen
      cases hr with
      | nil => simp at hlen
      | cons hx hd hr =>
        refine h2 _ ?_ _ _ _ hr (by simpa using hlen)
        unfold nextLayer
        rw [List.mem_eraseDups, List.mem_flatMap]
        refine ⟨s0, hs0, ?_⟩
        simp only [hx]
        exact List.mem_map_of_mem hd

theorem narrowB_spec {p : Problem σ} {w : Nat} (h : narrowB p w = true) : Narrow p w := by
  intro k hk
  obtain ⟨l, h1, h2⟩ := narrowFrom_spec _ _ h k hk
  exact ⟨l, h1, fun ds v s hr hl => h2 _ (by simp) ds v s hr hl⟩

end Verif.Inst
