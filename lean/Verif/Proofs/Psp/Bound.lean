import Verif.Proofs.Psp.Changeover
import Verif.Proofs.Psp.Stocking
import Verif.Proofs.Psp.Merge
/-! The rough bound. -/
set_option autoImplicit false

namespace Verif.Psp
open Verif Spec
variable {I : Inst} {σ : List Edge → List Edge} {B : Nat}

/-- The two parts of the rough bound add up to at most the cost of any plan. -/
theorem rough_le (hσ : ∀ l, (σ l).Perm l) (hn : 1 ≤ I.periods) {s : State} (h : Ok I s) (ht : 1 ≤ s.time) {f : Plan} (hF : From I s f) {buf : List Nat} (hb : I.periods ≤ buf.length) :
    idealStocking I s.time s.u buf + (allMst I σ).getD (vertices s.k s.u) 0 ≤ costFrom I s f := by
  have h1 := ideal_le hn h hF
  have h2 := mst_le hσ h hF
  have h3 := idealStocking_eq (I := I) ht s.u (Nat.le_trans h.time hb)
  unfold costFrom
  omega

theorem estimate_nonneg (buf : List Nat) (s : State) : 0 ≤ estimate I σ buf s := by
  unfold estimate
  split
  · exact Int.le_refl _
  · exact Int.natCast_nonneg _

/-- The estimate does not depend on what an earlier call left in the buffer. -/
theorem estimate_buf {s : State} (h : Ok I s) {buf buf' : List Nat} (hb : I.periods ≤ buf.length) (hb' : I.periods ≤ buf'.length) : estimate I σ buf s = estimate I σ buf' s := by
  unfold estimate
  by_cases ht : s.time = 0
  · rw [if_pos ht, if_pos ht]
  · rw [if_neg ht, if_neg ht, idealStocking_eq (by omega) _ (Nat.le_trans h.time hb), idealStocking_eq (by omega) _ (Nat.le_trans h.time hb')]

/-- Completions never gain anything. -/
theorem completion_nonpos {s e : State} {ds : List Decision} {v : Int} (hr : Run (problem I σ) s ds v e) : v ≤ 0 := by
  induction hr with
  | nil s => exact Int.le_refl _
  | @cons s e x d ds v hx hd _ ih =>
    have : cost I s d ≤ 0 := by
      unfold cost
      split
      · exact Int.le_refl _
      · simp only; omega
    change cost I s d + v ≤ 0
    omega

/-- The bound with the opposite sign would be valid. -/
theorem neg_estimate (hσ : ∀ l, (σ l).Perm l) (hn : 1 ≤ I.periods) {s : State} (h : Ok I s) {ds : List Decision} {v : Int} (hc : Completion (problem I σ) s ds v) :
    v ≤ -(problem I σ).estimate s := by
  obtain ⟨e, hr, he⟩ := hc
  by_cases ht : s.time = 0
  · have h1 := completion_nonpos hr
    show v ≤ -estimate I σ _ s
    unfold estimate
    rw [if_pos ht]; omega
  · have hF : ∃ f, From I s f ∧ v = -(costFrom I s f : Int) := by
      obtain ⟨f, h1, _, h2⟩ := completion_plan hn hr he h (fun h => absurd h ht)
      exact ⟨f, h1, h2⟩
    obtain ⟨f, h1, h2⟩ := hF
    have h3 := rough_le hσ hn h (by omega) h1 (buf := List.replicate I.periods 0) (by simp)
    show v ≤ -estimate I σ _ s
    unfold estimate
    rw [if_neg ht]
    omega

end Verif.Psp
