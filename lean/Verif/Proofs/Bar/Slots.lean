import Verif.Proofs.Bar.Inv
import Verif.Proofs.Par.Slots
/-! The bounds registered by the workers. -/
set_option autoImplicit false

namespace Verif.Bar
open Verif Spec
variable {σ : Type}

/-- What the slot of a worker contains. -/
def Slot : BPc σ → Int → Prop
  | .idle, u => u = isizeMax
  | .waiting, u => u = isizeMax
  | .done, u => u = isizeMax
  | .start n, u => u = n.ub
  | .restr n _, u => u = n.ub
  | .relb n _, u => u = n.ub
  | .relx n _ _, u => u = n.ub
  | .post n _, u => u = n.ub
  | .fin _ _, _ => True

/-- Where the worker `j` is; there is nothing beyond the last one. -/
def pcAt (ts : List (BThread σ)) (j : Nat) : BPc σ := ((ts[j]?).map BThread.pc).getD .idle

/-- All slots are right. -/
def Slots (ubs : List Int) (ts : List (BThread σ)) : Prop := ∀ j, Slot (pcAt ts j) (ubs.getD j isizeMax)

theorem pcAt_self (l1 l2 : List (BThread σ)) (t : BThread σ) : pcAt (l1 ++ t :: l2) l1.length = t.pc := by
  simp [pcAt]

theorem pcAt_other (l1 l2 : List (BThread σ)) (t t' : BThread σ) {j : Nat} (h : j ≠ l1.length) : pcAt (l1 ++ t :: l2) j = pcAt (l1 ++ t' :: l2) j := by
  unfold pcAt
  rcases Nat.lt_or_ge j l1.length with g | g
  · rw [List.getElem?_append_left g, List.getElem?_append_left g]
  · rw [List.getElem?_append_right g, List.getElem?_append_right g]
    obtain ⟨k, hk⟩ : ∃ k, j - l1.length = k + 1 := ⟨j - l1.length - 1, by omega⟩
    rw [hk, List.getElem?_cons_succ, List.getElem?_cons_succ]

theorem Slots.keep {ubs : List Int} {l1 l2 : List (BThread σ)} {t t' : BThread σ} (h : Slots ubs (l1 ++ t :: l2))
    (ht : ∀ u, Slot t.pc u → Slot t'.pc u) : Slots ubs (l1 ++ t' :: l2) := by
  intro j
  by_cases hj : j = l1.length
  · subst hj
    have := h l1.length
    rw [pcAt_self] at this ⊢
    exact ht _ this
  · rw [pcAt_other l1 l2 t' t hj]; exact h j

theorem Slots.put {ubs : List Int} {l1 l2 : List (BThread σ)} {t t' : BThread σ} (h : Slots ubs (l1 ++ t :: l2)) {u : Int} (hlt : l1.length < ubs.length)
    (ht : Slot t'.pc u) : Slots (ubs.set l1.length u) (l1 ++ t' :: l2) := by
  intro j
  by_cases hj : j = l1.length
  · subst hj
    rw [pcAt_self, List.getD_eq_getElem?_getD, List.getElem?_set_self hlt]
    exact ht
  · rw [pcAt_other l1 l2 t' t hj, List.getD_eq_getElem?_getD, List.getElem?_set_ne (by omega), ← List.getD_eq_getElem?_getD]
    exact h j

theorem Slots.wake {ubs : List Int} {ts : List (BThread σ)} (h : Slots ubs ts) : Slots ubs (ts.map wake) := by
  intro j
  have := h j
  unfold pcAt at this ⊢
  rw [List.getElem?_map]
  revert this
  cases ts[j]? with
  | none => exact id
  | some t =>
    obtain ⟨pc, m⟩ := t
    cases pc <;> exact id

variable [DecidableEq σ] [Inhabited σ] {cfg : SolverCfg σ} {L : FrontierLaws cfg.fr} {S : Layering σ} {B : Int}

theorem maybe_ubs (c : BCrit σ cfg.fr.F) (D : Dd σ) : (maybeUpdateBest cfg c D).upperBounds = c.upperBounds := by
  unfold maybeUpdateBest
  simp only
  split <;> rfl

theorem mics_ubs {v : Option (View σ)} {c c' : BCrit σ cfg.fr.F} {b b' : Bars σ} (h : Mics cfg L v c b c' b') : c'.upperBounds = c.upperBounds ∧ c'.ongoing = c.ongoing ∧
    c'.interrupted = c.interrupted ∧ c'.bestUb = c.bestUb ∧ c'.bestLb = c.bestLb := by
  induction h with
  | nil => exact ⟨rfl, rfl, rfl, rfl, rfl⟩
  | cons hm _ ih =>
    cases hm <;> exact ih

theorem trans_slots {v : Option (View σ)} {r : Bool} {s s' : BSys σ cfg.fr.F} (ht : Trans cfg L v r s s') (hl : s.threads.length ≤ s.crit.upperBounds.length)
    (h : Slots s.crit.upperBounds s.threads) : Slots s'.crit.upperBounds s'.threads := by
  cases ht with
  | @act c b c1 b1 c' b' t t' l1 l2 hm _ ha =>
    simp only [List.length_append, List.length_cons] at hl
    have e := (mics_ubs hm).1
    simp only at h
    rw [← e] at h hl
    clear hm e
    cases ha with
    | complete => exact h.keep fun _ => id
    | stop => exact h.keep fun _ => id
    | interrupt => exact h.keep fun _ => id
    | wait => exact h.keep fun _ => id
    | prune => exact h.keep fun _ => id
    | drop => exact h.keep fun _ => id
    | take => exact h.put (by omega) rfl
    | early => exact h.keep fun _ _ => trivial
    | read1 => exact h.keep fun _ => id
    | @restrict m n lb o D =>
      simp only [maybe_ubs]
      refine h.keep ?_
      intro u hu
      simp only
      split
      · trivial
      · exact hu
    | read2 => exact h.keep fun _ => id
    | relax => exact h.keep fun _ => id
    | postExact => simp only [maybe_ubs]; exact h.keep fun _ _ => trivial
    | postCut => exact h.keep fun _ _ => trivial
  | @finish c b m d dd gb l1 l2 hp =>
    simp only [List.length_append, List.length_cons] at hl
    exact Slots.wake (h.put (by simp only; omega) rfl)
  | spurious => exact h.keep fun _ => id

theorem reachable_slots (L : FrontierLaws cfg.fr) (hg : BaseCfg cfg S B) (hn : cfg.nbThreads ≤ cfg.custom) {s : BSys σ cfg.fr.F} (hr : BReachable cfg s) :
    Slots s.crit.upperBounds s.threads := by
  obtain ⟨s0, ls, h1, h2, h3⟩ := hr
  obtain ⟨s1, g1, g2, g3⟩ := init_spec (cfg := cfg) L
  rw [h1] at g1; cases g1
  have h0 : Slots s0.crit.upperBounds s0.threads := by
    unfold init at h1
    split at h1
    · cases h1
      intro j
      simp only [pcAt, List.getElem?_replicate, List.getD_eq_getElem?_getD]
      split <;> split <;> rfl
    · cases h1
  clear h1 g3
  induction ls generalizing s0 with
  | nil => cases h3; exact h0
  | cons l ls ih =>
    unfold runs at h3
    split at h3
    · rename_i s2 hs
      have hv := h2 l (by simp)
      have ht := (step_trans (L := L) hg (g2.safe hn) hv).2 s2 hs
      exact ih s2 (fun l hl => h2 l (by simp [hl])) h3 (trans_inv hg ht g2) (trans_slots ht ((g2.safe hn).ubs trivial) h0)
    · cases h3
    · cases h3

end Verif.Bar
