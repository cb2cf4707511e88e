import Verif.Proofs.Par.Inv
/-! The bounds registered by the workers. -/
set_option autoImplicit false

namespace Verif.Par
open Verif Spec
variable {σ : Type}

/-- What the slot of a worker contains. -/
def Slot : Pc σ → Int → Prop
  | .idle, u => u = isizeMax
  | .waiting, u => u = isizeMax
  | .done, u => u = isizeMax
  | .start n, u => u = n.ub
  | .restr n _, u => u = n.ub
  | .relb n _, u => u = n.ub
  | .relx n _ _, u => u = n.ub
  | .fin _, _ => True

/-- Where the worker `j` is; there is nothing beyond the last one. -/
def pcAt (ts : List (Thread σ)) (j : Nat) : Pc σ := ((ts[j]?).map Thread.pc).getD .idle

/-- All slots are right. -/
def Slots (ubs : List Int) (ts : List (Thread σ)) : Prop := ∀ j, Slot (pcAt ts j) (ubs.getD j isizeMax)

theorem pcAt_self (l1 l2 : List (Thread σ)) (t : Thread σ) : pcAt (l1 ++ t :: l2) l1.length = t.pc := by
  simp [pcAt]

theorem pcAt_other (l1 l2 : List (Thread σ)) (t t' : Thread σ) {j : Nat} (h : j ≠ l1.length) : pcAt (l1 ++ t :: l2) j = pcAt (l1 ++ t' :: l2) j := by
  unfold pcAt
  rcases Nat.lt_or_ge j l1.length with g | g
  · rw [List.getElem?_append_left g, List.getElem?_append_left g]
  · rw [List.getElem?_append_right g, List.getElem?_append_right g]
    obtain ⟨k, hk⟩ : ∃ k, j - l1.length = k + 1 := ⟨j - l1.length - 1, by omega⟩
    rw [hk, List.getElem?_cons_succ, List.getElem?_cons_succ]

theorem Slots.keep {ubs : List Int} {l1 l2 : List (Thread σ)} {t t' : Thread σ} (h : Slots ubs (l1 ++ t :: l2))
    (ht : ∀ u, Slot t.pc u → Slot t'.pc u) : Slots ubs (l1 ++ t' :: l2) := by
  intro j
  by_cases hj : j = l1.length
  · subst hj
    have := h l1.length
    rw [pcAt_self] at this ⊢
    exact ht _ this
  · rw [pcAt_other l1 l2 t' t hj]; exact h j

theorem Slots.put {ubs : List Int} {l1 l2 : List (Thread σ)} {t t' : Thread σ} (h : Slots ubs (l1 ++ t :: l2)) {u : Int} (hlt : l1.length < ubs.length)
    (ht : Slot t'.pc u) : Slots (ubs.set l1.length u) (l1 ++ t' :: l2) := by
  intro j
  by_cases hj : j = l1.length
  · subst hj
    rw [pcAt_self, List.getD_eq_getElem?_getD, List.getElem?_set_self hlt]
    exact ht
  · rw [pcAt_other l1 l2 t' t hj, List.getD_eq_getElem?_getD, List.getElem?_set_ne (by omega), ← List.getD_eq_getElem?_getD]
    exact h j

theorem Slots.wake {ubs : List Int} {ts : List (Thread σ)} (h : Slots ubs ts) : Slots ubs (ts.map wake) := by
  intro j
  have := h j
  unfold pcAt at this ⊢
  rw [List.getElem?_map]
  revert this
  cases ts[j]? with
  | none => exact id
  | some t =>
    obtain ⟨pc, m⟩ := t
    cases pc <;> exact id

variable [DecidableEq σ] [Inhabited σ] {cfg : SolverCfg σ} {L : FrontierLaws cfg.fr} {S : Layering σ} {B : Int}

theorem maybe_ubs (c : Crit σ cfg.fr.F) (D : Dd σ) : (maybeUpdateBest cfg c D).upperBounds = c.upperBounds := by
  unfold maybeUpdateBest
  simp only
  split <;> rfl

theorem trans_slots {b : Bool} {s s' : Sys σ cfg.fr.F} (ht : Trans cfg L b s s') (hl : s.threads.length ≤ s.crit.upperBounds.length) (h : Slots s.crit.upperBounds s.threads) :
    Slots s'.crit.upperBounds s'.threads := by
  cases ht with
  | @act c c' t t' l1 l2 ha =>
    simp only [List.length_append, List.length_cons] at hl
    cases ha with
    | complete => exact h.keep fun _ => id
    | stop => exact h.keep fun _ => id
    | interrupt => exact h.keep fun _ => id
    | wait => exact h.keep fun _ => id
    | prune => exact h.keep fun _ => id
    | take => exact h.put (by simp only; omega) rfl
    | skip => exact h.keep fun _ _ => trivial
    | read1 => exact h.keep fun _ => id
    | @restrict m n lb o D =>
      simp only [maybe_ubs]
      refine h.keep ?_
      intro u hu
      simp only
      split
      · trivial
      · exact hu
    | read2 => exact h.keep fun _ => id
    | relaxExact => simp only [maybe_ubs]; exact h.keep fun _ _ => trivial
    | relaxCut => exact h.keep fun _ _ => trivial
  | @finish c m dd l1 l2 hp =>
    simp only [List.length_append, List.length_cons] at hl
    exact Slots.wake (h.put (by simp only; omega) rfl)
  | spurious => exact h.keep fun _ => id

theorem reachable_slots (L : FrontierLaws cfg.fr) (hg : BaseCfg cfg S B) (hn : cfg.nbThreads ≤ cfg.custom) {s : Sys σ cfg.fr.F} (hr : Reachable cfg s) :
    Slots s.crit.upperBounds s.threads := by
  obtain ⟨s0, ls, h1, h2, h3⟩ := hr
  obtain ⟨s1, g1, g2, g3⟩ := init_spec L hg
  rw [h1] at g1; cases g1
  have h0 : Slots s0.crit.upperBounds s0.threads := by
    unfold init at h1
    split at h1
    · cases h1
    · cases h1
      intro j
      simp only [pcAt, List.getElem?_replicate, List.getD_eq_getElem?_getD]
      split <;> split <;> rfl
  clear h1 g3
  induction ls generalizing s0 with
  | nil => cases h3; exact h0
  | cons l ls ih =>
    unfold runs at h3
    split at h3
    · rename_i s2 hs
      have hv := h2 l (by simp)
      have ht := (step_trans (L := L) hg (g2.safe hn) hv).2 s2 hs
      exact ih s2 (fun l hl => h2 l (by simp [hl])) h3 (trans_inv hg ht g2) (trans_slots ht (g2.safe hn).ubs h0)
    · cases h3
    · cases h3

theorem foldl_max (l : List Int) (a : Int) : (a ≤ l.foldl max a ∧ ∀ x ∈ l, x ≤ l.foldl max a) ∧ (l.foldl max a = a ∨ l.foldl max a ∈ l) := by
  induction l generalizing a with
  | nil => simp
  | cons b l ih =>
    obtain ⟨⟨h1, h2⟩, h3⟩ := ih (max a b)
    simp only [List.foldl_cons, List.mem_cons]
    refine ⟨⟨by omega, ?_⟩, ?_⟩
    · rintro x (rfl | hx)
      · omega
      · exact h2 x hx
    · rcases h3 with h | h
      · rw [h]; omega
      · exact Or.inr (Or.inr h)

/-- The recorded bound is the largest registered bound. -/
theorem ongoingUb_spec (ubs : List Int) : (∀ u ∈ ubs, u ≠ isizeMax → u ≤ ongoingUb ubs) ∧
    ((ongoingUb ubs = isizeMax ∧ ∀ u ∈ ubs, u = isizeMax) ∨ (ongoingUb ubs ∈ ubs ∧ ongoingUb ubs ≠ isizeMax)) := by
  unfold ongoingUb
  have hm : ∀ u, u ∈ ubs.filter (fun x => x ≠ isizeMax) ↔ u ∈ ubs ∧ u ≠ isizeMax := by intro u; simp
  split
  · rename_i he
    rw [he] at hm
    refine ⟨fun u h1 h2 => absurd ((hm u).2 ⟨h1, h2⟩) (by simp), Or.inl ⟨rfl, fun u h => Classical.byContradiction fun h2 => absurd ((hm u).2 ⟨h, h2⟩) (by simp)⟩⟩
  · rename_i u us he
    rw [he] at hm
    obtain ⟨⟨h1, h2⟩, h3⟩ := foldl_max us u
    refine ⟨?_, Or.inr ?_⟩
    · intro x hx hne
      rcases List.mem_cons.1 ((hm x).2 ⟨hx, hne⟩) with rfl | h
      · exact h1
      · exact h2 x h
    · rcases h3 with h | h
      · rw [h]; exact (hm u).1 (by simp)
      · exact (hm _).1 (List.mem_cons_of_mem _ h)

end Verif.Par
