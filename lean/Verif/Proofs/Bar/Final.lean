import Verif.Proofs.Bar.Term
import Verif.Proofs.Bar.Past
/-! Consequences of the invariants of the solver with a barrier. -/
set_option autoImplicit false

namespace Verif.Bar
open Verif Spec
open Verif.Par (Less less_wf root_through)
variable {σ : Type} [DecidableEq σ] [Inhabited σ] {cfg : SolverCfg σ} {L : FrontierLaws cfg.fr} {S : Layering σ} {B : Int}

/-! ### The lower bound -/

theorem act_lb {v : Option (View σ)} {i : Nat} {c c' : BCrit σ cfg.fr.F} {b b' : Bars σ} {t t' : BThread σ} (ha : Act cfg L v i c b t c' b' t') :
    c.bestLb ≤ c'.bestLb := by
  cases ha with
  | restrict ho hD => exact (maybe_frame _ _).2.2
  | postExact hx => exact (maybe_frame _ _).2.2
  | _ => exact Int.le_refl _

theorem trans_lb {v : Option (View σ)} {r : Bool} {s s' : BSys σ cfg.fr.F} (ht : Trans cfg L v r s s') : s.crit.bestLb ≤ s'.crit.bestLb := by
  cases ht with
  | act hm _ ha => exact Int.le_trans (Int.le_of_eq (mics_keep hm).2.1.symm) (act_lb ha)
  | finish _ => exact Int.le_refl _
  | spurious => exact Int.le_refl _

theorem runs_lb (hg : BaseCfg cfg S B) (hn : cfg.nbThreads ≤ cfg.custom) {e : Bool} : ∀ (ls : List (BLbl σ)) (s s' : BSys σ cfg.fr.F), Inv L s e →
    (∀ l ∈ ls, BValidLbl l) → runs cfg s ls = .ok s' → s.crit.bestLb ≤ s'.crit.bestLb := by
  intro ls
  induction ls with
  | nil => intro s s' _ _ h; cases h; exact Int.le_refl _
  | cons l ls ih =>
    intro s s' hi hl h
    unfold runs at h
    split at h
    · rename_i s1 h1
      have ht := (step_trans (L := L) hg (hi.safe hn) (hl l (by simp))).2 s1 h1
      exact Int.le_trans (trans_lb ht) (ih s1 s' (trans_inv hg ht hi) (fun l hl' => hl l (by simp [hl'])) h)
    · cases h
    · cases h

/-! ### Progress -/

theorem not_blocked {s : BSys σ cfg.fr.F} {i : Nat} {t : BThread σ} {intr : Bool} {o : Oracle σ} {v : Option (View σ)} (ht : s.threads[i]? = some t)
    (h1 : t.pc ≠ .waiting) (h2 : t.pc ≠ .done) : step cfg s (.run i intr o v) ≠ .blocked := by
  simp only [step, ht]
  unfold stepThread
  simp only
  split
  · contradiction
  · contradiction
  · split <;> simp
  · split <;> simp
  · split
    · simp
    · split <;> simp
  · simp
  · split
    · simp
    · split <;> simp
  · split
    · simp
    · split <;> simp
  · split
    · simp
    · split <;> simp

theorem enabled (hg : BaseCfg cfg S B) (hn : cfg.nbThreads ≤ cfg.custom) {s : BSys σ cfg.fr.F} {e : Bool} (h : Inv L s e) {i : Nat} {t : BThread σ} (ht : s.threads[i]? = some t)
    (h1 : t.pc ≠ .waiting) (h2 : t.pc ≠ .done) (intr : Bool) {o : Oracle σ} (ho : o.Valid) (v : Option (View σ)) : ∃ s', step cfg s (.run i intr o v) = .ok s' := by
  have hp := (step_trans (L := L) hg (h.safe hn) (l := .run i intr o v) ho).1
  have hb := not_blocked (cfg := cfg) (intr := intr) (o := o) (v := v) ht h1 h2
  cases hs : step cfg s (.run i intr o v) with
  | ok s' => exact ⟨s', rfl⟩
  | panic => exact absurd hs hp
  | blocked => exact absurd hs hb

theorem busy_exists {s : BSys σ cfg.fr.F} {e : Bool} (h : Inv L s e) (hp : 0 < s.crit.ongoing) :
    ∃ (i : Nat) (t : BThread σ), s.threads[i]? = some t ∧ (heldDepth t).isSome = true := by
  rw [h.ong] at hp
  obtain ⟨t, ht, hb⟩ := List.countP_pos_iff.1 hp
  obtain ⟨i, hi⟩ := List.mem_iff_getElem?.1 ht
  exact ⟨i, t, hi, hb⟩

theorem busy_active {t : BThread σ} (h : (heldDepth t).isSome = true) : t.pc ≠ .waiting ∧ t.pc ≠ .done ∧ t.pc ≠ .idle := by
  obtain ⟨pc, m⟩ := t
  cases pc <;> simp [heldDepth] at h ⊢

/-! ### One worker -/

theorem reachable_single (L : FrontierLaws cfg.fr) (hg : GoodCfg cfg S B) (hco : CutOK cfg S) (h1 : cfg.nbThreads = 1) (hn : cfg.nbThreads ≤ cfg.custom)
    {s : BSys σ cfg.fr.F} (hr : SharpReachable cfg s) : Single L B s := by
  obtain ⟨s0, ls, g1, g2, g3⟩ := hr
  obtain ⟨s1, k1, k2, _⟩ := init_spec (cfg := cfg) L
  rw [g1] at k1; cases k1
  exact runs_single hg hco h1 hn ls s0 k2 (init_single hg g1) g2 s g3

theorem finished_covered {s : BSys σ cfg.fr.F} (h : Inv L s) (hs : Single L B s) (h1 : cfg.nbThreads = 1) (hf : BFinished s) (hi : s.crit.interrupted = false) :
    s.crit.bestUb = s.crit.bestLb ∧ ∀ ds w, Solution cfg.p ds w → w ≤ s.crit.bestLb := by
  have hlen := h.thr
  rw [h1] at hlen
  obtain ⟨t, ht⟩ := List.length_eq_one_iff.1 hlen
  have htm : t ∈ s.threads := by rw [ht]; simp
  have hpc := hf t htm
  obtain ⟨g1, g2, g3⟩ := h.done t htm hpc hi
  refine ⟨g3, ?_⟩
  intro ds w hw
  obtain ⟨pc, m⟩ := t
  simp only at hpc; subst hpc
  rcases (hs.cov hi _ ht).cov.cov w (root_through hw) with h2 | ⟨m, h2 | h2, h3⟩
  · exact h2
  · rw [show openNodes L s.crit ⟨.done, _⟩ = L.holds s.crit.fringe from rfl, g1] at h2; cases h2
  · cases h2

/-! ### Termination -/

/-- There is no infinite run without spurious wake-ups, whatever the number of cells. -/
theorem no_infinite_ok (hg : BaseCfg cfg S B) (st : Nat → BSys σ cfg.fr.F) (ls : Nat → BLbl σ) {e : Bool} {lost : Nat} (h0 : Inv L (st 0) e lost)
    (hv : ∀ k, BValidLbl (ls k)) (hs : ∀ k, step cfg (st k) (ls k) = .ok (st (k + 1))) (hr : ∀ k, isRun (ls k) = true) : False := by
  have htr : ∀ k, Inv L (st k) e lost → ∃ v, Trans cfg L v true (st k) (st (k + 1)) := by
    intro k h
    have hsafe : Safe (L := L) (st k) False lost := ⟨h.inv, h.ong, fun h => h.elim, h.genF, h.genW, h.len, h.cntO, h.low, h.cntG, h.post⟩
    have h1 := hr k
    have h2 := hs k
    have h3 := hv k
    cases hl : ls k with
    | spurious i => rw [hl] at h1; cases h1
    | run i intr o v =>
      rw [hl] at h2 h3
      exact ⟨_, ((step_at_room hg hsafe (show o.Valid from h3) (fun hp => by rw [h2] at hp; cases hp)).2 _ h2).trans⟩
  have hinv : ∀ k, Inv L (st k) e lost := by
    intro k
    induction k with
    | zero => exact h0
    | succ k ih =>
      obtain ⟨v, ht⟩ := htr k ih
      exact trans_inv hg ht ih
  have hdec : ∀ k, Relation.TransGen Less (measure L S (st (k + 1)).crit (st (k + 1)).threads) (measure L S (st k).crit (st k).threads) := by
    intro k
    obtain ⟨v, ht⟩ := htr k (hinv k)
    exact trans_less hg ht (hinv k)
  have key : ∀ x, Acc (Relation.TransGen Less) x → ∀ k, measure L S (st k).crit (st k).threads = x → False := by
    intro x hx
    induction hx with
    | intro x _ ih => intro k hk; exact ih (measure L S (st (k + 1)).crit (st (k + 1)).threads) (hk ▸ hdec k) (k + 1) rfl
  exact key _ (less_wf.transGen.apply _) 0 rfl

theorem no_infinite (hg : BaseCfg cfg S B) (_hn : cfg.nbThreads ≤ cfg.custom) (st : Nat → BSys σ cfg.fr.F) (ls : Nat → BLbl σ) {e : Bool} (h0 : Inv L (st 0) e)
    (hv : ∀ k, BValidLbl (ls k)) (hs : ∀ k, step cfg (st k) (ls k) = .ok (st (k + 1))) (hr : ∀ k, isRun (ls k) = true) : False :=
  no_infinite_ok hg st ls h0 hv hs hr

/-! ### Counting -/

theorem runs_explored : ∀ (ls : List (BLbl σ)) (s s' : BSys σ cfg.fr.F), runs cfg s ls = .ok s' → s'.crit.explored = s.crit.explored + (given cfg s ls).length := by
  intro ls
  induction ls with
  | nil => intro s s' h; cases h; rfl
  | cons l ls ih =>
    intro s s' h
    unfold runs at h
    split at h
    · rename_i s1 h1
      rw [ih s1 s' h]
      cases l with
      | spurious i =>
        rw [(step_spurious h1).1]
        simp only [given, h1]
      | run i intr o v =>
        simp only [given, h1, List.length_append]
        rcases step_cases h1 with ⟨t, w, _, _, hg, hn⟩ | ⟨_, h2, h3⟩
        · rw [(getWorkload_frame hg).2, hn]
          cases w <;> simp [itemCount] <;> omega
        · rw [h2, h3]; simp
    · cases h
    · cases h

end Verif.Bar
