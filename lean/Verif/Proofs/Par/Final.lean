import Verif.Proofs.Par.Term
/-! Consequences of the invariant. -/
set_option autoImplicit false

namespace Verif.Par
open Verif Spec
variable {σ : Type} [DecidableEq σ] [Inhabited σ] {cfg : SolverCfg σ} {L : FrontierLaws cfg.fr} {S : Layering σ} {B : Int}

/-! ### Without interruption -/

theorem getWorkload_noint {c c' : Crit σ cfg.fr.F} {i : Nat} {w : WorkLoad σ} (h : getWorkload cfg c i false = some (c', w)) : c'.interrupted = c.interrupted := by
  unfold getWorkload at h
  simp only [Bool.false_eq_true, if_false] at h
  split at h
  · cases h; rfl
  · split at h
    · cases h; rfl
    · split at h
      · cases h; rfl
      · split at h
        · split at h
          · cases h; rfl
          · split at h
            · cases h; rfl
            · cases h
        · cases h

theorem maybe_frame (c : Crit σ cfg.fr.F) (D : Dd σ) :
    (maybeUpdateBest cfg c D).interrupted = c.interrupted ∧ (maybeUpdateBest cfg c D).explored = c.explored ∧ c.bestLb ≤ (maybeUpdateBest cfg c D).bestLb ∧
      (maybeUpdateBest cfg c D).ongoing = c.ongoing := by
  unfold maybeUpdateBest
  simp only
  split
  · exact ⟨rfl, rfl, by simp only; omega, rfl⟩
  · exact ⟨rfl, rfl, Int.le_refl _, rfl⟩

theorem enqueue_frame {c c' : Crit σ cfg.fr.F} {D : Dd σ} {ub : Int} (h : enqueueCutset cfg c D ub = some c') : c'.interrupted = c.interrupted ∧ c'.explored = c.explored := by
  unfold enqueueCutset at h
  split at h
  · cases h
  · cases h; exact ⟨rfl, rfl⟩

theorem step_noint {s s' : Sys σ cfg.fr.F} {l : Lbl σ} (hl : ∀ i intr o, l = .run i intr o → intr = false) (h : step cfg s l = .ok s') :
    s'.crit.interrupted = s.crit.interrupted := by
  cases l with
  | spurious i =>
    simp only [step] at h
    split at h
    · split at h
      · cases h; rfl
      · cases h
    · cases h
  | run i intr o =>
    have := hl i intr o rfl
    subst this
    simp only [step] at h
    split at h
    · cases h
    · rename_i t ht
      unfold stepThread at h
      simp only at h
      split at h
      · cases h
      · cases h
      · split at h
        · cases h
        all_goals
          rename_i hg
          cases h
          exact getWorkload_noint hg
      · split at h <;> (cases h; rfl)
      · split at h
        · cases h
        · cases h; exact (maybe_frame _ _).1
      · cases h; rfl
      · split at h
        · cases h
        · split at h
          · cases h; exact (maybe_frame _ _).1
          · split at h
            · cases h
            · rename_i he
              cases h; exact (enqueue_frame he).1
      · split at h
        · cases h
        · cases h; rfl

theorem runs_noint : ∀ (ls : List (Lbl σ)) (s s' : Sys σ cfg.fr.F), (∀ l ∈ ls, ∀ i intr o, l = .run i intr o → intr = false) → runs cfg s ls = .ok s' →
    s'.crit.interrupted = s.crit.interrupted := by
  intro ls
  induction ls with
  | nil => intro s s' _ h; cases h; rfl
  | cons l ls ih =>
    intro s s' hl h
    unfold runs at h
    split at h
    · rename_i s1 h1
      rw [ih s1 s' (fun l hl' => hl l (by simp [hl'])) h]
      exact step_noint (hl l (by simp)) h1
    · cases h
    · cases h

theorem init_noint {s : Sys σ cfg.fr.F} (h : init cfg = some s) : s.crit.interrupted = false ∧ s.crit.explored = 0 := by
  unfold init at h
  split at h
  · cases h
  · cases h; exact ⟨rfl, rfl⟩

theorem _root_.Verif.Spec.ReachableMax.reachable {s : Sys σ cfg.fr.F} (h : ReachableMax cfg s) : Reachable cfg s := by
  obtain ⟨s0, ls, h1, h2, _, h4⟩ := h; exact ⟨s0, ls, h1, h2, h4⟩

theorem _root_.Verif.Spec.ReachableMax.noint {s : Sys σ cfg.fr.F} (h : ReachableMax cfg s) : s.crit.interrupted = false := by
  obtain ⟨s0, ls, h1, _, h3, h4⟩ := h
  rw [runs_noint ls s0 s h3 h4]; exact (init_noint h1).1

/-! ### The lower bound -/

theorem act_lb (hg : BaseCfg cfg S B) {i : Nat} {c c' : Crit σ cfg.fr.F} {t t' : Thread σ} (ha : Act cfg L i c t c' t') : c.bestLb ≤ c'.bestLb := by
  cases ha with
  | restrict ho hD => exact (maybe_frame _ _).2.2.1
  | relaxExact ho hD hx => exact (maybe_frame _ _).2.2.1
  | _ => exact Int.le_refl _

theorem trans_lb (hg : BaseCfg cfg S B) {b : Bool} {s s' : Sys σ cfg.fr.F} (ht : Trans cfg L b s s') : s.crit.bestLb ≤ s'.crit.bestLb := by
  cases ht with
  | act ha => exact act_lb hg ha
  | finish _ => exact Int.le_refl _
  | spurious => exact Int.le_refl _

theorem runs_lb (hg : BaseCfg cfg S B) (hn : cfg.nbThreads ≤ cfg.custom) : ∀ (ls : List (Lbl σ)) (s s' : Sys σ cfg.fr.F), Inv L s →
    (∀ l ∈ ls, ValidLbl l) → runs cfg s ls = .ok s' → s.crit.bestLb ≤ s'.crit.bestLb := by
  intro ls
  induction ls with
  | nil => intro s s' _ _ h; cases h; exact Int.le_refl _
  | cons l ls ih =>
    intro s s' hi hl h
    unfold runs at h
    split at h
    · rename_i s1 h1
      have ht := (step_trans (L := L) hg (hi.safe hn) (hl l (by simp))).2 s1 h1
      exact Int.le_trans (trans_lb hg ht) (ih s1 s' (trans_inv hg ht hi) (fun l hl' => hl l (by simp [hl'])) h)
    · cases h
    · cases h

/-! ### Progress -/

theorem not_blocked {s : Sys σ cfg.fr.F} {i : Nat} {t : Thread σ} {intr : Bool} {o : Oracle σ} (ht : s.threads[i]? = some t) (h1 : t.pc ≠ .waiting) (h2 : t.pc ≠ .done) :
    step cfg s (.run i intr o) ≠ .blocked := by
  simp only [step, ht]
  unfold stepThread
  simp only
  split
  · contradiction
  · contradiction
  · split <;> simp
  · split <;> simp
  · split <;> simp
  · simp
  · split
    · simp
    · split
      · simp
      · split <;> simp
  · split <;> simp

theorem enabled (hg : BaseCfg cfg S B) (hn : cfg.nbThreads ≤ cfg.custom) {s : Sys σ cfg.fr.F} (h : Inv L s) {i : Nat} {t : Thread σ} (ht : s.threads[i]? = some t)
    (h1 : t.pc ≠ .waiting) (h2 : t.pc ≠ .done) (intr : Bool) {o : Oracle σ} (ho : o.Valid) : ∃ s', step cfg s (.run i intr o) = .ok s' := by
  have hp := (step_trans (L := L) hg (h.safe hn) (l := .run i intr o) ho).1
  have hb := not_blocked (cfg := cfg) (intr := intr) (o := o) ht h1 h2
  cases hs : step cfg s (.run i intr o) with
  | ok s' => exact ⟨s', rfl⟩
  | panic => exact absurd hs hp
  | blocked => exact absurd hs hb

theorem busy_exists {s : Sys σ cfg.fr.F} (h : Inv L s) (hp : 0 < s.crit.ongoing) : ∃ (i : Nat) (t : Thread σ), s.threads[i]? = some t ∧ Pc.busy t.pc = true := by
  rw [h.ong] at hp
  obtain ⟨t, ht, hb⟩ := List.countP_pos_iff.1 hp
  obtain ⟨i, hi⟩ := List.mem_iff_getElem?.1 ht
  exact ⟨i, t, hi, hb⟩

theorem busy_active {t : Thread σ} (h : Pc.busy t.pc = true) : t.pc ≠ .waiting ∧ t.pc ≠ .done ∧ t.pc ≠ .idle := by
  obtain ⟨pc, m⟩ := t
  cases pc <;> simp [Pc.busy] at h ⊢

/-! ### The end of a run -/

theorem finished_covered {s : Sys σ cfg.fr.F} (h : Inv L s) (hcov : Covered L s) (hn : 1 ≤ cfg.nbThreads) (hf : Finished s) (hi : s.crit.interrupted = false) :
    s.crit.bestUb = s.crit.bestLb ∧ ∀ ds w, Solution cfg.p ds w → w ≤ s.crit.bestLb := by
  have hlen := h.thr
  obtain ⟨t, ht⟩ : ∃ t, t ∈ s.threads := by
    cases hs : s.threads with
    | nil => rw [hs] at hlen; simp at hlen; omega
    | cons t l => exact ⟨t, by simp⟩
  obtain ⟨h1, h2, h3⟩ := h.done t ht (hf t ht) hi
  refine ⟨h3, ?_⟩
  intro ds w hw
  by_cases hlt : s.crit.bestLb < w
  · obtain ⟨n, hn, _⟩ := hcov hi w (root_through hw) hlt
    rw [h1, List.nil_append] at hn
    simp only [working, List.mem_filterMap] at hn
    obtain ⟨x, hx, hpc⟩ := hn
    rw [hf x hx] at hpc
    simp [Pc.node] at hpc
  · omega

/-! ### Termination -/

/-- There is no infinite run without spurious wake-ups. -/
theorem no_infinite (hg : BaseCfg cfg S B) (hn : cfg.nbThreads ≤ cfg.custom) (st : Nat → Sys σ cfg.fr.F) (ls : Nat → Lbl σ) (h0 : Inv L (st 0))
    (hv : ∀ k, ValidLbl (ls k)) (hs : ∀ k, step cfg (st k) (ls k) = .ok (st (k + 1))) (hr : ∀ k, isRun (ls k) = true) : False := by
  have hinv : ∀ k, Inv L (st k) := by
    intro k
    induction k with
    | zero => exact h0
    | succ k ih => exact trans_inv hg ((step_trans (L := L) hg (ih.safe hn) (hv k)).2 _ (hs k)) ih
  have hdec : ∀ k, Less (measure L S (st (k + 1))) (measure L S (st k)) := by
    intro k
    have ht := (step_trans (L := L) hg ((hinv k).safe hn) (hv k)).2 _ (hs k)
    rw [hr k] at ht
    exact trans_less hg ht (hinv k)
  have key : ∀ x, Acc Less x → ∀ k, measure L S (st k) = x → False := by
    intro x hx
    induction hx with
    | intro x _ ih => intro k hk; exact ih (measure L S (st (k + 1))) (hk ▸ hdec k) (k + 1) rfl
  exact key _ (less_wf.apply _) 0 rfl

/-! ### Interruption with a single thread -/

/-- After an interruption everybody has stopped and the bounds are valid. -/
def IntInv (s : Sys σ cfg.fr.F) : Prop :=
  s.crit.interrupted = true → (∀ t ∈ s.threads, t.pc = .done) ∧ ∀ w, Through cfg.p (rootNode cfg) w → w ≤ s.crit.bestLb ∨ w ≤ s.crit.bestUb

theorem trans_int (hg : BaseCfg cfg S B) (h1 : cfg.nbThreads = 1) {b : Bool} {s s' : Sys σ cfg.fr.F} (ht : Trans cfg L b s s') (h : Inv L s)
    (hcov : Covered L s) (hi : IntInv s) : IntInv s' := by
  cases ht with
  | finish hp =>
    intro h'
    have := (hi h').1 _ (mem_split.2 (Or.inr rfl))
    cases this
  | spurious =>
    intro h'
    have := (hi h').1 _ (mem_split.2 (Or.inr rfl))
    cases this
  | @act c c' t t' l1 l2 ha =>
    have stuck : c.interrupted = true → t.pc = .done := fun h' => (hi h').1 _ (mem_split.2 (Or.inr rfl))
    have frame : t.pc ≠ .done → c'.interrupted = c.interrupted → IntInv (⟨c', l1 ++ t' :: l2⟩ : Sys σ cfg.fr.F) := by
      intro hne e h'
      exact absurd (stuck (by rw [← e]; exact h')) hne
    cases ha with
    | restrict ho hD => exact frame (by simp) (maybe_frame _ _).1
    | relaxExact ho hD hx => exact frame (by simp) (maybe_frame _ _).1
    | @interrupt m ub f k1 hf k2 k3 =>
      have hthr := h.thr
      simp only [h1, List.length_append, List.length_cons] at hthr
      have e1 : l1 = [] := List.length_eq_zero_iff.1 (by omega)
      have e2 : l2 = [] := List.length_eq_zero_iff.1 (by omega)
      subst e1 e2
      have hong := h.ong
      simp [busyCount, Pc.busy] at hong
      intro _
      refine ⟨by simp, ?_⟩
      intro w hw
      by_cases hlt : c.bestLb < w
      · right
        obtain ⟨n, hn, hub, _⟩ := hcov k1 w hw hlt
        simp [working, Pc.node] at hn
        rcases k3 with k3 | ⟨_, q, _, _, k5⟩
        · omega
        · exact Int.le_trans hub (k5 n hn)
      · left; simp only; omega
    | _ => exact frame (by simp) rfl

theorem runs_int (hg : GoodCfg cfg S B) (hc : CutOK cfg S) (hn : cfg.nbThreads ≤ cfg.custom) (h1 : cfg.nbThreads = 1) : ∀ (ls : List (Lbl σ)) (s s' : Sys σ cfg.fr.F), Inv L s →
    Covered L s → IntInv s → (∀ l ∈ ls, ValidLbl l) → runs cfg s ls = .ok s' → IntInv s' := by
  intro ls
  induction ls with
  | nil => intro s s' _ _ h _ he; cases he; exact h
  | cons l ls ih =>
    intro s s' hi hcov hin hl h
    unfold runs at h
    split at h
    · rename_i s1 e1
      have ht := (step_trans (L := L) hg.base (hi.safe hn) (hl l (by simp))).2 s1 e1
      exact ih s1 s' (trans_inv hg.base ht hi) (trans_covered hg hc ht hi hcov) (trans_int hg.base h1 ht hi hcov hin) (fun l hl' => hl l (by simp [hl'])) h
    · cases h
    · cases h

theorem reachable_int (L : FrontierLaws cfg.fr) (hg : GoodCfg cfg S B) (hc : CutOK cfg S) (hn : cfg.nbThreads ≤ cfg.custom) (h1 : cfg.nbThreads = 1) {s : Sys σ cfg.fr.F}
    (hr : Reachable cfg s) : IntInv s := by
  obtain ⟨s0, ls, h1', h2, h3⟩ := hr
  obtain ⟨s1, g1, g2, g3⟩ := init_spec L hg.base
  have hz := (init_noint h1').1
  rw [h1'] at g1; cases g1
  refine runs_int (L := L) hg hc hn h1 ls s0 s g2 g3 ?_ h2 h3
  intro h; rw [hz] at h; cases h

/-! ### Counting -/

theorem getWorkload_explored {c c' : Crit σ cfg.fr.F} {i : Nat} {b : Bool} {w : WorkLoad σ} (h : getWorkload cfg c i b = some (c', w)) :
    c'.explored = c.explored + (match w with | .item _ => 1 | _ => 0) := by
  unfold getWorkload at h
  split at h
  · cases h; rfl
  · split at h
    · cases h; rfl
    · split at h
      · split at h
        · cases h; rfl
        · split at h
          · cases h; rfl
          · cases h
      · split at h
        · cases h; rfl
        · split at h
          · split at h
            · cases h; rfl
            · split at h
              · cases h; rfl
              · cases h
          · cases h

theorem gotNode_set {s : Sys σ cfg.fr.F} {i : Nat} {t t' : Thread σ} {c : Crit σ cfg.fr.F} (ht : s.threads[i]? = some t) :
    GotNode (⟨c, s.threads.set i t'⟩ : Sys σ cfg.fr.F) i = (match t'.pc with | .start _ => true | _ => false) := by
  have hlt := (List.getElem?_eq_some_iff.1 ht).1
  unfold GotNode
  simp only [List.getElem?_set_self hlt]
  cases t'.pc <;> rfl

theorem step_explored {s s' : Sys σ cfg.fr.F} {i : Nat} {b : Bool} {o : Oracle σ} (h : step cfg s (.run i b o) = .ok s') :
    s'.crit.explored = s.crit.explored + (if GotNode s' i then 1 else 0) := by
  simp only [step] at h
  split at h
  · cases h
  · rename_i t ht
    unfold stepThread at h
    simp only at h
    split at h
    · cases h
    · cases h
    · rename_i hidle
      split at h
      · cases h
      · rename_i hg; cases h
        rw [gotNode_set ht]; simp only; rw [getWorkload_explored hg]; rfl
      · rename_i hg; cases h
        rw [gotNode_set ht]; simp only; rw [getWorkload_explored hg]; rfl
      · rename_i hg; cases h
        rw [gotNode_set ht]; simp only [hidle]; rw [getWorkload_explored hg]; rfl
      · rename_i hg; cases h
        rw [gotNode_set ht]; simp only; rw [getWorkload_explored hg]; rfl
      · rename_i hg; cases h
        rw [gotNode_set ht]; simp only; rw [getWorkload_explored hg]; rfl
    · split at h <;> (cases h; rw [gotNode_set ht]; rfl)
    · split at h
      · cases h
      · rename_i D _
        cases h
        rw [gotNode_set ht]; simp only [(maybe_frame _ _).2.1]
        cases D.exact <;> rfl
    · cases h; rw [gotNode_set ht]; rfl
    · split at h
      · cases h
      · split at h
        · cases h
          rw [gotNode_set ht]; simp only [(maybe_frame _ _).2.1]; rfl
        · split at h
          · cases h
          · rename_i he
            cases h
            rw [gotNode_set ht]; simp only [(enqueue_frame he).2]; rfl
    · split at h
      · cases h
      · cases h
        have hlt := (List.getElem?_eq_some_iff.1 ht).1
        unfold GotNode
        simp only [List.getElem?_map, List.getElem?_set_self hlt, Option.map_some]
        rfl

theorem runs_explored : ∀ (ls : List (Lbl σ)) (s s' : Sys σ cfg.fr.F), runs cfg s ls = .ok s' → s'.crit.explored = s.crit.explored + handedOut cfg s ls := by
  intro ls
  induction ls with
  | nil => intro s s' h; cases h; rfl
  | cons l ls ih =>
    intro s s' h
    unfold runs at h
    split at h
    · rename_i s1 h1
      rw [ih s1 s' h]
      cases l with
      | spurious i =>
        have : s1.crit.explored = s.crit.explored := by
          simp only [step] at h1
          split at h1
          · split at h1
            · cases h1; rfl
            · cases h1
          · cases h1
        rw [this]
        simp only [handedOut, h1]
      | run i b o =>
        rw [step_explored h1]
        simp only [handedOut, h1]
        omega
    · cases h
    · cases h

end Verif.Par
