import Verif.Spec.BestFirst
import Verif.Proofs.Bar.Final
/-! The barrier solver explores nodes of large bounds first. -/
set_option autoImplicit false

namespace Verif.Bar
open Verif Spec
open Verif.Par (toPush mem_toPush mem_split combine_ub)
variable {σ : Type} [DecidableEq σ] [Inhabited σ] {cfg : SolverCfg σ} {L : FrontierLaws cfg.fr} {S : Layering σ} {B : Int}

theorem maybe_fringe (c : BCrit σ cfg.fr.F) (D : Dd σ) : (maybeUpdateBest cfg c D).fringe = c.fringe := by
  unfold maybeUpdateBest
  simp only
  split <;> rfl

theorem mics_fringe {v : Option (View σ)} {c c' : BCrit σ cfg.fr.F} {b b' : Bars σ} (hm : Mics cfg L v c b c' b') :
    ∀ n ∈ L.holds c'.fringe, n ∈ L.holds c.fringe := by
  induction hm with
  | nil => exact fun _ h => h
  | cons h _ ih =>
    intro n hn
    have := ih n hn
    cases h with
    | clean => exact this
    | skip _ _ h2 => exact h2.mem_iff.2 (by simp only at this; simp [this])

theorem act_atMost {v : Option (View σ)} {i : Nat} {c c' : BCrit σ cfg.fr.F} {b b' : Bars σ} {t t' : BThread σ} (ha : Act cfg L v i c b t c' b' t') {u : Int}
    (h1 : ∀ n ∈ L.holds c.fringe, n.ub ≤ u) (h2 : ∀ n, bInHand t.pc = some n → n.ub ≤ u) :
    (∀ n ∈ L.holds c'.fringe, n.ub ≤ u) ∧ ∀ n, bInHand t'.pc = some n → n.ub ≤ u := by
  cases ha with
  | complete _ _ => exact ⟨h1, by simp [bInHand]⟩
  | stop _ => exact ⟨h1, by simp [bInHand]⟩
  | interrupt _ _ g _ => exact ⟨by simp [g], by simp [bInHand]⟩
  | wait _ _ _ => exact ⟨h1, by simp [bInHand]⟩
  | prune _ _ g _ _ _ => exact ⟨by simp [g], by simp [bInHand]⟩
  | drop _ _ _ _ _ _ _ g => exact ⟨by simp [g], by simp [bInHand]⟩
  | take _ _ g _ _ _ _ _ _ =>
    refine ⟨fun q hq => h1 q (g.mem_iff.2 (by simp only at hq; simp [hq])), ?_⟩
    intro q hq
    cases hq
    exact h1 _ (g.mem_iff.2 (by simp))
  | early _ => exact ⟨h1, by simp [bInHand]⟩
  | read1 _ => exact ⟨h1, fun n hn => h2 n hn⟩
  | restrict ho hD hu =>
    refine ⟨by rw [maybe_fringe]; exact h1, ?_⟩
    intro n hn
    simp only at hn
    split at hn
    · cases hn
    · exact h2 n hn
  | read2 => exact ⟨h1, fun n hn => h2 n hn⟩
  | relax ho hD hb => exact ⟨h1, fun n hn => h2 n hn⟩
  | postExact hx => exact ⟨by rw [maybe_fringe]; exact h1, by simp [bInHand]⟩
  | @postCut D n dd f ob hx hf =>
    refine ⟨hf.ubs u ?_ h1, by simp [bInHand]⟩
    intro q hq
    obtain ⟨_, q', _, rfl⟩ := mem_toPush.1 hq
    have := h2 n rfl
    simp only
    omega

theorem trans_atMost {v : Option (View σ)} {r : Bool} {s s' : BSys σ cfg.fr.F} (ht : Trans cfg L v r s s') {u : Int} (h : BBoundsAtMost L s u) : BBoundsAtMost L s' u := by
  cases ht with
  | @act c b c1 b1 c' b' t t' l1 l2 hm _ ha =>
    obtain ⟨h1, h2⟩ := act_atMost ha (fun n hn => h.1 n (mics_fringe hm n hn)) (h.2 t (by simp))
    refine ⟨h1, fun x hx => ?_⟩
    rcases mem_split.1 hx with hx | rfl
    · exact h.2 x (mem_split.2 (Or.inl hx))
    · exact h2
  | @finish c b m d dd gb l1 l2 h0 hgb =>
    refine ⟨h.1, fun x hx n hn => ?_⟩
    have : ∀ (y : BThread σ), bInHand (wake y).pc = bInHand y.pc := by
      rintro ⟨pc, _⟩; cases pc <;> rfl
    obtain ⟨y, hy, rfl⟩ := List.mem_map.1 hx
    rw [this] at hn
    rcases mem_split.1 hy with hy | rfl
    · exact h.2 y (mem_split.2 (Or.inl hy)) n hn
    · cases hn
  | @spurious c b m l1 l2 =>
    refine ⟨h.1, fun x hx n hn => ?_⟩
    rcases mem_split.1 hx with hx | rfl
    · exact h.2 x (mem_split.2 (Or.inl hx)) n hn
    · cases hn

theorem runs_atMost (hg : BaseCfg cfg S B) (hn : cfg.nbThreads ≤ cfg.custom) {u : Int} : ∀ (ls : List (BLbl σ)) (s s' : BSys σ cfg.fr.F), Inv L s →
    (∀ l ∈ ls, BValidLbl l) → runs cfg s ls = .ok s' → BBoundsAtMost L s u → BBoundsAtMost L s' u := by
  intro ls
  induction ls with
  | nil => intro s s' _ _ h hb; cases h; exact hb
  | cons l ls ih =>
    intro s s' hi hl h hb
    unfold runs at h
    split at h
    · rename_i s1 h1
      have ht := (step_trans (L := L) hg (hi.safe hn) (hl l (by simp))).2 s1 h1
      exact ih s1 s' (trans_inv hg ht hi) (fun l hl' => hl l (by simp [hl'])) h (trans_atMost ht hb)
    · cases h
    · cases h

/-! ### One worker -/

/-- What is known when the single worker has just been given a node. -/
def Fresh (L : FrontierLaws cfg.fr) (s : BSys σ cfg.fr.F) : Prop := ∀ t ∈ s.threads, ∀ n, t.pc = .start n →
  s.crit.interrupted = false ∧ s.crit.bestLb < n.ub ∧ ∀ q ∈ L.holds s.crit.fringe, q.ub ≤ n.ub

theorem trans_fresh {v : Option (View σ)} {r : Bool} (h1 : cfg.nbThreads = 1) {s s' : BSys σ cfg.fr.F} (ht : Trans cfg L v r s s') (hi : Inv L s) : Fresh L s' := by
  have hthr := hi.thr
  rw [h1] at hthr
  cases ht with
  | @act c b c1 b1 c' b' t t' l1 l2 hm _ ha =>
    obtain ⟨rfl, rfl⟩ := one_split hthr
    intro x hx n hn
    simp only [List.nil_append, List.mem_singleton] at hx
    subst hx
    cases ha with
    | take g1 g2 g3 g4 g5 =>
      cases hn
      exact ⟨g1, g5, fun q hq => g4 q (g3.mem_iff.2 (by simp only at hq; simp [hq]))⟩
    | restrict ho hD hu => simp only at hn; split at hn <;> cases hn
    | _ => cases hn
  | @finish c b m d dd gb l1 l2 h0 hgb =>
    obtain ⟨rfl, rfl⟩ := one_split hthr
    intro x hx n hn
    simp [wake] at hx
    subst hx
    cases hn
  | @spurious c b m l1 l2 =>
    obtain ⟨rfl, rfl⟩ := one_split hthr
    intro x hx n hn
    simp at hx
    subst hx
    cases hn

theorem runs_fresh (hg : BaseCfg cfg S B) (hn : cfg.nbThreads ≤ cfg.custom) (h1 : cfg.nbThreads = 1) : ∀ (ls : List (BLbl σ)) (s s' : BSys σ cfg.fr.F), Inv L s →
    (∀ l ∈ ls, BValidLbl l) → runs cfg s ls = .ok s' → Fresh L s → Fresh L s' := by
  intro ls
  induction ls with
  | nil => intro s s' _ _ h hb; cases h; exact hb
  | cons l ls ih =>
    intro s s' hi hl h hb
    unfold runs at h
    split at h
    · rename_i s1 h2
      have ht := (step_trans (L := L) hg (hi.safe hn) (hl l (by simp))).2 s1 h2
      exact ih s1 s' (trans_inv hg ht hi) (fun l hl' => hl l (by simp [hl'])) h (trans_fresh h1 ht hi)
    · cases h
    · cases h

theorem reachable_fresh (L : FrontierLaws cfg.fr) (hg : BaseCfg cfg S B) (hn : cfg.nbThreads ≤ cfg.custom) (h1 : cfg.nbThreads = 1) {s : BSys σ cfg.fr.F}
    (hr : BReachable cfg s) : Fresh L s := by
  obtain ⟨s0, ls, g1, g2, g3⟩ := hr
  have hi := reachable_inv L hg hn ⟨s0, [], g1, by simp, rfl⟩
  refine runs_fresh hg hn h1 ls s0 s hi g2 g3 ?_
  obtain ⟨s1, k1, _, _, _, k5, _⟩ := init_spec (cfg := cfg) L
  rw [g1] at k1; cases k1
  intro t ht n hn
  rw [k5 t ht] at hn
  cases hn

end Verif.Bar
