import Verif.Spec.BestFirst
import Verif.Proofs.Par.Final
/-! The parallel solver explores nodes of large bounds first. -/
set_option autoImplicit false

namespace Verif.Par
open Verif Spec
variable {σ : Type} [DecidableEq σ] [Inhabited σ] {cfg : SolverCfg σ} {L : FrontierLaws cfg.fr} {S : Layering σ} {B : Int}

theorem inHand_eq (pc : Pc σ) : inHand pc = Pc.node pc := by cases pc <;> rfl

theorem maybe_fringe (c : Crit σ cfg.fr.F) (D : Dd σ) : (maybeUpdateBest cfg c D).fringe = c.fringe := by
  unfold maybeUpdateBest
  simp only
  split <;> rfl

theorem act_atMost {i : Nat} {c c' : Crit σ cfg.fr.F} {t t' : Thread σ} (ha : Act cfg L i c t c' t') {u : Int} (h1 : ∀ n ∈ L.holds c.fringe, n.ub ≤ u)
    (h2 : ∀ n, inHand t.pc = some n → n.ub ≤ u) : (∀ n ∈ L.holds c'.fringe, n.ub ≤ u) ∧ ∀ n, inHand t'.pc = some n → n.ub ≤ u := by
  cases ha with
  | complete _ _ => exact ⟨h1, by simp [inHand]⟩
  | stop _ _ => exact ⟨h1, by simp [inHand]⟩
  | interrupt _ _ g _ => exact ⟨by simp [g], by simp [inHand]⟩
  | wait _ _ _ => exact ⟨h1, by simp [inHand]⟩
  | prune _ _ g _ _ _ => exact ⟨by simp [g], by simp [inHand]⟩
  | take _ _ g _ _ =>
    refine ⟨fun q hq => h1 q (g.mem_iff.2 (by simp [hq])), ?_⟩
    intro q hq
    cases hq
    exact h1 _ (g.mem_iff.2 (by simp))
  | skip _ => exact ⟨h1, by simp [inHand]⟩
  | read1 _ => exact ⟨h1, fun n hn => h2 n hn⟩
  | restrict ho hD =>
    refine ⟨by rw [maybe_fringe]; exact h1, ?_⟩
    intro n hn
    simp only at hn
    split at hn
    · cases hn
    · exact h2 n hn
  | read2 => exact ⟨h1, fun n hn => h2 n hn⟩
  | relaxExact ho hD hx => exact ⟨by rw [maybe_fringe]; exact h1, by simp [inHand]⟩
  | @relaxCut m n lb dd o D f ho hD hx hf =>
    refine ⟨hf.all (fun q => q.ub ≤ u) (fun a b ha hb _ => combine_ub ha hb) ?_ h1, by simp [inHand]⟩
    intro q hq
    obtain ⟨_, q', _, rfl⟩ := mem_toPush.1 hq
    have := h2 n rfl
    simp only
    omega

theorem trans_atMost {b : Bool} {s s' : Sys σ cfg.fr.F} (ht : Trans cfg L b s s') {u : Int} (h : BoundsAtMost L s u) : BoundsAtMost L s' u := by
  cases ht with
  | @act c c' t t' l1 l2 ha =>
    obtain ⟨h1, h2⟩ := act_atMost ha h.1 (h.2 t (by simp))
    refine ⟨h1, fun x hx => ?_⟩
    rcases mem_split.1 hx with hx | rfl
    · exact h.2 x (mem_split.2 (Or.inl hx))
    · exact h2
  | @finish c m dd l1 l2 h0 =>
    refine ⟨h.1, fun x hx n hn => ?_⟩
    have : ∀ (y : Thread σ), inHand (wake y).pc = inHand y.pc := by
      rintro ⟨pc, _⟩; cases pc <;> rfl
    obtain ⟨y, hy, rfl⟩ := List.mem_map.1 hx
    rw [this] at hn
    rcases mem_split.1 hy with hy | rfl
    · exact h.2 y (mem_split.2 (Or.inl hy)) n hn
    · cases hn
  | @spurious c m l1 l2 =>
    refine ⟨h.1, fun x hx n hn => ?_⟩
    rcases mem_split.1 hx with hx | rfl
    · exact h.2 x (mem_split.2 (Or.inl hx)) n hn
    · cases hn

theorem runs_atMost (hg : BaseCfg cfg S B) (hn : cfg.nbThreads ≤ cfg.custom) {u : Int} : ∀ (ls : List (Lbl σ)) (s s' : Sys σ cfg.fr.F), Inv L s →
    (∀ l ∈ ls, ValidLbl l) → runs cfg s ls = .ok s' → BoundsAtMost L s u → BoundsAtMost L s' u := by
  intro ls
  induction ls with
  | nil => intro s s' _ _ h hb; cases h; exact hb
  | cons l ls ih =>
    intro s s' hi hl h hb
    unfold runs at h
    split at h
    · rename_i s1 h1
      have ht := (step_trans (L := L) hg (hi.safe hn) (hl l (by simp))).2 s1 h1
      exact ih s1 s' (trans_inv hg ht hi) (fun l hl' => hl l (by simp [hl'])) h (trans_atMost ht hb)
    · cases h
    · cases h

/-! ### One worker -/

/-- What is known when the single worker has just been given a node. -/
def Fresh (L : FrontierLaws cfg.fr) (s : Sys σ cfg.fr.F) : Prop := ∀ t ∈ s.threads, ∀ n, t.pc = .start n →
  s.crit.interrupted = false ∧ s.crit.bestLb < n.ub ∧ ∀ q ∈ L.holds s.crit.fringe, q.ub ≤ n.ub

theorem trans_fresh {b : Bool} (h1 : cfg.nbThreads = 1) {s s' : Sys σ cfg.fr.F} (ht : Trans cfg L b s s') (hi : Inv L s) : Fresh L s' := by
  have hthr := hi.thr
  rw [h1] at hthr
  have one : ∀ {l1 l2 : List (Thread σ)} {t : Thread σ}, (l1 ++ t :: l2).length = 1 → l1 = [] ∧ l2 = [] := by
    intro l1 l2 t h
    simp only [List.length_append, List.length_cons] at h
    exact ⟨List.length_eq_zero_iff.1 (by omega), List.length_eq_zero_iff.1 (by omega)⟩
  cases ht with
  | @act c c' t t' l1 l2 ha =>
    obtain ⟨rfl, rfl⟩ := one hthr
    intro x hx n hn
    simp only [List.nil_append, List.mem_singleton] at hx
    subst hx
    cases ha with
    | take g1 g2 g3 g4 g5 =>
      cases hn
      exact ⟨g1, g5, fun q hq => g4 q (g3.mem_iff.2 (by simp [hq]))⟩
    | restrict ho hD => simp only at hn; split at hn <;> cases hn
    | _ => cases hn
  | @finish c m dd l1 l2 h0 =>
    obtain ⟨rfl, rfl⟩ := one hthr
    intro x hx n hn
    simp [wake] at hx
    subst hx
    cases hn
  | @spurious c m l1 l2 =>
    obtain ⟨rfl, rfl⟩ := one hthr
    intro x hx n hn
    simp at hx
    subst hx
    cases hn

theorem runs_fresh (hg : BaseCfg cfg S B) (hn : cfg.nbThreads ≤ cfg.custom) (h1 : cfg.nbThreads = 1) : ∀ (ls : List (Lbl σ)) (s s' : Sys σ cfg.fr.F), Inv L s →
    (∀ l ∈ ls, ValidLbl l) → runs cfg s ls = .ok s' → Fresh L s → Fresh L s' := by
  intro ls
  induction ls with
  | nil => intro s s' _ _ h hb; cases h; exact hb
  | cons l ls ih =>
    intro s s' hi hl h hb
    unfold runs at h
    split at h
    · rename_i s1 h2
      have ht := (step_trans (L := L) hg (hi.safe hn) (hl l (by simp))).2 s1 h2
      exact ih s1 s' (trans_inv hg ht hi) (fun l hl' => hl l (by simp [hl'])) h (trans_fresh h1 ht hi)
    · cases h
    · cases h

theorem reachable_fresh (L : FrontierLaws cfg.fr) (hg : BaseCfg cfg S B) (hn : cfg.nbThreads ≤ cfg.custom) (h1 : cfg.nbThreads = 1) {s : Sys σ cfg.fr.F}
    (hr : Reachable cfg s) : Fresh L s := by
  obtain ⟨s0, ls, g1, g2, g3⟩ := hr
  obtain ⟨hi, _⟩ := reachable_inv L hg hn ⟨s0, [], g1, by simp, rfl⟩
  refine runs_fresh hg hn h1 ls s0 s hi g2 g3 ?_
  intro t ht n hn
  unfold init at g1
  split at g1
  · cases g1
  · cases g1
    rw [mem_replicate_eq ht] at hn
    cases hn

end Verif.Par
