import Verif.Proofs.Bar.Narrow
import Verif.Proofs.Fine.Honest
/-! If the width suffices for all reachable states then the root is the only node, also when the accesses to the barrier interleave. -/
set_option autoImplicit false

namespace Verif.Fine
open Verif Spec Bar
variable {σ : Type} [DecidableEq σ] [Inhabited σ] {cfg : SolverCfg σ} {S S' : Layering σ} {B B' : Int}

theorem reachable_lone (L : FrontierLaws cfg.fr) (hg : NarrowCfg cfg S B S' B') (hn : cfg.nbThreads ≤ cfg.custom) {c : BSys σ cfg.fr.F} (hr : BReachable cfg c) : Lone L c := by
  obtain ⟨s0, ls, h0, hl, hs⟩ := hr
  obtain ⟨s1, e, hi, -⟩ := init_spec (cfg := cfg) L
  rw [h0] at e; cases e
  exact (offered_lone hg hn ls s0 hl hi (init_lone h0).1 hs).1

theorem freachable_plain (L : FrontierLaws cfg.fr) (hg : NarrowCfg cfg S B S' B') (hn : cfg.nbThreads ≤ cfg.custom) {s : FSys σ cfg.fr.F} (hr : FReachable cfg s) :
    ∀ t ∈ s.sys.threads, Pc.plain t.pc = true := by
  obtain ⟨c, h1, h2⟩ := reachable_rel L hg.base hn hr
  have := (reachable_lone L hg hn h1).pcs
  rw [h2.thr] at this
  exact this

theorem plain_uncapped {s : FSys σ cfg.fr.F} (h : ∀ t ∈ s.sys.threads, Pc.plain t.pc = true) : FUncapped s := by
  intro t ht n dd hpc
  have := h t ht
  rw [hpc] at this; cases this

theorem narrow_along (L : FrontierLaws cfg.fr) (hg : NarrowCfg cfg S B S' B') (hn : cfg.nbThreads ≤ cfg.custom) : ∀ (ls : List (FLbl σ)) (s : FSys σ cfg.fr.F), FReachable cfg s →
    (∀ l ∈ ls, FValidLbl l) → FAlong cfg FUncapped s ls
  | [], s, hr, _ => plain_uncapped (freachable_plain L hg hn hr)
  | l :: ls, s, hr, hl => by
    refine ⟨plain_uncapped (freachable_plain L hg hn hr), fun s' hs => narrow_along L hg hn ls s' ?_ fun x hx => hl x (by simp [hx])⟩
    obtain ⟨s0, ls0, h0, hls, hr0⟩ := hr
    refine ⟨s0, ls0 ++ [l], h0, ?_, ?_⟩
    · intro x hx
      rcases List.mem_append.1 hx with h | h
      · exact hls x h
      · rw [List.mem_singleton.1 h]; exact hl l (by simp)
    · have app : ∀ (a : List (FLbl σ)) (x : FSys σ cfg.fr.F), runs cfg x a = .ok s → runs cfg x (a ++ [l]) = runs cfg s [l] := by
        intro a
        induction a with
        | nil => intro x hx; cases hx; rfl
        | cons y a ih =>
          intro x hx
          simp only [runs, List.cons_append] at hx ⊢
          cases hy : step cfg x y with
          | ok z => simp only [hy] at hx ⊢; exact ih z hx
          | panic => rw [hy] at hx; cases hx
          | blocked => rw [hy] at hx; cases hx
      rw [app ls0 s0 hr0]
      simp only [runs, hs]

theorem finished_narrow (L : FrontierLaws cfg.fr) (hg : NarrowCfg cfg S B S' B') (h0 : 0 < cfg.nbThreads) (hn : cfg.nbThreads ≤ cfg.custom) {s : FSys σ cfg.fr.F} (hr : FReachable cfg s)
    (hf : FFinished s) (hint : s.sys.crit.interrupted = false) :
    (s.sys.crit.explored = 1 ∧ s.sys.crit.bestUb = s.sys.crit.bestLb ∧ ∀ ds w, Solution cfg.p ds w → w ≤ s.sys.crit.bestLb) ∧ Incumbent s.sys.crit := by
  obtain ⟨s0, ls, k0, k1, k2⟩ := hr
  have hal := narrow_along L hg hn ls s0 ⟨s0, [], k0, by simp, rfl⟩ k1
  obtain ⟨b, c0, bs, g1, g2, -, g4⟩ := finished_honest L hg.base hn ⟨s0, ls, k0, k1, hal, k2⟩ hf
  refine ⟨finished_lone (s := { s.sys with bars := b }) L hg h0 hn g1 g2 g4 hf hint, ?_⟩
  obtain ⟨s1, e, hi, -⟩ := init_spec (cfg := cfg) L
  rw [g1] at e; cases e
  exact ((runs_inv hg.base hn bs c0 hi fun l h => (g2 l h).1).2 _ g4).inc

end Verif.Fine
