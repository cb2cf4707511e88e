import Verif.Props.Mdd
/-! C117: a relaxed diagram without a solution is exact.  (`src/mdd/with_all.rs:131-148`, `src/mdd/with_barrier.rs:146-163`) -/
set_option autoImplicit false

namespace Verif.Props
open Verif Spec Dd
variable {σ : Type} [DecidableEq σ] [Inhabited σ]
variable {v : Variant} {o : Oracle σ} {p : Problem σ} {r : Relaxation σ} {rank : σ → σ → Ordering} {rd : Reads σ}
  {S : Layering σ} {B : Int} {inp : Input σ}

/-- **C117.** A relaxed diagram without a best value is exact, also if nodes were merged. -/
theorem no_value_exact (ho : o.Valid) (hwf : WellFormed p S B) (hr : LayeredRelaxation p r S B) (hw : 1 ≤ inp.maxWidth) (hg : Genuine p inp.residual)
    (hc : inp.compType = .relaxed) (m0 : Dd σ) {D : Dd σ} (hD : m0.compile v o p r rank rd inp = some D) (hb : D.bestValue = none) : D.exact = true := by
  obtain ⟨m', k, jx, P, L, h, hd⟩ := compile_done (v := v) (o := o) (rank := rank) (rd := rd) ho hwf (fun _ => hr) (fun _ => hw) (hg.rootOK hwf) m0
  rw [h] at hD; cases hD
  have hs : Skel (m'.fin0 o inp) (m'.finish v o inp) := hd.skelAny hwf ho (hg.rootOK hwf)
  have hn : (m'.fin0 o inp).bestN = none := by
    rw [← hs.bestN]
    simpa [Dd.bestValue] using hb
  rw [hs.exact]
  simp only [fin0] at hn ⊢
  simp [isExactDd, hn, hc, hasExactBestPath]

/-- **C117.** Such a diagram without a barrier closes its subproblem: no completion is better than `best_lb`. -/
theorem no_value_closed (hv : NoBarrier v rd) (ho : o.Valid) (hwf : WellFormed p S B) (hadm : Admissible p S) (hr : SoundRelaxation p r S B) (hw : 1 ≤ inp.maxWidth)
    (hg : Genuine p inp.residual) (hc : inp.compType = .relaxed) (m0 : Dd σ) {D : Dd σ} (hD : m0.compile v o p r rank rd inp = some D) (hb : D.bestValue = none) :
    ∀ w, Through p inp.residual w → w ≤ inp.bestLb := by
  have hx := no_value_exact ho hwf hr.toLayeredRelaxation hw hg hc m0 hD hb
  intro w ht
  rcases (exact_flag hv ho hwf hadm (fun _ => hr) (fun _ => hw) hg m0 hD hx).1 w ht with h | ⟨b, h, _⟩
  · exact h
  · rw [hb] at h; cases h

/-- A knapsack of capacity 2 and a lower bound of 9: nodes are merged, then all are pruned, and the diagram is exact. -/
example : ∃ D, (Dd.new .lastExactLayer).compile .all Inst.orc (Knap.prob Inst.items 2) Knap.relaxation Inst.kpRank Reads.none
      ⟨.relaxed, 1, ⟨(0, 2), 0, [], isizeMax⟩, 9⟩ = some D ∧ D.approximate = true ∧ D.bestValue = none ∧ D.exact = true ∧
    ∀ w, Through (Knap.prob Inst.items 2) ⟨(0, 2), 0, [], isizeMax⟩ w → w ≤ 9 := by
  have h : ((Dd.new .lastExactLayer).compile .all Inst.orc (Knap.prob Inst.items 2) Knap.relaxation Inst.kpRank Reads.none
      ⟨.relaxed, 1, ⟨(0, 2), 0, [], isizeMax⟩, 9⟩).map (fun D => (D.approximate, D.bestValue)) = some (true, none) := by decide +kernel
  obtain ⟨D, hD, he⟩ := Option.map_eq_some_iff.1 h
  simp only [Prod.mk.injEq] at he
  have hg : Genuine (Knap.prob Inst.items 2) ⟨(0, 2), 0, [], isizeMax⟩ := ⟨[], .refl _, 0, Run.nil _, rfl⟩
  exact ⟨D, hD, he.1, he.2, no_value_exact Inst.orc_valid (Knap.wellFormed _ _ (by decide)) (Knap.soundRelaxation _ _).toLayeredRelaxation (by decide) hg rfl _ hD he.2,
    no_value_closed (Or.inl rfl) Inst.orc_valid (Knap.wellFormed _ _ (by decide)) (Knap.admissible _ _) (Knap.soundRelaxation _ _) (by decide) hg rfl _ hD he.2⟩

end Verif.Props
