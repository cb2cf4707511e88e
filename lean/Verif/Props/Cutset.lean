import Verif.Props.Mdd
import Verif.Proofs.Mdd.Cutset
/-!
C91: which subproblems a cutset consists of, and what their bounds are.
-/
set_option autoImplicit false

namespace Verif.Props
open Verif Spec Dd

variable {σ : Type} [DecidableEq σ] [Inhabited σ]
variable {v : Variant} {o : Oracle σ} {p : Problem σ} {r : Relaxation σ} {rank : σ → σ → Ordering} {rd : Reads σ}
  {S : Layering σ} {B : Int} {inp : Input σ}

/-- **C91.** With the last exact layer as cutset, the subproblems are those of the nodes of that layer from which the end of the diagram is reached, one for each, and their bounds are the
better of the two the diagram provides; if the diagram has exact nodes only, there are none. -/
theorem cutset_last_exact_layer (ho : o.Valid) (hwf : WellFormed p S B) (hr : LayeredRelaxation p r S B) (hct : inp.compType = .relaxed) (hw : 1 ≤ inp.maxWidth)
    (hg : Genuine p inp.residual) {m D : Dd σ} (hm : m.cutsetType = .lastExactLayer) (hD : m.compile v o p r rank rd inp = some D)
    (hx : v = .barrier ∨ D.exact = false) :
    (D.drainCutset = [] ∧ ∀ i, i < D.nodes.length → ExactNode D i) ∨
    ∃ d, LastExact S.lvl D d ∧ Consists p D fun i => i < D.nodes.length ∧ S.lvl (D.node i).state = d := by
  have hroot := hg.rootOK hwf
  obtain ⟨m', k, jx, P, L, h, hd⟩ := compile_done (v := v) (o := o) (rank := rank) (rd := rd) ho hwf (fun _ => hr) (fun _ => hw) hroot m
  rw [h] at hD; cases hD
  exact hd.lel_cut hwf ho hroot hct hx hm

/-- **C91.** The subproblems of a last exact layer have different states. -/
theorem cutset_states_differ (ho : o.Valid) (hwf : WellFormed p S B) (hr : LayeredRelaxation p r S B) (hct : inp.compType = .relaxed) (hw : 1 ≤ inp.maxWidth)
    (hg : Genuine p inp.residual) {m D : Dd σ} (hm : m.cutsetType = .lastExactLayer) (hD : m.compile v o p r rank rd inp = some D)
    (hx : v = .barrier ∨ D.exact = false) : (D.drainCutset.map (·.state)).Nodup := by
  have hroot := hg.rootOK hwf
  obtain ⟨m', k, jx, P, L, h, hd⟩ := compile_done (v := v) (o := o) (rank := rank) (rd := rd) ho hwf (fun _ => hr) (fun _ => hw) hroot m
  rw [h] at hD; cases hD
  exact (hd.lel_states hwf ho hroot hct hx hm).1

/-- **C91.** With the frontier as cutset, the subproblems are those of the exact nodes with an edge into an inexact node from which the end of the diagram is reached, and their bounds are the
better of the two the diagram provides. -/
theorem cutset_frontier (ho : o.Valid) (hwf : WellFormed p S B) (hr : LayeredRelaxation p r S B) (hct : inp.compType = .relaxed) (hw : 1 ≤ inp.maxWidth)
    (hg : Genuine p inp.residual) {m D : Dd σ} (hm : m.cutsetType = .frontier) (hD : m.compile v o p r rank rd inp = some D)
    (hx : v = .barrier ∨ D.exact = false) : Consists p D (OnFrontier p D) := by
  have hroot := hg.rootOK hwf
  obtain ⟨m', k, jx, P, L, h, hd⟩ := compile_done (v := v) (o := o) (rank := rank) (rd := rd) ho hwf (fun _ => hr) (fun _ => hw) hroot m
  rw [h] at hD; cases hD
  exact hd.frontier_cut hwf ho hroot hct hx hm

/-- **C91.** Diagrams that are not relaxed, and exact ones of `with_all`, have no cutset. -/
theorem cutset_none (ho : o.Valid) (hwf : WellFormed p S B) (hr : inp.compType = .relaxed → LayeredRelaxation p r S B)
    (hw : inp.compType = .relaxed → 1 ≤ inp.maxWidth) (hg : Genuine p inp.residual) {m D : Dd σ} (hD : m.compile v o p r rank rd inp = some D)
    (hx : inp.compType ≠ .relaxed ∨ (v = .all ∧ D.exact = true)) : D.drainCutset = [] := by
  have hroot := hg.rootOK hwf
  obtain ⟨m', k, jx, P, L, h, hd⟩ := compile_done (v := v) (o := o) (rank := rank) (rd := rd) ho hwf hr hw hroot m
  rw [h] at hD; cases hD
  exact hd.no_cut hwf ho hroot hx

/-- The relaxed knapsack of width 2 and the last exact layer: two subproblems. -/
example : ∃ D, (Dd.new .lastExactLayer).compile .all Inst.orc Inst.kp Knap.relaxation Inst.kpRank Reads.none ⟨.relaxed, 2, Inst.kpRoot, -1⟩ = some D ∧
    D.drainCutset.map (fun n => (n.state, n.value, n.ub)) = [((1, 5), 3, 13), ((1, 7), 0, 10)] ∧
    ∃ d, LastExact Knap.layering.lvl D d ∧ Consists Inst.kp D fun i => i < D.nodes.length ∧ Knap.layering.lvl (D.node i).state = d := by
  have h : ((Dd.new .lastExactLayer).compile .all Inst.orc Inst.kp Knap.relaxation Inst.kpRank Reads.none ⟨.relaxed, 2, Inst.kpRoot, -1⟩).map
      (fun D => (D.exact, D.drainCutset.map (fun n => (n.state, n.value, n.ub)))) = some (false, [((1, 5), 3, 13), ((1, 7), 0, 10)]) := by decide +kernel
  obtain ⟨D, hD, he⟩ := Option.map_eq_some_iff.1 h
  have h1 : D.exact = false := congrArg Prod.fst he
  have h2 := congrArg Prod.snd he
  refine ⟨D, hD, h2, ?_⟩
  rcases cutset_last_exact_layer Inst.orc_valid Inst.kp_wf Inst.kp_rel.toLayeredRelaxation rfl (by decide) Inst.kpRoot_genuine (m := Dd.new .lastExactLayer) rfl hD (Or.inr h1) with h3 | h3
  · simp only [] at h2
    rw [h3.1] at h2; cases h2
  · exact h3

/-- The same with the frontier: three subproblems, which lie in two layers. -/
example : ∃ D, (Dd.new .frontier).compile .all Inst.orc Inst.kp Knap.relaxation Inst.kpRank Reads.none ⟨.relaxed, 2, Inst.kpRoot, -1⟩ = some D ∧
    D.drainCutset.map (fun n => (n.state, n.value, n.ub)) = [((2, 2), 7, 13), ((1, 7), 0, 10), ((1, 5), 3, 13)] ∧
    Consists Inst.kp D (OnFrontier Inst.kp D) := by
  have h : ((Dd.new .frontier).compile .all Inst.orc Inst.kp Knap.relaxation Inst.kpRank Reads.none ⟨.relaxed, 2, Inst.kpRoot, -1⟩).map
      (fun D => (D.exact, D.drainCutset.map (fun n => (n.state, n.value, n.ub)))) = some (false, [((2, 2), 7, 13), ((1, 7), 0, 10), ((1, 5), 3, 13)]) := by decide +kernel
  obtain ⟨D, hD, he⟩ := Option.map_eq_some_iff.1 h
  exact ⟨D, hD, congrArg Prod.snd he, cutset_frontier Inst.orc_valid Inst.kp_wf Inst.kp_rel.toLayeredRelaxation rfl (by decide) Inst.kpRoot_genuine (m := Dd.new .frontier) rfl hD
    (Or.inr (congrArg Prod.fst he))⟩

end Verif.Props
