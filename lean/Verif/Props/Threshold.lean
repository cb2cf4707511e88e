import Verif.Props.Mdd
import Verif.Proofs.Mdd.Threshold
/-!
C92: the thresholds a relaxed diagram stores, exactly.
-/
set_option autoImplicit false

namespace Verif.Props
open Verif Spec Dd

variable {σ : Type} [DecidableEq σ] [Inhabited σ]
variable {o : Oracle σ} {p : Problem σ} {r : Relaxation σ} {rank : σ → σ → Ordering} {rd : Reads σ}
  {S : Layering σ} {B : Int} {inp : Input σ}

/-- **C92.** The threshold of every node that is to be recorded is stored, and it is the largest value that respects the limits of all nodes the diagram leads to. -/
theorem thresholds_complete (ho : o.Valid) (hwf : WellFormed p S B) (hr : LayeredRelaxation p r S B) (hct : inp.compType = .relaxed) (hw : 1 ≤ inp.maxWidth)
    (hg : Genuine p inp.residual) (hest : ∀ s, S.ok s → InISize (p.estimate s)) (hrd : ∀ d s t, rd.theta d s = some t → InISize t) {m D : Dd σ}
    (hD : m.compile .barrier o p r rank rd inp = some D) {i : Nat} (hi : Recorded S.lvl D i) :
    ∃ u ∈ D.updates, u.depth = S.lvl (D.node i).state ∧ u.state = (D.node i).state ∧ Threshold p S.lvl rd inp.bestLb D i u.theta ∧
      (u.explored = false ↔ CutNode p S.lvl D i) := by
  have hroot := hg.rootOK hwf
  obtain ⟨m', k, jx, P, L, h, hd⟩ := compile_done (v := .barrier) (o := o) (rank := rank) (rd := rd) ho hwf (fun _ => hr) (fun _ => hw) hroot m
  rw [h] at hD; cases hD
  have hc := hd.head.core
  have hsk := hd.skelAny hwf ho hroot (o := o)
  obtain ⟨j, hj, hx⟩ := hd.live_lay hwf ho hroot hct hi.live hi.barred
  have hin := Lay_in hj hx
  obtain ⟨b, hT, _, hS⟩ := hd.sweep ho hct (o := o)
  have hst := hc.st j i hin
  have e1 : (b.node i).state = ((m'.finish .barrier o inp).node i).state := ((hS.skel.node i).state).symm
  have e2 : (b.node i).depth = (m'.node i).depth := by rw [(hT.skel.node i).depth, fin0_node]
  refine ⟨_, hS.updA i (Nat.zero_le _) (by rw [← hS.skel.len]; exact hi.live.1) (by rw [← (hS.skel.node i).deleted]; exact hi.live.2)
    (by rw [← (hS.skel.node i).exact]; exact hi.exact.2) ?_ ?_, ?_, e1, hd.threshold hwf ho hroot hct hest hrd hi.live, ?_⟩
  · have := hi.barred
    unfold Barred at this
    rw [← (hS.skel.node i).pruned]; simpa using this
  · have := (hd.stored hwf ho hroot hct hin).2 hi.above
    rw [e2]
    unfold Stored at this ⊢
    rw [show b.cutsetType = m'.cutsetType from hT.skel.cutsetType, show b.lelDepth = m'.lelDepth from hT.skel.lelDepth]; exact this
  · simp only []
    rw [e2, hst.2.2, (hsk.node i).state, fin0_node, hst.2.1]
  · rw [← hd.cut_flag hwf ho hroot hct hj hx]
    simp

/-- **C92.** Nothing else is stored, except the values of nodes at the time they are expanded. -/
theorem thresholds_only (ho : o.Valid) (hwf : WellFormed p S B) (hr : LayeredRelaxation p r S B) (hct : inp.compType = .relaxed) (hw : 1 ≤ inp.maxWidth)
    (hg : Genuine p inp.residual) (hest : ∀ s, S.ok s → InISize (p.estimate s)) (hrd : ∀ d s t, rd.theta d s = some t → InISize t) {m D : Dd σ}
    (hD : m.compile .barrier o p r rank rd inp = some D) {u : Update σ} (hu : u ∈ D.updates) :
    ∃ i, Recorded S.lvl D i ∧ u.depth = S.lvl (D.node i).state ∧ u.state = (D.node i).state ∧
      ((Threshold p S.lvl rd inp.bestLb D i u.theta ∧ (u.explored = false ↔ CutNode p S.lvl D i)) ∨
       (u.explored = false ∧ p.nextVar [u.state] ≠ none ∧
         u.theta = if inp.bestLb < satAdd (p.estimate u.state) (D.node i).value then (D.node i).value else satSub inp.bestLb (p.estimate u.state))) := by
  have hroot := hg.rootOK hwf
  obtain ⟨m', k, jx, P, L, h, hd⟩ := compile_done (v := .barrier) (o := o) (rank := rank) (rd := rd) ho hwf (fun _ => hr) (fun _ => hw) hroot m
  rw [h] at hD; cases hD
  have hc := hd.head.core
  have hsk := hd.skelAny hwf ho hroot (o := o)
  obtain ⟨b, hT, _, hS⟩ := hd.sweep ho hct (o := o)
  rcases hS.upd u hu with hu | ⟨i, _, hi, hdel, hex, hpr, hst, rfl⟩
  · rw [hT.upd] at hu
    obtain ⟨_, _, j, hj, i, hi, hx, hjx, rfl⟩ := hc.upd u hu
    have hin : InLay P L k k j i := Or.inr ⟨hj, hi⟩
    have hlay : i ∈ Lay P L k j := by rw [Lay_lt hj]; exact hi
    have hlv := (hc.st j i hin).2.1
    have hsn : ((m'.finish .barrier o inp).node i).state = (m'.node i).state := by rw [(hsk.node i).state, fin0_node]
    refine ⟨i, ⟨hd.lay_live hwf ho hroot (by omega) hlay, ⟨hd.node_lt hwf ho hroot hin, by rw [hd.node_exact hwf ho hroot]; exact hx⟩,
      hd.not_barred hwf ho hroot (by omega) hlay, ?_⟩, by rw [hsn, hlv], by rw [hsn], Or.inr ⟨rfl, ?_, ?_⟩⟩
    · intro hl d hle
      rw [show (m'.finish .barrier o inp).cutsetType = m'.cutsetType from hsk.cutsetType, hc.misc.2.2.2] at hl
      have hjj := hjx hl
      cases happ : m'.approximate with
      | false =>
        obtain ⟨i', _, hi'⟩ := hle.last
        have := (hd.all_exact hwf ho hroot hct happ hi'.1).2
        rw [hi'.2] at this; cases this
      | true =>
        have := lastExact_unique hle (hd.last_exact hwf ho hroot hct happ)
        rw [hsn, hlv]; omega
    · have := hd.next_inner hwf ho hroot hj hin (o := o)
      rw [hsn] at this; exact this
    · simp only [Promising, (hsk.node i).value, fin0_node, gt_iff_lt]
  · have hlt : i < (m'.finish .barrier o inp).nodes.length := by rw [hS.skel.len]; exact hi
    have hlive : Live (m'.finish .barrier o inp) i := ⟨hlt, by rw [(hS.skel.node i).deleted]; exact hdel⟩
    have hnb : ¬ Barred (m'.finish .barrier o inp) i := by
      unfold Barred
      rw [(hS.skel.node i).pruned, hpr]; simp
    obtain ⟨j, hj, hx⟩ := hd.live_lay hwf ho hroot hct hlive hnb
    have hin := Lay_in hj hx
    have e2 : (b.node i).depth = (m'.node i).depth := by rw [(hT.skel.node i).depth, fin0_node]
    have hst' := hc.st j i hin
    refine ⟨i, ⟨hlive, ⟨hlt, by rw [(hS.skel.node i).exact]; exact hex⟩, hnb, ?_⟩, ?_, ((hS.skel.node i).state).symm,
      Or.inl ⟨hd.threshold hwf ho hroot hct hest hrd hlive, ?_⟩⟩
    · refine (hd.stored hwf ho hroot hct hin).1 ?_
      rw [e2] at hst
      unfold Stored at hst ⊢
      rw [show b.cutsetType = m'.cutsetType from hT.skel.cutsetType, show b.lelDepth = m'.lelDepth from hT.skel.lelDepth] at hst; exact hst
    · simp only []
      rw [e2, hst'.2.2, (hsk.node i).state, fin0_node, hst'.2.1]
    · rw [← hd.cut_flag hwf ho hroot hct hj hx]
      simp

/-- **C92.** A threshold is never below the value with which the node was reached: reached again with no more, it is not expanded again. -/
theorem thresholds_ge_value (ho : o.Valid) (hwf : WellFormed p S B) (hr : LayeredRelaxation p r S B) (hct : inp.compType = .relaxed) (hw : 1 ≤ inp.maxWidth)
    (hg : Genuine p inp.residual) (hlb : inp.bestLb < isizeMax) {m D : Dd σ} (hD : m.compile .barrier o p r rank rd inp = some D) {i : Nat} {t : Int}
    (ht : Threshold p S.lvl rd inp.bestLb D i t) : (D.node i).value ≤ t := by
  have hroot := hg.rootOK hwf
  obtain ⟨m', k, jx, P, L, h, hd⟩ := compile_done (v := .barrier) (o := o) (rank := rank) (rd := rd) ho hwf (fun _ => hr) (fun _ => hw) hroot m
  rw [h] at hD; cases hD
  have hsk := hd.skelAny hwf ho hroot (o := o)
  obtain ⟨x, w, l, hwk, hl, hel⟩ := ht.attained
  have hx : Live (m'.finish .barrier o inp) x := by cases hl <;> assumption
  obtain ⟨j, hj, _⟩ := hd.node_layer hwf ho hroot hx.1
  have h1 := hd.limit_value hwf ho hroot hct hlb hj hl
  have h2 := hd.walk_value hwf hroot (hwk.congr (m := m'.finish .barrier o inp) (m' := m')
    (fun e => ((hsk.edge e).trans (fin0_edge o inp m' e)).symm) (fun i => ((hsk.inIds i).trans (fin0_inIds o inp m' i)).symm)) hj
  rw [(hsk.node i).value, fin0_node]
  omega

theorem kp_estimate (s : Knap.St) : InISize (Verif.Inst.kp.estimate s) := by
  have := Knap.total_drop Verif.Inst.items s.1
  have h2 : Knap.total Verif.Inst.items = 18 := by decide
  have h3 : Verif.Inst.kp.estimate s = (Knap.total (Verif.Inst.items.drop s.1) : Int) := rfl
  rw [h3]
  simp only [InISize, isizeMin, isizeMax]
  omega

/-- The relaxed knapsack of width 2 when 11 is known: nothing better than 10 is found below the state (1, 7) reached with value 0, so it need not be explored
when it is reached with 1 either. -/
example : ∃ D, (Dd.new .frontier).compile .barrier Inst.orc Inst.kp Knap.relaxation Inst.kpRank Reads.none ⟨.relaxed, 2, Inst.kpRoot, 11⟩ = some D ∧
    D.updates.map (fun u => (u.state, u.theta, u.explored)) = [((0, 7), 0, false), ((1, 5), 3, false), ((1, 7), 0, false), ((2, 2), 7, false),
      ((2, 2), 7, false), ((1, 7), 1, false), ((1, 5), 3, false), ((0, 7), 0, true)] ∧
    (D.node 2).state = (1, 7) ∧ ∃ u ∈ D.updates, u.state = (1, 7) ∧ Threshold Inst.kp Knap.layering.lvl Reads.none 11 D 2 u.theta := by
  have h : ((Dd.new .frontier).compile .barrier Inst.orc Inst.kp Knap.relaxation Inst.kpRank Reads.none ⟨.relaxed, 2, Inst.kpRoot, 11⟩).map
      (fun D => (D.updates.map (fun u => (u.state, u.theta, u.explored)), decide (D.cutsetType = .frontier ∧ 2 < D.nodes.length ∧ (D.node 2).state = (1, 7) ∧
        (D.node 2).flags.isDeleted = false ∧ (D.node 2).flags.isExact = true ∧ (D.node 2).flags.isPrunedByBarrier = false))) =
      some ([((0, 7), 0, false), ((1, 5), 3, false), ((1, 7), 0, false), ((2, 2), 7, false),
        ((2, 2), 7, false), ((1, 7), 1, false), ((1, 5), 3, false), ((0, 7), 0, true)], true) := by decide +kernel
  obtain ⟨D, hD, he⟩ := Option.map_eq_some_iff.1 h
  simp only [Prod.mk.injEq, decide_eq_true_eq] at he
  obtain ⟨e1, e2, e3, e4, e5, e6, e7⟩ := he
  refine ⟨D, hD, e1, e4, ?_⟩
  obtain ⟨u, hu, _, h2, h3, _⟩ := thresholds_complete Inst.orc_valid Inst.kp_wf Inst.kp_rel.toLayeredRelaxation rfl (by decide) Inst.kpRoot_genuine
    (fun s _ => kp_estimate s) (fun _ _ _ h => by cases h) hD (i := 2) ⟨⟨e3, e5⟩, ⟨e3, e6⟩, by unfold Barred; rw [e7]; simp, fun h => by rw [e2] at h; cases h⟩
  exact ⟨u, hu, h2.trans e4, h3⟩

end Verif.Props
