import Verif.Proofs.Mdd.ThetaFrontier
import Verif.Examples.Instances
/-!
C12 - C21: what a compiled decision diagram guarantees.

Throughout: `p`, `r` any problem and relaxation, `S`, `B` the layering and cost bound that witness their well-formedness, `o` any valid
resolution of hash order and unstable sorting, `rank` any state ranking, `m0` the diagram object before the compilation (in any state),
`v` the diagram type (`All` or `Barrier`).  `Genuine p inp.residual`: the subproblem to compile is a real one.
-/
set_option autoImplicit false

namespace Verif.Props
open Verif Spec Dd

section
variable {σ : Type} [DecidableEq σ] [Inhabited σ]
variable {v : Variant} {o : Oracle σ} {p : Problem σ} {r : Relaxation σ} {rank : σ → σ → Ordering} {rd : Reads σ}
  {S : Layering σ} {B : Int} {inp : Input σ}

theorem noBarrier_not_prunedAt {w : Int} (h : ∀ d, rd.isEmpty d = true) : ¬ PrunedAt p S B rd inp w := by
  rintro ⟨d, s, θ, y, ds, u, h1, h2, h3, h4, h5⟩
  rw [h d] at h4; cases h4

/-- In variant `all` the reads are never consulted. -/
theorem all_ignores_barrier (m0 : Dd σ) (rd' : Reads σ) :
    m0.compile .all o p r rank rd inp = m0.compile .all o p r rank rd' inp := by
  have hl : ∀ fuel depth m currL, loop .all o p r rank rd inp inp.residual.path.length fuel depth m currL =
      loop .all o p r rank rd' inp inp.residual.path.length fuel depth m currL := by
    intro fuel
    induction fuel with
    | zero => intro depth m currL; rfl
    | succ fuel ih =>
      intro depth m currL
      simp only [loop, pruneLayer, ih]
  simp only [compile, hl]

/-- A compilation without barrier behaves as one with an empty barrier. -/
theorem noBarrier_reads (h : NoBarrier v rd) (m0 : Dd σ) :
    ∃ rd', (∀ d, rd'.isEmpty d = true) ∧ m0.compile v o p r rank rd inp = m0.compile v o p r rank rd' inp := by
  rcases h with rfl | h
  · exact ⟨Reads.none, fun _ => rfl, all_ignores_barrier m0 _⟩
  · exact ⟨rd, h, rfl⟩

/-- **C21.** A compilation neither panics nor loops (only merging with `max_width = 0` can panic). -/
theorem compile_total (ho : o.Valid) (hwf : WellFormed p S B) (hr : inp.compType = .relaxed → LayeredRelaxation p r S B)
    (hw : inp.compType = .relaxed → 1 ≤ inp.maxWidth) (hg : Genuine p inp.residual) (m0 : Dd σ) :
    ∃ D, m0.compile v o p r rank rd inp = some D := by
  obtain ⟨m', k, jx, P, L, h, _⟩ := compile_done (v := v) (o := o) (rank := rank) (rd := rd) ho hwf hr hw (hg.rootOK hwf) m0
  exact ⟨_, h⟩

/-- The knapsack meets the hypotheses; and with `max_width = 0` the relaxed compilation does panic (subtraction underflow, A:398 / B:453). -/
example : ∃ D, (Dd.new .lastExactLayer).compile .all Inst.orc Inst.kp Knap.relaxation Inst.kpRank Reads.none ⟨.relaxed, 2, Inst.kpRoot, -1⟩ = some D :=
  compile_total Inst.orc_valid Inst.kp_wf (fun _ => Inst.kp_rel.toLayeredRelaxation) (fun _ => by decide) Inst.kpRoot_genuine _

/-- **C21.** The hypothesis on the width is needed: with `max_width = 0` a relaxed compilation of a well-formed problem panics. -/
theorem relaxed_width_zero_panics :
    (Dd.new .lastExactLayer).compile .all Inst.orc Inst.kp Knap.relaxation Inst.kpRank Reads.none ⟨.relaxed, 0, Inst.kpRoot, -1⟩ = none := by
  decide +kernel

/-- **C21.** All ids stored in a compiled diagram are in range and the lists of inbound edges are finite. -/
theorem mdd_ids_in_range (ho : o.Valid) (hwf : WellFormed p S B) (hr : inp.compType = .relaxed → LayeredRelaxation p r S B)
    (hw : inp.compType = .relaxed → 1 ≤ inp.maxWidth) (hg : Genuine p inp.residual) (m0 : Dd σ) {D : Dd σ}
    (hD : m0.compile v o p r rank rd inp = some D) :
    (∀ i, i < D.nodes.length → ∀ e ∈ D.inIds i, e < D.edges.length ∧ (D.edge e).src < i) ∧
    (∀ e, e < D.edges.length → ∀ e', (D.edge e).next = some e' → e' < e) ∧
    (∀ i, i < D.nodes.length → ∀ e, (D.node i).best = some e → e ∈ D.inIds i) ∧
    (∀ i, D.bestN = some i → i < D.nodes.length) := by
  have hroot := hg.rootOK hwf
  obtain ⟨m', k, jx, P, L, h, hd⟩ := compile_done (v := v) (o := o) (rank := rank) (rd := rd) ho hwf hr hw hroot m0
  rw [h] at hD; cases hD
  have hc := hd.head.core
  have hsk := hd.skelAny hwf ho hroot (o := o)
  have hle : (m'.finish v o inp).edges.length = m'.edges.length := by rw [hsk.edges]; rfl
  have hln : (m'.finish v o inp).nodes.length = m'.nodes.length := hsk.len
  refine ⟨?_, ?_, ?_, ?_⟩
  · intro i hi e he
    rw [hln] at hi
    rw [hsk.inIds i, fin0_inIds] at he
    rw [hle, hsk.edge e, fin0_edge]
    refine ⟨inIds_lt hc.chain hi he, ?_⟩
    obtain ⟨j, hj⟩ := hc.all i hi
    cases j with
    | zero =>
      have := hc.root1 i hj
      subst this
      rw [hc.inIds_zero] at he; cases he
    | succ j => exact hc.incr j i hj _ (hc.src_layer hj he (Nat.le_refl _) (by omega)).1
  · intro e he e' hn
    rw [hle] at he
    rw [hsk.edge e, fin0_edge] at hn
    exact hc.chain.next e he e' hn
  · intro i hi e he
    rw [hln] at hi
    rw [(hsk.node i).best, fin0_node] at he
    rw [hsk.inIds i, fin0_inIds]
    obtain ⟨j, hj⟩ := hc.all i hi
    cases j with
    | zero =>
      have := hc.root1 i hj
      subst this
      rw [hc.root.2.2.2.1] at he; cases he
    | succ j =>
      obtain ⟨b, hb, hbest, _⟩ := (hc.node j i hj).veq
      rw [hbest] at he; cases he; exact hb
  · intro i hi
    rw [hln]
    rcases hd.bestValue hwf ho hroot (o := o) with ⟨h1, _⟩ | ⟨t, h1, h2, _⟩
    · rw [h1] at hi; cases hi
    · rw [h2] at hi; cases hi; exact hc.lt k i (Or.inl ⟨Nat.le_refl _, h1⟩)

/-- **C13.** Solutions reported after an exact or restricted compilation, or when `is_exact()`, are real: the path of the residual followed by a
complete assignment of the other variables (recorded last decision first), of the reported value. -/
theorem solution_real (ho : o.Valid) (hwf : WellFormed p S B) (hr : inp.compType = .relaxed → LayeredRelaxation p r S B)
    (hw : inp.compType = .relaxed → 1 ≤ inp.maxWidth) (hg : Genuine p inp.residual) (m0 : Dd σ) {D : Dd σ}
    (hD : m0.compile v o p r rank rd inp = some D) (hx : inp.compType ≠ .relaxed ∨ D.exact = true) {sol : List Decision}
    (hs : D.bestSolution = some sol) :
    ∃ b, D.bestValue = some b ∧ IsSolutionOf p sol b ∧ Through p inp.residual b ∧
      ∃ ds, Completion p inp.residual.state ds (b - inp.residual.value) ∧ sol = inp.residual.path ++ ds.reverse := by
  have hroot := hg.rootOK hwf
  obtain ⟨m', k, jx, P, L, h, hd⟩ := compile_done (v := v) (o := o) (rank := rank) (rd := rd) ho hwf hr hw hroot m0
  rw [h] at hD; cases hD
  obtain ⟨b, ds, h1, h2, h3⟩ := hd.solution hwf ho hroot hx hs
  refine ⟨b, h1, ?_, ⟨ds, _, h2, by omega⟩, ds, h2, h3⟩
  obtain ⟨ds0, hp, u, hrun, hv⟩ := hg
  obtain ⟨t, hrun', ht⟩ := h2
  refine ⟨ds0 ++ ds, ?_, u + (b - inp.residual.value), ⟨t, hrun.append hrun', ht⟩, by omega⟩
  rw [h3]
  exact hp.append (List.reverse_perm ds)

/-- A restricted compilation of width 1 below the subproblem in which the first item is taken: it reports a real solution. -/
example : ∃ D sol, (Dd.new .lastExactLayer).compile .all Inst.orc Inst.kp Knap.relaxation Inst.kpRank Reads.none ⟨.restricted, 1, Inst.kpSub, -1⟩ = some D ∧
    D.bestSolution = some sol ∧ IsSolutionOf Inst.kp sol 7 := by
  have h : ((Dd.new .lastExactLayer).compile .all Inst.orc Inst.kp Knap.relaxation Inst.kpRank Reads.none ⟨.restricted, 1, Inst.kpSub, -1⟩).map
      (fun D => (D.bestSolution, D.bestValue)) = some (some [⟨0, 1⟩, ⟨3, 0⟩, ⟨2, 0⟩, ⟨1, 1⟩], some 7) := by decide +kernel
  obtain ⟨D, hD, he⟩ := Option.map_eq_some_iff.1 h
  cases hs : D.bestSolution with
  | none => rw [hs] at he; cases he
  | some sol =>
    obtain ⟨b, h1, h2, _⟩ := solution_real Inst.orc_valid Inst.kp_wf (fun _ => Inst.kp_rel.toLayeredRelaxation) (by intro h; cases h) Inst.kpSub_genuine _ hD
      (Or.inl (by decide)) hs
    rw [hs, h1] at he
    cases he
    exact ⟨D, _, hD, hs, h2⟩

/-- `best_value()` and `best_solution()` are given together. -/
theorem solution_iff_value (D : Dd σ) : D.bestSolution.isSome = D.bestValue.isSome := by
  unfold Dd.bestSolution Dd.bestValue; cases D.bestN <;> rfl

/-- **C14** with a barrier: an improving completion is bounded by `best_value()` unless a threshold of the barrier cut it off. -/
theorem relaxed_upper_bound_barrier (ho : o.Valid) (hwf : WellFormed p S B) (hadm : Admissible p S) (hr : SoundRelaxation p r S B)
    (hc : inp.compType = .relaxed) (hw : 1 ≤ inp.maxWidth) (hg : Genuine p inp.residual) (m0 : Dd σ) {D : Dd σ}
    (hD : m0.compile v o p r rank rd inp = some D) {w : Int} (ht : Through p inp.residual w) (hlb : inp.bestLb < w) :
    (∃ b, D.bestValue = some b ∧ w ≤ b) ∨ PrunedAt p S B rd inp w := by
  have hroot := hg.rootOK hwf
  obtain ⟨m', k, jx, P, L, h, hd⟩ := compile_done (v := v) (o := o) (rank := rank) (rd := rd) ho hwf (fun _ => hr.toLayeredRelaxation) (fun _ => hw) hroot m0
  rw [h] at hD; cases hD
  exact hd.upper hwf ho hroot hadm (fun _ => hr) (by rw [hc]; intro h; cases h) ht hlb

/-- **C14.** A relaxed diagram bounds every completion of the residual that improves on `best_lb`. -/
theorem relaxed_upper_bound (hv : NoBarrier v rd) (ho : o.Valid) (hwf : WellFormed p S B) (hadm : Admissible p S) (hr : SoundRelaxation p r S B)
    (hc : inp.compType = .relaxed) (hw : 1 ≤ inp.maxWidth) (hg : Genuine p inp.residual) (m0 : Dd σ) {D : Dd σ}
    (hD : m0.compile v o p r rank rd inp = some D) {w : Int} (ht : Through p inp.residual w) (hlb : inp.bestLb < w) :
    ∃ b, D.bestValue = some b ∧ w ≤ b := by
  obtain ⟨rd', h1, h2⟩ := noBarrier_reads hv (o := o) (p := p) (r := r) (rank := rank) (inp := inp) m0
  rw [h2] at hD
  rcases relaxed_upper_bound_barrier ho hwf hadm hr hc hw hg m0 hD ht hlb with h | h
  · exact h
  · exact absurd h (noBarrier_not_prunedAt h1)

/-- The relaxed knapsack of width 2 bounds the solution of value 8. -/
example : ∃ D b, (Dd.new .lastExactLayer).compile .barrier Inst.revOrc Inst.kp Knap.relaxation Inst.kpRank Reads.none ⟨.relaxed, 2, Inst.kpRoot, 3⟩ = some D ∧
    D.bestValue = some b ∧ 8 ≤ b := by
  obtain ⟨D, hD⟩ := compile_total (v := .barrier) (o := Inst.revOrc) (rank := Inst.kpRank) (rd := Reads.none) (inp := ⟨.relaxed, 2, Inst.kpRoot, 3⟩)
    Inst.revOrc_valid Inst.kp_wf (fun _ => Inst.kp_rel.toLayeredRelaxation) (fun _ => by decide) Inst.kpRoot_genuine (Dd.new .lastExactLayer)
  obtain ⟨b, h1, h2⟩ := relaxed_upper_bound (Or.inr fun _ => rfl) Inst.revOrc_valid Inst.kp_wf Inst.kp_adm Inst.kp_rel rfl (by decide)
    Inst.kpRoot_genuine _ hD Inst.kp_through (by decide)
  exact ⟨D, b, hD, h1, h2⟩

/-- **C15** with a barrier. -/
theorem exact_flag_barrier (ho : o.Valid) (hwf : WellFormed p S B) (hadm : Admissible p S) (hr : inp.compType = .relaxed → SoundRelaxation p r S B)
    (hw : inp.compType = .relaxed → 1 ≤ inp.maxWidth) (hg : Genuine p inp.residual) (m0 : Dd σ) {D : Dd σ}
    (hD : m0.compile v o p r rank rd inp = some D) (hx : D.exact = true) {w : Int} (ht : Through p inp.residual w) (hlb : inp.bestLb < w) :
    (∃ b, D.bestValue = some b ∧ w ≤ b) ∨ PrunedAt p S B rd inp w := by
  have hroot := hg.rootOK hwf
  obtain ⟨m', k, jx, P, L, h, hd⟩ := compile_done (v := v) (o := o) (rank := rank) (rd := rd) ho hwf (fun h => (hr h).toLayeredRelaxation) hw hroot m0
  rw [h] at hD; cases hD
  refine hd.upper hwf ho hroot hadm hr ?_ ht hlb
  intro hres
  have hsk := hd.skelAny hwf ho hroot (o := o)
  rw [hsk.exact] at hx
  have he : (m'.fin0 o inp).exact = (!m'.approximate || (decide (inp.compType = .relaxed) && _)) := rfl
  rw [he, hres] at hx
  simpa using hx

/-- **C15.** When `is_exact()` holds, `best_value()` is the optimum of the residual subproblem (if that improves on `best_lb`), and no completion
is better than both `best_lb` and `best_value()`. -/
theorem exact_flag (hv : NoBarrier v rd) (ho : o.Valid) (hwf : WellFormed p S B) (hadm : Admissible p S)
    (hr : inp.compType = .relaxed → SoundRelaxation p r S B)
    (hw : inp.compType = .relaxed → 1 ≤ inp.maxWidth) (hg : Genuine p inp.residual) (m0 : Dd σ) {D : Dd σ}
    (hD : m0.compile v o p r rank rd inp = some D) (hx : D.exact = true) :
    (∀ w, Through p inp.residual w → w ≤ inp.bestLb ∨ ∃ b, D.bestValue = some b ∧ w ≤ b) ∧
    (∀ b, D.bestValue = some b → Through p inp.residual b) ∧
    (∀ w, BestThrough p inp.residual w → inp.bestLb < w → D.bestValue = some w) := by
  obtain ⟨rd', h1, h2⟩ := noBarrier_reads hv (o := o) (p := p) (r := r) (rank := rank) (inp := inp) m0
  rw [h2] at hD
  have up : ∀ w, Through p inp.residual w → inp.bestLb < w → ∃ b, D.bestValue = some b ∧ w ≤ b := by
    intro w ht hlb
    rcases exact_flag_barrier ho hwf hadm hr hw hg m0 hD hx ht hlb with h | h
    · exact h
    · exact absurd h (noBarrier_not_prunedAt h1)
  have re : ∀ b, D.bestValue = some b → Through p inp.residual b := by
    intro b hb
    have hs := solution_iff_value D
    rw [hb] at hs
    obtain ⟨sol, hsol⟩ := Option.isSome_iff_exists.1 hs
    obtain ⟨b', g1, _, g2, _⟩ := solution_real ho hwf (fun h => (hr h).toLayeredRelaxation) hw hg m0 hD (Or.inr hx) hsol
    rw [hb] at g1; cases g1; exact g2
  refine ⟨?_, re, ?_⟩
  · intro w ht
    by_cases hlb : inp.bestLb < w
    · exact Or.inr (up w ht hlb)
    · exact Or.inl (by omega)
  · intro w hb hlb
    obtain ⟨b, h1, h2⟩ := up w hb.1 hlb
    have := hb.2 b (re b h1)
    rw [h1]; congr 1; omega

/-- A relaxed diagram that is exact although nodes were merged (`has_exact_best_path`), for a knapsack that holds everything. -/
example : ∃ D, (Dd.new .lastExactLayer).compile .all Inst.orc (Knap.prob Inst.items 14) Knap.relaxation Inst.kpRank Reads.none
      ⟨.relaxed, 2, ⟨(0, 14), 0, [], isizeMax⟩, -1⟩ = some D ∧
    D.exact = true ∧ D.approximate = true ∧ D.bestValue = some 18 ∧ ∀ w, Through (Knap.prob Inst.items 14) ⟨(0, 14), 0, [], isizeMax⟩ w → w ≤ 18 := by
  have h : ((Dd.new .lastExactLayer).compile .all Inst.orc (Knap.prob Inst.items 14) Knap.relaxation Inst.kpRank Reads.none
      ⟨.relaxed, 2, ⟨(0, 14), 0, [], isizeMax⟩, -1⟩).map (fun D => (D.exact, D.approximate, D.bestValue)) = some (true, true, some 18) := by decide +kernel
  obtain ⟨D, hD, he⟩ := Option.map_eq_some_iff.1 h
  simp only [Prod.mk.injEq] at he
  obtain ⟨h1, _⟩ := exact_flag (Or.inl rfl) Inst.orc_valid (Knap.wellFormed _ _ (by decide)) (Knap.admissible _ _) (fun _ => Knap.soundRelaxation _ _)
    (fun _ => by decide) ⟨[], .refl _, 0, Run.nil _, rfl⟩ _ hD he.1
  refine ⟨D, hD, he.1, he.2.1, he.2.2, fun w hw => ?_⟩
  rcases h1 w hw with h | ⟨b, g1, g2⟩
  · simp only at h; omega
  · rw [he.2.2] at g1; cases g1; exact g2

/-- An exact compilation is exact. -/
theorem exact_compile_is_exact (ho : o.Valid) (hwf : WellFormed p S B) (hc : inp.compType = .exact) (hg : Genuine p inp.residual) (m0 : Dd σ) :
    ∃ D, m0.compile v o p r rank rd inp = some D ∧ D.exact = true := by
  have hroot := hg.rootOK hwf
  have hr : inp.compType = .relaxed → LayeredRelaxation p r S B := by rw [hc]; intro h; cases h
  have hw : inp.compType = .relaxed → 1 ≤ inp.maxWidth := by rw [hc]; intro h; cases h
  obtain ⟨m', k, jx, P, L, h, hd⟩ := compile_done (v := v) (o := o) (rank := rank) (rd := rd) ho hwf hr hw hroot m0
  refine ⟨_, h, ?_⟩
  have hsk := hd.skelAny hwf ho hroot (o := o)
  rw [hsk.exact]
  have he : (m'.fin0 o inp).exact = (!m'.approximate || (decide (inp.compType = .relaxed) && _)) := rfl
  rw [he, hd.head.core.appE hc]; rfl

/-- **C12.** An exact compilation computes the optimum of the residual subproblem, whenever it improves on `best_lb`. -/
theorem exact_compile_optimum (hv : NoBarrier v rd) (ho : o.Valid) (hwf : WellFormed p S B) (hadm : Admissible p S)
    (hc : inp.compType = .exact) (hg : Genuine p inp.residual) (m0 : Dd σ) :
    ∃ D, m0.compile v o p r rank rd inp = some D ∧ D.exact = true ∧
      (∀ w, BestThrough p inp.residual w → inp.bestLb < w → D.bestValue = some w) ∧
      (∀ w, Through p inp.residual w → w ≤ inp.bestLb ∨ ∃ b, D.bestValue = some b ∧ w ≤ b) ∧
      (∀ b, D.bestValue = some b → Through p inp.residual b) := by
  obtain ⟨D, h1, h2⟩ := exact_compile_is_exact (v := v) (o := o) (r := r) (rank := rank) (rd := rd) ho hwf hc hg m0
  obtain ⟨a, b, c⟩ := exact_flag hv ho hwf hadm (by rw [hc]; intro h; cases h) (by rw [hc]; intro h; cases h) hg m0 h1 h2
  exact ⟨D, h1, h2, c, a, b⟩

/-- The optimum of the knapsack is 9. -/
example : ∃ D, (Dd.new .frontier).compile .barrier Inst.revOrc Inst.kp Knap.relaxation Inst.kpRank Reads.none ⟨.exact, 1, Inst.kpRoot, -1⟩ = some D ∧
    D.bestValue = some 9 ∧ BestThrough Inst.kp Inst.kpRoot 9 := by
  obtain ⟨D, hD, _, _, h1, h2⟩ := exact_compile_optimum (v := .barrier) (r := Knap.relaxation) (rank := Inst.kpRank) (rd := Reads.none)
    (inp := ⟨.exact, 1, Inst.kpRoot, -1⟩) (Or.inr fun _ => rfl) Inst.revOrc_valid Inst.kp_wf Inst.kp_adm rfl Inst.kpRoot_genuine (Dd.new .frontier)
  have h : ((Dd.new .frontier).compile .barrier Inst.revOrc Inst.kp Knap.relaxation Inst.kpRank Reads.none ⟨.exact, 1, Inst.kpRoot, -1⟩).map
      (·.bestValue) = some (some 9) := by decide +kernel
  rw [hD] at h
  simp only [Option.map_some, Option.some.injEq] at h
  refine ⟨D, hD, h, h2 9 h, fun w hw => ?_⟩
  rcases h1 w hw with g | ⟨b, g1, g2⟩
  · simp only at g; omega
  · rw [h] at g1; cases g1; exact g2

/-- **C16** with a barrier: an improving completion is covered by the cutset unless a threshold of the barrier cut it off. -/
theorem lel_cutset_covers_barrier (ho : o.Valid) (hwf : WellFormed p S B) (hadm : Admissible p S) (hr : SoundRelaxation p r S B)
    (hc : inp.compType = .relaxed) (hw : 1 ≤ inp.maxWidth) (hg : Genuine p inp.residual) (m0 : Dd σ) (hm0 : m0.cutsetType = .lastExactLayer) {D : Dd σ}
    (hD : m0.compile v o p r rank rd inp = some D) (hx : D.exact = false) {w : Int} (ht : Through p inp.residual w) (hlb : inp.bestLb < w) :
    (∃ n ∈ D.drainCutset, ∃ w', Through p n w' ∧ w ≤ w' ∧ w' ≤ n.ub) ∨ PrunedAt p S B rd inp w := by
  have hroot := hg.rootOK hwf
  obtain ⟨m', k, jx, P, L, h, hd⟩ := compile_done (v := v) (o := o) (rank := rank) (rd := rd) ho hwf (fun _ => hr.toLayeredRelaxation) (fun _ => hw) hroot m0
  rw [h] at hD; cases hD
  exact hd.cover_lel hwf ho hroot hadm (fun _ => hr) hc (by rw [hd.head.core.misc.2.2.2]; exact hm0) (Or.inr hx) (hd.inexact hwf ho hroot hx).1 ht hlb

/-- **C16.** After an inexact relaxed compilation with the last exact layer as cutset, every complete solution through the residual that improves on
`best_lb` is matched by one through a drained subproblem, at least as good and within the bound of that subproblem. -/
theorem lel_cutset_covers (hv : NoBarrier v rd) (ho : o.Valid) (hwf : WellFormed p S B) (hadm : Admissible p S) (hr : SoundRelaxation p r S B)
    (hc : inp.compType = .relaxed) (hw : 1 ≤ inp.maxWidth) (hg : Genuine p inp.residual) (m0 : Dd σ) (hm0 : m0.cutsetType = .lastExactLayer) {D : Dd σ}
    (hD : m0.compile v o p r rank rd inp = some D) (hx : D.exact = false) {w : Int} (ht : Through p inp.residual w) (hlb : inp.bestLb < w) :
    ∃ n ∈ D.drainCutset, ∃ w', Through p n w' ∧ w ≤ w' ∧ w' ≤ n.ub := by
  obtain ⟨rd', h1, h2⟩ := noBarrier_reads hv (o := o) (p := p) (r := r) (rank := rank) (inp := inp) m0
  rw [h2] at hD
  rcases lel_cutset_covers_barrier ho hwf hadm hr hc hw hg m0 hm0 hD hx ht hlb with h | h
  · exact h
  · exact absurd h (noBarrier_not_prunedAt h1)

/-- An inexact relaxed compilation of the knapsack: the solution of value 8 is covered by one of the two drained subproblems. -/
example : ∃ D, (Dd.new .lastExactLayer).compile .all Inst.orc Inst.kp Knap.relaxation Inst.kpRank Reads.none ⟨.relaxed, 2, Inst.kpRoot, -1⟩ = some D ∧
    D.drainCutset.length = 2 ∧ ∃ n ∈ D.drainCutset, ∃ w', Through Inst.kp n w' ∧ 8 ≤ w' ∧ w' ≤ n.ub := by
  have h : ((Dd.new .lastExactLayer).compile .all Inst.orc Inst.kp Knap.relaxation Inst.kpRank Reads.none ⟨.relaxed, 2, Inst.kpRoot, -1⟩).map
      (fun D => (D.exact, D.drainCutset.length)) = some (false, 2) := by decide +kernel
  obtain ⟨D, hD, he⟩ := Option.map_eq_some_iff.1 h
  exact ⟨D, hD, congrArg Prod.snd he, lel_cutset_covers (Or.inl rfl) Inst.orc_valid Inst.kp_wf Inst.kp_adm Inst.kp_rel rfl (by decide) Inst.kpRoot_genuine
    (Dd.new .lastExactLayer) rfl hD (congrArg Prod.fst he) Inst.kp_through (by decide)⟩

/-- **C17.** Every drained subproblem is genuine, extends the residual's path, is strictly deeper, and its bound is at most `best_value()`. -/
theorem cutset_genuine (ho : o.Valid) (hwf : WellFormed p S B) (hr : inp.compType = .relaxed → LayeredRelaxation p r S B)
    (hw : inp.compType = .relaxed → 1 ≤ inp.maxWidth) (hg : Genuine p inp.residual) (m0 : Dd σ) {D : Dd σ}
    (hD : m0.compile v o p r rank rd inp = some D) {n : SubProblem σ} (hn : n ∈ D.drainCutset) :
    Genuine p n ∧ inp.residual.path.length < n.path.length ∧ inp.residual.path <+: n.path ∧
      (∃ ds, Run p inp.residual.state ds (n.value - inp.residual.value) n.state) ∧ ∃ b, D.bestValue = some b ∧ n.ub ≤ b := by
  have hroot := hg.rootOK hwf
  obtain ⟨m', k, jx, P, L, h, hd⟩ := compile_done (v := v) (o := o) (rank := rank) (rd := rd) ho hwf hr hw hroot m0
  rw [h] at hD; cases hD
  obtain ⟨ds, h1, h2, h3, h4⟩ := hd.drained hwf ho hroot hn
  refine ⟨?_, ?_, ⟨_, h1.symm⟩, ⟨ds, h3⟩, h4⟩
  · obtain ⟨ds0, hp, u, hrun, hv⟩ := hg
    refine ⟨ds0 ++ ds, ?_, u + (n.value - inp.residual.value), hrun.append h3, by omega⟩
    rw [h1]; exact hp.append (List.reverse_perm ds)
  · rw [h1]; cases ds with
    | nil => exact absurd rfl h2
    | cons d ds => simp

/-- Two subproblems are drained from the relaxed knapsack; both are genuine. -/
example : ∃ D, (Dd.new .lastExactLayer).compile .barrier Inst.orc Inst.kp Knap.relaxation Inst.kpRank Reads.none ⟨.relaxed, 2, Inst.kpRoot, -1⟩ = some D ∧
    D.drainCutset.length = 2 ∧ ∀ n ∈ D.drainCutset, Genuine Inst.kp n := by
  have h : ((Dd.new .lastExactLayer).compile .barrier Inst.orc Inst.kp Knap.relaxation Inst.kpRank Reads.none ⟨.relaxed, 2, Inst.kpRoot, -1⟩).map
      (fun D => D.drainCutset.length) = some 2 := by decide +kernel
  obtain ⟨D, hD, he⟩ := Option.map_eq_some_iff.1 h
  exact ⟨D, hD, he, fun n hn => (cutset_genuine Inst.orc_valid Inst.kp_wf (fun _ => Inst.kp_rel.toLayeredRelaxation) (fun _ => by decide) Inst.kpRoot_genuine _ hD hn).1⟩

theorem nodup_subset_length : ∀ (l l' : List Nat), l.Nodup → (∀ x ∈ l, x ∈ l') → l.length ≤ l'.length := by
  intro l
  induction l with
  | nil => intro l' _ _; simp
  | cons a l ih =>
    intro l' hn hs
    rw [List.nodup_cons] at hn
    have hp := List.perm_cons_erase (hs a (by simp))
    have h1 := ih (l'.erase a) hn.2 (fun x hx => by
      rcases List.mem_cons.1 (hp.mem_iff.1 (hs x (by simp [hx]))) with rfl | h
      · exact absurd hx hn.1
      · exact h)
    have := hp.length_eq
    simp only [List.length_cons] at this ⊢
    omega

/-- **C18.** In a restricted diagram at most `max_width` nodes of a layer are branched on; in a relaxed one the same holds for the layers more than one
decision below the root.  (`depth` is the number of decisions taken; a node is branched on if it is the source of an edge.) -/
theorem width_respected (ho : o.Valid) (hwf : WellFormed p S B) (hr : inp.compType = .relaxed → LayeredRelaxation p r S B)
    (hw : inp.compType = .relaxed → 1 ≤ inp.maxWidth) (hg : Genuine p inp.residual) (m0 : Dd σ) {D : Dd σ}
    (hD : m0.compile v o p r rank rd inp = some D) (d : Nat)
    (hd : inp.compType = .restricted ∨ (inp.compType = .relaxed ∧ inp.residual.path.length + 1 < d)) (l : List Nat) (hl : l.Nodup)
    (hb : ∀ i ∈ l, (D.node i).depth = d ∧ ∃ q, q < D.nodes.length ∧ ∃ e ∈ D.inIds q, (D.edge e).src = i) : l.length ≤ inp.maxWidth := by
  have hroot := hg.rootOK hwf
  obtain ⟨m', k, jx, P, L, h, hd'⟩ := compile_done (v := v) (o := o) (rank := rank) (rd := rd) ho hwf hr hw hroot m0
  rw [h] at hD; cases hD
  have hc := hd'.head.core
  have hsk := hd'.skelAny hwf ho hroot (o := o)
  have key : ∀ i ∈ l, ∃ j, j < k ∧ d = inp.residual.path.length + j ∧ i ∈ L j := by
    intro i hi
    obtain ⟨h1, q, hq, e, he, hs⟩ := hb i hi
    have hq' : q < m'.nodes.length := by have := hsk.len; rw [this] at hq; exact hq
    rw [hsk.inIds q, fin0_inIds] at he
    rw [hsk.edge e, fin0_edge] at hs
    rw [(hsk.node i).depth, fin0_node] at h1
    obtain ⟨j, hj⟩ := hc.all q hq'
    cases j with
    | zero =>
      have := hc.root1 q hj
      subst this
      rw [hc.inIds_zero] at he; cases he
    | succ j =>
      obtain ⟨s1, s2⟩ := hc.src_layer hj he (Nat.le_refl _) (by omega)
      rw [hs] at s1 s2
      have := (hc.st j i s2).2.2
      exact ⟨j, by rcases hj with hj | hj <;> omega, by omega, s1⟩
  cases l with
  | nil => simp
  | cons i l =>
    obtain ⟨j, hj, hdj, _⟩ := key i (by simp)
    have hsub : ∀ x ∈ i :: l, x ∈ L j := by
      intro x hx
      obtain ⟨j', _, h1, h2⟩ := key x hx
      have : j' = j := by omega
      subst this; exact h2
    have hlen : (i :: l).length ≤ (L j).length := nodup_subset_length _ _ hl hsub
    rcases hd with hd | ⟨hd, hd2⟩
    · have := hc.width.1 hd j hj; omega
    · have := hc.width.2 hd j (by omega) hj; omega

/-- The relaxed knapsack of width 2: the two nodes with ids 3 and 7 are the ones branched on after two decisions. -/
example : (((Dd.new .lastExactLayer).compile .all Inst.orc Inst.kp Knap.relaxation Inst.kpRank Reads.none ⟨.relaxed, 2, Inst.kpRoot, -1⟩).map
    fun D => (List.range D.nodes.length).filter fun i => (D.node i).depth = 2 ∧
      (List.range D.nodes.length).any fun q => (D.inIds q).any fun e => (D.edge e).src == i) = some [3, 7] := by decide +kernel

/-- **C19.** If every decision of the domain of a variable is about that variable, a reported solution decides each of the variables exactly once. -/
theorem solution_decides_each_variable_once (hwf : WellFormed p S B) (hdom : ∀ x s d, d ∈ p.dom x s → d.var = x) {sol : List Decision} {b : Int}
    (h : IsSolutionOf p sol b) : (sol.map (·.var)).Perm ((List.range p.nbVars).map S.var) := by
  obtain ⟨ds, hp, u, ⟨t, hrun, ht⟩, _⟩ := h
  refine (hp.map _).trans ?_
  have key : ∀ s ds u t, Run p s ds u t → S.ok s → ds.map (·.var) = (List.range' (S.lvl s) ds.length).map S.var := by
    intro s ds u t hrun
    induction hrun with
    | nil s => intro _; rfl
    | @cons s t x d ds v hx hd h ih =>
      intro hs
      have h1 := hwf.ok_trans _ _ _ hs hx hd
      have h2 := hwf.lvl_trans _ _ _ hs hx hd
      have h3 := hdom _ _ _ hd
      have h4 : x = S.var (S.lvl s) := by
        rw [hwf.nextVar_one hs] at hx
        split at hx
        · cases hx; rfl
        · cases hx
      rw [List.map_cons, ih h1, h2, List.length_cons, List.range'_succ, List.map_cons, h3, h4]
  have h1 := key _ _ _ _ hrun hwf.ok_init
  have hf := hrun.facts hwf hwf.ok_init
  have h2 := hrun.len hwf hwf.ok_init (by rw [hwf.lvl_init]; omega)
  rw [hwf.lvl_init] at h1 hf h2
  rw [hwf.nextVar_one hf.1, hf.2.1] at ht
  have h3 : ds.length = p.nbVars := by
    split at ht
    · cases ht
    · omega
  rw [h1, h3, List.range_eq_range']

/-- The knapsack meets the hypothesis on domains. -/
example (sol : List Decision) (b : Int) (h : IsSolutionOf Inst.kp sol b) : (sol.map (·.var)).Perm [0, 1, 2, 3] :=
  solution_decides_each_variable_once Inst.kp_wf (fun _ _ _ hd => (Knap.mem_dom hd).1) h

/-- **C20 (partial).** With the frontier cutset, an improving solution is covered by the drained subproblems, or its value is at most that of a node of the
last layer that is itself exact.  The second case is not covered by any drained subproblem; see `frontier_cutset_loses_solutions`. -/
theorem frontier_cutset_covers_partial (hv : NoBarrier v rd) (ho : o.Valid) (hwf : WellFormed p S B) (hadm : Admissible p S) (hr : SoundRelaxation p r S B)
    (hc : inp.compType = .relaxed) (hw : 1 ≤ inp.maxWidth) (hg : Genuine p inp.residual) (m0 : Dd σ) (hm0 : m0.cutsetType = .frontier) {D : Dd σ}
    (hD : m0.compile v o p r rank rd inp = some D) (hx : D.exact = false) {w : Int} (ht : Through p inp.residual w) (hlb : inp.bestLb < w) :
    (∃ n ∈ D.drainCutset, ∃ w', Through p n w' ∧ w ≤ w' ∧ w' ≤ n.ub) ∨
    (∃ t, t < D.nodes.length ∧ (D.node t).flags.isExact = true ∧ p.nextVar [(D.node t).state] = none ∧ w ≤ (D.node t).value) := by
  obtain ⟨rd', h1, h2⟩ := noBarrier_reads hv (o := o) (p := p) (r := r) (rank := rank) (inp := inp) m0
  rw [h2] at hD
  have hroot := hg.rootOK hwf
  obtain ⟨m', k, jx, P, L, h, hd⟩ := compile_done (v := v) (o := o) (rank := rank) (rd := rd') ho hwf (fun _ => hr.toLayeredRelaxation) (fun _ => hw) hroot m0
  rw [h] at hD; cases hD
  have hsk := hd.skelAny hwf ho hroot (o := o)
  rcases hd.cover_frontier hwf ho hroot hadm (fun _ => hr) hc (by rw [hd.head.core.misc.2.2.2]; exact hm0) (Or.inr hx) ht hlb with g | ⟨t, g1, g2, g3⟩ | g
  · exact Or.inl g
  · right
    refine ⟨t, ?_, ?_, ?_, ?_⟩
    · have := hsk.len; rw [this]; exact hd.head.core.lt k t (Or.inl ⟨Nat.le_refl _, g1⟩)
    · rw [(hsk.node t).exact]; exact g2
    · rw [(hsk.node t).state]; exact hd.terminal hwf g1
    · rw [(hsk.node t).value]; exact g3
  · exact absurd g (noBarrier_not_prunedAt h1)

/-- **C20 is false.** A well-formed problem with a sound relaxation and an admissible bound, compiled with the frontier cutset: the diagram is not
exact and the solution of value 12 is the optimum, but the only drained subproblem contains no solution better than 3. -/
theorem frontier_cutset_loses_solutions :
    ∃ D, (Dd.new .frontier).compile .all Inst.orc Inst.lp Table.relaxation Inst.lpRank Reads.none ⟨.relaxed, 2, Inst.lpRoot, 3⟩ = some D ∧
      D.exact = false ∧ Through Inst.lp Inst.lpRoot 12 ∧ ∀ n ∈ D.drainCutset, ∀ w, Through Inst.lp n w → w ≤ 3 := by
  have h : ((Dd.new .frontier).compile .all Inst.orc Inst.lp Table.relaxation Inst.lpRank Reads.none ⟨.relaxed, 2, Inst.lpRoot, 3⟩).map
      (fun D => (D.exact, D.drainCutset)) = some (false, [⟨(1, 2), 0, [⟨0, 1⟩], 13⟩]) := by decide +kernel
  obtain ⟨D, hD, he⟩ := Option.map_eq_some_iff.1 h
  refine ⟨D, hD, congrArg Prod.fst he, Inst.lp_through, ?_⟩
  intro n hn w ⟨ds, u, hc, hw⟩
  have h2 : D.drainCutset = [⟨(1, 2), 0, [⟨0, 1⟩], 13⟩] := congrArg Prod.snd he
  rw [h2, List.mem_singleton] at hn
  subst hn
  have := Table.completion_le hc 3 (by decide) 3 (by decide +kernel)
  simp only at hw; omega

/-- **C20**, where it holds: if the problem has a single terminal state, the frontier cutset covers every improving solution. -/
theorem frontier_cutset_covers_unique_terminal (hv : NoBarrier v rd) (ho : o.Valid) (hwf : WellFormed p S B) (hadm : Admissible p S)
    (hr : SoundRelaxation p r S B) (hut : UniqueTerminal p S)
    (hc : inp.compType = .relaxed) (hw : 1 ≤ inp.maxWidth) (hg : Genuine p inp.residual) (m0 : Dd σ) (hm0 : m0.cutsetType = .frontier) {D : Dd σ}
    (hD : m0.compile v o p r rank rd inp = some D) (hx : D.exact = false) {w : Int} (ht : Through p inp.residual w) (hlb : inp.bestLb < w) :
    ∃ n ∈ D.drainCutset, ∃ w', Through p n w' ∧ w ≤ w' ∧ w' ≤ n.ub := by
  obtain ⟨rd', h1, h2⟩ := noBarrier_reads hv (o := o) (p := p) (r := r) (rank := rank) (inp := inp) m0
  rw [h2] at hD
  have hroot := hg.rootOK hwf
  obtain ⟨m', k, jx, P, L, h, hd⟩ := compile_done (v := v) (o := o) (rank := rank) (rd := rd') ho hwf (fun _ => hr.toLayeredRelaxation) (fun _ => hw) hroot m0
  rw [h] at hD; cases hD
  rcases hd.cover_unique hwf ho hroot hadm (fun _ => hr) hut hc (by rw [hd.head.core.misc.2.2.2]; exact hm0) hx ht hlb with g | g
  · exact g
  · exact absurd g (noBarrier_not_prunedAt h1)

end
end Verif.Props
