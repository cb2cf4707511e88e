import Verif.Props.Mdd
import Verif.Props.Parallel
import Verif.Proofs.Mdd.CondenseUnique
/-!
C89: restriction keeps the most promising nodes, that is, a restricted diagram is a beam search.
C90: relaxation keeps the most promising nodes and merges the others.
-/
set_option autoImplicit false

namespace Verif.Props
open Verif Spec Dd

variable {σ : Type} [DecidableEq σ] [Inhabited σ]
variable {v : Variant} {o : Oracle σ} {p : Problem σ} {r : Relaxation σ} {rank : σ → σ → Ordering} {rd : Reads σ}
  {S : Layering σ} {B : Int} {inp : Input σ}

/-- **C89.** A restricted diagram is a beam search: its layers contain all children of the states kept in the layer before, each with its best value, of which the most promising
`max_width` ones are kept, and its best value is the best one of the last layer. -/
theorem restricted_is_beam (ho : o.Valid) (hwf : WellFormed p S B) (hrk : Ranking rank) (hct : inp.compType = .restricted) (hg : Genuine p inp.residual)
    {m D : Dd σ} (hD : m.compile v o p r rank rd inp = some D) :
    ∃ k X, Beam p S rank (some inp.maxWidth) inp.bestLb (passes v rd inp.residual.path.length) inp.residual k X ∧ BeamEnds p inp.residual k X ∧ D.bestValue = X.best := by
  obtain ⟨m', k, X, h1, h2, h3, h4⟩ := compile_beam (v := v) (r := r) (rd := rd) ho hwf hrk (by rw [hct]; decide) (hg.rootOK hwf) m
  rw [hD] at h1
  cases h1
  refine ⟨k, X, ?_, h3, h4⟩
  unfold beamWidth at h2
  rw [if_pos hct] at h2
  exact h2

/-- **C89.** An exact diagram is a search without limit. -/
theorem exact_is_beam (ho : o.Valid) (hwf : WellFormed p S B) (hrk : Ranking rank) (hct : inp.compType = .exact) (hg : Genuine p inp.residual)
    {m D : Dd σ} (hD : m.compile v o p r rank rd inp = some D) :
    ∃ k X, Beam p S rank none inp.bestLb (passes v rd inp.residual.path.length) inp.residual k X ∧ BeamEnds p inp.residual k X ∧ D.bestValue = X.best := by
  obtain ⟨m', k, X, h1, h2, h3, h4⟩ := compile_beam (v := v) (r := r) (rd := rd) ho hwf hrk (by rw [hct]; decide) (hg.rootOK hwf) m
  rw [hD] at h1
  cases h1
  refine ⟨k, X, ?_, h3, h4⟩
  unfold beamWidth at h2
  rw [if_neg (by rw [hct]; decide)] at h2
  exact h2

/-- **C89.** If no two states of a layer rank equal, the value a restricted diagram finds depends neither on how equal elements are ordered nor on what the diagram contained before nor on
the relaxation nor on the type of the cutset. -/
theorem restricted_deterministic {o' : Oracle σ} {r' : Relaxation σ} (ho : o.Valid) (ho' : o'.Valid) (hwf : WellFormed p S B) (hrk : Ranking rank)
    (hties : NoTies rank S) (hct : inp.compType = .restricted) (hg : Genuine p inp.residual) {m m' D D' : Dd σ}
    (hD : m.compile v o p r rank rd inp = some D) (hD' : m'.compile v o' p r' rank rd inp = some D') : D.bestValue = D'.bestValue := by
  obtain ⟨k, X, h1, h2, h3⟩ := restricted_is_beam ho hwf hrk hct hg hD
  obtain ⟨k', X', h1', h2', h3'⟩ := restricted_is_beam ho' hwf hrk hct hg hD'
  rw [h3, h3']
  exact Beam.result_unique hwf hrk hties (hg.rootOK hwf) h1 h2 h1' h2'

theorem ranking_of_transCmp [Std.TransCmp rank] : Ranking rank :=
  ⟨fun a b => Std.OrientedCmp.eq_swap (cmp := rank), fun _ _ _ h1 h2 => Std.TransCmp.isLE_trans h1 h2⟩

/-- The restricted knapsack of width 1 is a beam search. -/
example : ∃ (D : Dd Knap.St) (k : Nat) (X : Layer Knap.St), (Dd.new .lastExactLayer).compile .all Inst.orc Inst.kp Knap.relaxation Inst.kpRank Reads.none ⟨.restricted, 1, Inst.kpRoot, -1⟩ = some D ∧
    Beam Inst.kp Knap.layering Inst.kpRank (some 1) (-1) (passes .all Reads.none 0) Inst.kpRoot k X ∧ BeamEnds Inst.kp Inst.kpRoot k X ∧ D.bestValue = X.best := by
  obtain ⟨D, hD⟩ := compile_total (v := .all) (o := Inst.orc) (rank := Inst.kpRank) (rd := Reads.none) (inp := ⟨.restricted, 1, Inst.kpRoot, -1⟩)
    Inst.orc_valid Inst.kp_wf (fun _ => Inst.kp_rel.toLayeredRelaxation) (fun _ => by decide) Inst.kpRoot_genuine (Dd.new .lastExactLayer)
  obtain ⟨k, X, h⟩ := restricted_is_beam Inst.orc_valid Inst.kp_wf ranking_of_transCmp rfl Inst.kpRoot_genuine hD
  exact ⟨D, k, X, hD, h⟩

/-- The values found with width 1, 2 and 3. -/
example : ([1, 2, 3].map fun w => ((Dd.new .lastExactLayer).compile .all Inst.orc Inst.kp Knap.relaxation Inst.kpRank Reads.none ⟨.restricted, w, Inst.kpRoot, -1⟩).bind (·.bestValue)) =
    [some 7, some 9, some 9] := by decide +kernel

/-- The ranking of the knapsack has no ties. -/
example : NoTies Inst.kpRank Knap.layering := fun _ _ _ _ hl h => Prod.ext hl (Nat.compare_eq_eq.1 h)

example : ((Dd.new .lastExactLayer).compile .all Inst.orc Inst.kp Knap.relaxation Inst.kpRank Reads.none ⟨.restricted, 2, Inst.kpRoot, -1⟩).bind (·.bestValue) =
    ((Dd.new .frontier).compile .all Inst.revOrc Inst.kp Knap.relaxation Inst.kpRank Reads.none ⟨.restricted, 2, Inst.kpRoot, -1⟩).bind (·.bestValue) := by decide +kernel

/-- **C90.** A relaxed diagram consists of layers of which, from the third one on, the most promising `max_width - 1` nodes are kept and the others merged into one, whose value
is the best one of the redirected arcs; if the merged state is among the states kept, the two are one node and the best one of the merged nodes is kept as well. -/
theorem relaxed_is_widened (ho : o.Valid) (hwf : WellFormed p S B) (hrk : Ranking rank) (hr : LayeredRelaxation p r S B) (hct : inp.compType = .relaxed) (hw : 1 ≤ inp.maxWidth)
    (hg : Genuine p inp.residual) {m D : Dd σ} (hD : m.compile v o p r rank rd inp = some D) :
    ∃ k W X, Widened p r S rank inp.maxWidth inp.bestLb (passes v rd inp.residual.path.length) inp.residual k W X ∧ BeamEnds p inp.residual k X ∧ D.bestValue = X.best := by
  obtain ⟨m', k, W, X, h1, h2, h3, h4⟩ := compile_widened (v := v) (rd := rd) ho hwf hrk hr hct hw (hg.rootOK hwf) m
  rw [hD] at h1
  cases h1
  exact ⟨k, W, X, h2, h3, h4⟩

/-- **C90.** If no two states of a layer rank equal and `merge` does not depend on the order of its arguments, the bound a relaxed diagram of `with_all` finds depends neither on how equal
elements are ordered nor on what the diagram contained before nor on the type of the cutset. -/
theorem relaxed_deterministic {o' : Oracle σ} {rd' : Reads σ} (ho : o.Valid) (ho' : o'.Valid) (hwf : WellFormed p S B) (hrk : Ranking rank)
    (hties : NoTies rank S) (hr : LayeredRelaxation p r S B) (hmerge : OrderFree r S) (hct : inp.compType = .relaxed)
    (hw : 1 ≤ inp.maxWidth) (hg : Genuine p inp.residual) {m m' D D' : Dd σ} (hD : m.compile .all o p r rank rd inp = some D)
    (hD' : m'.compile .all o' p r rank rd' inp = some D') : D.bestValue = D'.bestValue := by
  obtain ⟨k, W, X, h1, h2, h3⟩ := relaxed_is_widened ho hwf hrk hr hct hw hg hD
  obtain ⟨k', W', X', h1', h2', h3'⟩ := relaxed_is_widened ho' hwf hrk hr hct hw hg hD'
  rw [h3, h3']
  exact Widened.result_unique hwf hr hrk hties hmerge (fun _ _ => rfl) (hg.rootOK hwf) h1 h2 h1' h2'

/-- The relaxed knapsack of width 2 has the layers described. -/
example : ∃ (D : Dd Knap.St) (k : Nat) (W X : Layer Knap.St), (Dd.new .lastExactLayer).compile .all Inst.orc Inst.kp Knap.relaxation Inst.kpRank Reads.none ⟨.relaxed, 2, Inst.kpRoot, -1⟩ = some D ∧
    Widened Inst.kp Knap.relaxation Knap.layering Inst.kpRank 2 (-1) (passes .all Reads.none 0) Inst.kpRoot k W X ∧ BeamEnds Inst.kp Inst.kpRoot k X ∧ D.bestValue = X.best := by
  obtain ⟨D, hD⟩ := compile_total (v := .all) (o := Inst.orc) (rank := Inst.kpRank) (rd := Reads.none) (inp := ⟨.relaxed, 2, Inst.kpRoot, -1⟩)
    Inst.orc_valid Inst.kp_wf (fun _ => Inst.kp_rel.toLayeredRelaxation) (fun _ => by decide) Inst.kpRoot_genuine (Dd.new .lastExactLayer)
  obtain ⟨k, W, X, h⟩ := relaxed_is_widened Inst.orc_valid Inst.kp_wf ranking_of_transCmp Inst.kp_rel.toLayeredRelaxation rfl (by decide) Inst.kpRoot_genuine hD
  exact ⟨D, k, W, X, hD, h⟩

/-- The bounds of the knapsack for the widths 1 to 4. -/
example : ([1, 2, 3, 4].map fun w => ((Dd.new .lastExactLayer).compile .all Inst.orc Inst.kp Knap.relaxation Inst.kpRank Reads.none ⟨.relaxed, w, Inst.kpRoot, -1⟩).bind (·.bestValue)) =
    [some 18, some 13, some 13, some 11] := by decide +kernel

/-- The relaxation of the knapsack does not depend on the order of the states of a layer. -/
example : OrderFree Knap.relaxation Knap.layering := by
  intro l l' k hl hp
  have h1 : ∀ {l : List Knap.St}, (∀ s ∈ l, Knap.layering.ok s ∧ Knap.layering.lvl s = k) → (l.headD (0, 0)).1 = if l = [] then 0 else k := by
    intro l hl
    cases l with
    | nil => rfl
    | cons s l => exact (hl s (by simp)).2
  have h2 : ∀ {l l' : List Knap.St}, l.Perm l' → Knap.maxCap l = Knap.maxCap l' := by
    intro l l' hp
    induction hp with
    | nil => rfl
    | cons s _ ih => simp only [Knap.maxCap, ih]
    | swap a b l => simp only [Knap.maxCap]; omega
    | trans _ _ ih1 ih2 => exact ih1.trans ih2
  refine Prod.ext ?_ (h2 hp)
  show (l.headD (0, 0)).1 = (l'.headD (0, 0)).1
  rw [h1 hl, h1 fun s hs => hl s (hp.mem_iff.2 hs)]
  by_cases h0 : l = []
  · subst h0; rw [List.nil_perm.1 hp]
  · rw [if_neg h0, if_neg fun hh => h0 (by rw [hh] at hp; exact List.perm_nil.1 hp)]

example : ((Dd.new .lastExactLayer).compile .all Inst.orc Inst.kp Knap.relaxation Inst.kpRank Reads.none ⟨.relaxed, 2, Inst.kpRoot, -1⟩).bind (·.bestValue) =
    ((Dd.new .frontier).compile .all Inst.revOrc Inst.kp Knap.relaxation Inst.kpRank Reads.none ⟨.relaxed, 2, Inst.kpRoot, -1⟩).bind (·.bestValue) := by decide +kernel

end Verif.Props
