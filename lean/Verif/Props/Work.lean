import Verif.Props.Parallel
import Verif.Props.Barrier
import Verif.Proofs.Par.Work
import Verif.Proofs.Bar.Work
/-!
C88: what the statistics of the solvers count, and how much work one diagram costs.
-/
set_option autoImplicit false

namespace Verif.Props
open Verif Spec Dd

section
variable {σ : Type} [DecidableEq σ] [Inhabited σ]
variable {v : Variant} {o : Oracle σ} {p : Problem σ} {r : Relaxation σ} {rank : σ → σ → Ordering} {rd : Reads σ}
  {S : Layering σ} {B : Int} {inp : Input σ}

theorem sum_map_le {f g : Nat → Nat} : ∀ l : List Nat, (∀ x ∈ l, f x ≤ g x) → (l.map f).sum ≤ (l.map g).sum := by
  intro l
  induction l with
  | nil => intro _; simp
  | cons a l ih =>
    intro h
    have h1 := h a (by simp)
    have h2 := ih fun x hx => h x (by simp [hx])
    simp only [List.map_cons, List.sum_cons]
    omega

theorem sum_map_const (c : Nat) : ∀ l : List Nat, (l.map fun _ => c).sum = l.length * c := by
  intro l
  induction l with
  | nil => simp
  | cons a l ih => simp only [List.map_cons, List.sum_cons, ih, List.length_cons, Nat.add_mul]; omega

theorem flatMap_filter_length (f : Nat → List Nat) (q : Nat → Bool) : ∀ l : List Nat,
    (l.flatMap fun j => (f j).filter q).length = (l.map fun j => (f j).countP q).sum := by
  intro l
  induction l with
  | nil => rfl
  | cons a l ih => simp only [List.flatMap_cons, List.length_append, List.map_cons, List.sum_cons, ih, List.countP_eq_length_filter]

theorem flatMap_nodup {f : Nat → List Nat} : ∀ l : List Nat, l.Nodup → (∀ j ∈ l, (f j).Nodup) →
    (∀ j ∈ l, ∀ j' ∈ l, ∀ i, i ∈ f j → i ∈ f j' → j = j') → (l.flatMap f).Nodup := by
  intro l
  induction l with
  | nil => intro _ _ _; simp
  | cons a l ih =>
    intro h1 h2 h3
    rw [List.nodup_cons] at h1
    rw [List.flatMap_cons, List.nodup_append]
    refine ⟨h2 a (by simp), ih h1.2 (fun j hj => h2 j (by simp [hj])) (fun j hj j' hj' => h3 j (by simp [hj]) j' (by simp [hj'])), ?_⟩
    intro i hi i' hi' hh
    subst hh
    obtain ⟨j, hj, hij⟩ := List.mem_flatMap.1 hi'
    have := h3 a (by simp) j (by simp [hj]) i hi hij
    subst this
    exact h1.1 hj

/-- **C88.** `explored` is the number of nodes that have been expanded: there is a list of that many different nodes such that every edge of the diagram starts
from a node of the list, and every node of the list has an upper bound above the best value known, is not terminal, and has all its children in the diagram. -/
theorem explored_is_expanded (ho : o.Valid) (hwf : WellFormed p S B) (hr : inp.compType = .relaxed → LayeredRelaxation p r S B)
    (hw : inp.compType = .relaxed → 1 ≤ inp.maxWidth) (hg : Genuine p inp.residual) (m0 : Dd σ) {D : Dd σ}
    (hD : m0.compile v o p r rank rd inp = some D) :
    ∃ l : List Nat, l.Nodup ∧ l.length = D.explored ∧
      (∀ q, q < D.nodes.length → ∀ e ∈ D.inIds q, (D.edge e).src ∈ l) ∧
      ∀ i ∈ l, i < D.nodes.length ∧ inp.residual.path.length ≤ (D.node i).depth ∧ (D.node i).depth < p.nbVars ∧
        satAdd (p.estimate (D.node i).state) (D.node i).value > inp.bestLb ∧
        ∀ d ∈ p.dom (S.var (D.node i).depth) (D.node i).state, ∃ q, q < D.nodes.length ∧ (D.node q).state = p.trans (D.node i).state d ∧
          ∃ e ∈ D.inIds q, (D.edge e).src = i ∧ (D.edge e).decision = d ∧ (D.edge e).cost = p.cost (D.node i).state d := by
  have hroot := hg.rootOK hwf
  obtain ⟨m', k, jx, P, L, h, hd'⟩ := compile_done (v := v) (o := o) (rank := rank) (rd := rd) ho hwf hr hw hroot m0
  rw [h] at hD; cases hD
  have hc := hd'.head.core
  have hsk := hd'.skelAny hwf ho hroot (o := o)
  have hlen : (m'.finish v o inp).nodes.length = m'.nodes.length := hsk.len
  have hLl : ∀ j, j < k → ∀ i ∈ L j, InLay P L k k j i := fun j hj i hi => Or.inr ⟨hj, hi⟩
  refine ⟨(List.range k).flatMap fun j => (L j).filter fun i => decide (Promising p inp.bestLb (m'.node i)), ?_, ?_, ?_, ?_⟩
  · refine flatMap_nodup _ List.nodup_range (fun j hj => (hc.nodupL j (List.mem_range.1 hj)).filter _) ?_
    intro j hj j' hj' i hi hi'
    exact hc.layer_unique (hLl j (List.mem_range.1 hj) i ((List.mem_filter.1 hi).1)) (hLl j' (List.mem_range.1 hj') i ((List.mem_filter.1 hi').1))
  · rw [finish_explored, hc.expl, flatMap_filter_length]
  · intro q hq e he
    rw [hsk.inIds q, fin0_inIds] at he
    rw [hsk.edge e, fin0_edge]
    have hlt := inIds_lt hc.chain (by omega) he
    have hmem : m'.edge e ∈ m'.edges := by
      unfold edge
      rw [List.getD_eq_getElem?_getD, List.getElem?_eq_getElem hlt]
      exact List.getElem_mem hlt
    obtain ⟨h1, j, hj, h2⟩ := hc.esrc _ hmem
    exact List.mem_flatMap.2 ⟨j, List.mem_range.2 hj, List.mem_filter.2 ⟨h2, by simpa using h1⟩⟩
  · intro i hi
    obtain ⟨j, hj, hi⟩ := List.mem_flatMap.1 hi
    have hj := List.mem_range.1 hj
    obtain ⟨hi, hp⟩ := List.mem_filter.1 hi
    have hp : Promising p inp.bestLb (m'.node i) := by simpa using hp
    have hil := hLl j hj i hi
    have hn := hsk.node i
    have hst := (hc.st j i hil).2.2
    have hdep : ((m'.finish v o inp).node i).depth = inp.residual.path.length + j := by rw [hn.depth, fin0_node]; exact hst
    have hstate : ((m'.finish v o inp).node i).state = (m'.node i).state := by rw [hn.state, fin0_node]
    have hval : ((m'.finish v o inp).node i).value = (m'.node i).value := by rw [hn.value, fin0_node]
    refine ⟨by rw [hlen]; exact hc.lt j i hil, by omega, by have := hc.var j hj; omega, by rw [hstate, hval]; exact hp, ?_⟩
    rw [hdep, hstate]
    intro d hd
    obtain ⟨q, hq, q1, e, he, q2⟩ := (hc.exp j hj i hi).2.2 hp d hd
    have hq' : InLay P L k k (j+1) q := Or.inl ⟨by omega, hq⟩
    refine ⟨q, by rw [hlen]; exact hc.lt _ q hq', by rw [(hsk.node q).state, fin0_node]; exact q1, e, by rw [hsk.inIds q, fin0_inIds]; exact he, ?_⟩
    rw [hsk.edge e, fin0_edge]; exact q2

/-- **C88.** The work of a restricted compilation: at most `max_width` nodes are expanded for every variable that is left. -/
theorem restricted_work (ho : o.Valid) (hwf : WellFormed p S B) (hct : inp.compType = .restricted) (hg : Genuine p inp.residual) (m0 : Dd σ) {D : Dd σ}
    (hD : m0.compile v o p r rank rd inp = some D) : D.explored ≤ (p.nbVars - inp.residual.path.length) * inp.maxWidth := by
  have hroot := hg.rootOK hwf
  obtain ⟨m', k, jx, P, L, h, hd'⟩ := compile_done (v := v) (o := o) (rank := rank) (rd := rd) ho hwf (by rw [hct]; intro h; cases h) (by rw [hct]; intro h; cases h) hroot m0
  rw [h] at hD; cases hD
  have hc := hd'.head.core
  rw [finish_explored, hc.expl]
  refine Nat.le_trans (sum_map_le (g := fun _ => inp.maxWidth) _ fun j hj => Nat.le_trans (List.countP_le_length) (hc.width.1 hct j (List.mem_range.1 hj))) ?_
  rw [sum_map_const, List.length_range]
  refine Nat.mul_le_mul_right _ ?_
  cases k with
  | zero => omega
  | succ k => have := hc.var k (by omega); omega

/-- **C88.** The work of a relaxed compilation: the root, the nodes one decision below it, and at most `max_width` nodes for every further variable. -/
theorem relaxed_work (ho : o.Valid) (hwf : WellFormed p S B) (hct : inp.compType = .relaxed) (hr : LayeredRelaxation p r S B) (hw : 1 ≤ inp.maxWidth)
    (hg : Genuine p inp.residual) (m0 : Dd σ) {D : Dd σ} (hD : m0.compile v o p r rank rd inp = some D) :
    D.explored ≤ 1 + ((List.range D.nodes.length).countP fun i => (D.node i).depth = inp.residual.path.length + 1) +
      (p.nbVars - inp.residual.path.length - 2) * inp.maxWidth := by
  have hroot := hg.rootOK hwf
  obtain ⟨m', k, jx, P, L, h, hd'⟩ := compile_done (v := v) (o := o) (rank := rank) (rd := rd) ho hwf (fun _ => hr) (fun _ => hw) hroot m0
  rw [h] at hD; cases hD
  have hc := hd'.head.core
  have hsk := hd'.skelAny hwf ho hroot (o := o)
  have hLl : ∀ j, j < k → ∀ i ∈ L j, InLay P L k k j i := fun j hj i hi => Or.inr ⟨hj, hi⟩
  have h0 : 0 < k → (L 0).length ≤ 1 := fun hk =>
    nodup_subset_length _ [0] (hc.nodupL 0 hk) fun i hi => by simp [hc.root1 i (hLl 0 hk i hi)]
  have h1 : 1 < k → (L 1).length ≤ (List.range (m'.finish v o inp).nodes.length).countP fun i => ((m'.finish v o inp).node i).depth = inp.residual.path.length + 1 := by
    intro hk
    rw [List.countP_eq_length_filter]
    refine nodup_subset_length _ _ (hc.nodupL 1 hk) fun i hi => List.mem_filter.2 ⟨?_, ?_⟩
    · have := hc.lt 1 i (hLl 1 hk i hi)
      have h2 : (m'.finish v o inp).nodes.length = m'.nodes.length := hsk.len
      exact List.mem_range.2 (by omega)
    · have := (hc.st 1 i (hLl 1 hk i hi)).2.2
      rw [(hsk.node i).depth, fin0_node]
      simpa using this
  rw [finish_explored, hc.expl]
  generalize (List.range (m'.finish v o inp).nodes.length).countP (fun i => ((m'.finish v o inp).node i).depth = inp.residual.path.length + 1) = c1 at *
  refine Nat.le_trans (sum_map_le (g := fun j => (L j).length) _ fun j _ => List.countP_le_length) ?_
  rcases k with _ | _ | k
  · simp
  · simp; have := h0 (by omega); omega
  · rw [show k + 1 + 1 = 2 + k by omega, List.range_add, List.map_append, List.sum_append]
    have h2 : ((List.range 2).map fun j => (L j).length).sum = (L 0).length + (L 1).length := by simp [List.range_succ]
    have h3 : (((List.range k).map (2 + ·)).map fun j => (L j).length).sum ≤ k * inp.maxWidth := by
      rw [List.map_map]
      refine Nat.le_trans (sum_map_le (g := fun _ => inp.maxWidth) _ fun j hj => ?_) ?_
      · have := List.mem_range.1 hj
        exact hc.width.2 hct (2 + j) (by omega) (by omega)
      · rw [sum_map_const, List.length_range]
    have h4 := hc.var (k+1) (by omega)
    have h5 : k * inp.maxWidth ≤ (p.nbVars - inp.residual.path.length - 2) * inp.maxWidth := Nat.mul_le_mul_right _ (by omega)
    have := h0 (by omega)
    have := h1 (by omega)
    omega

omit [DecidableEq σ] in
/-- **C88.** A diagram that was not compiled yet has expanded nothing; it has no best value, no best solution and nothing in its cutset, and it calls itself exact. -/
theorem new_diagram (c : CutsetType) : (Dd.new c : Dd σ).explored = 0 ∧ (Dd.new c : Dd σ).bestValue = none ∧ (Dd.new c : Dd σ).bestSolution = none ∧
    (Dd.new c : Dd σ).drainCutset = [] ∧ (Dd.new c : Dd σ).exact = true := ⟨rfl, rfl, rfl, rfl, rfl⟩

/-- The relaxed knapsack of width 2 expands seven nodes. -/
example : (((Dd.new .lastExactLayer).compile .all Inst.orc Inst.kp Knap.relaxation Inst.kpRank Reads.none ⟨.relaxed, 2, Inst.kpRoot, -1⟩).map
    fun D => (D.explored, (List.range D.nodes.length).filter fun i => (List.range D.nodes.length).any fun q => (D.inIds q).any fun e => (D.edge e).src == i)) = some (7, [0, 1, 2, 3, 7, 9, 11]) := by decide +kernel

end

section
variable {σ : Type} [DecidableEq σ] [Inhabited σ] {cfg : SolverCfg σ}

/-- **C88.** What `get_explored_dd` returns never exceeds the number of nodes expanded in the diagrams compiled so far, and is that number when all workers have left. -/
theorem explored_dd_counts {s0 s : Sys σ cfg.fr.F} (h0 : Par.init cfg = some s0) {ls : List (Lbl σ)} (h : Par.runs cfg s0 ls = .ok s) :
    Par.getExploredDd cfg s.crit ≤ totalWork cfg s0 ls ∧ (Finished s → Par.getExploredDd cfg s.crit = totalWork cfg s0 ls) := by
  have h1 := (Par.runs_work ls s0 s h).1
  obtain ⟨h2, h3, _⟩ := Par.init_work h0
  unfold Par.getExploredDd
  refine ⟨by omega, fun hf => ?_⟩
  have := Par.finished_owed hf
  omega

/-- **C88.** At most two diagrams are compiled for a node that is handed out. -/
theorem two_diagrams_per_node {s0 s : Sys σ cfg.fr.F} (h0 : Par.init cfg = some s0) {ls : List (Lbl σ)} (h : Par.runs cfg s0 ls = .ok s) :
    compilations cfg s0 ls ≤ 2 * Par.getExplored cfg s.crit := by
  have h1 := (Par.runs_work ls s0 s h).2
  obtain ⟨_, _, h4⟩ := Par.init_work h0
  rw [explored_counts h0 h]
  omega

/-- The run of two threads on the knapsack hands out 6 nodes and compiles 9 diagrams in which 41 nodes are expanded. -/
example : (Par.init (Inst.kpCfg 2)).map (fun s0 => (totalWork (Inst.kpCfg 2) s0 (Inst.sched Inst.kpRun2), compilations (Inst.kpCfg 2) s0 (Inst.sched Inst.kpRun2))) =
    some (41, 9) ∧ Inst.test (Inst.kpCfg 2) Inst.kpRun2 (fun s => Inst.allDone s && s.crit.explored == 6 && s.crit.exploredDd == 41) = true := by decide +kernel

/-- **C88.** The same for the solver with a barrier. -/
theorem barrier_explored_dd_counts {s0 s : BSys σ cfg.fr.F} (h0 : Bar.init cfg = some s0) {ls : List (BLbl σ)} (h : Bar.runs cfg s0 ls = .ok s) :
    Bar.getExploredDd cfg s.crit ≤ bTotalWork cfg s0 ls ∧ (BFinished s → Bar.getExploredDd cfg s.crit = bTotalWork cfg s0 ls) := by
  have h1 := (Bar.runs_work ls s0 s h).1
  obtain ⟨h2, h3, _⟩ := Bar.init_work h0
  unfold Bar.getExploredDd
  refine ⟨by omega, fun hf => ?_⟩
  have := Bar.finished_owed hf
  omega

/-- **C88.** At most two diagrams are compiled for a node that is handed out. -/
theorem barrier_two_diagrams_per_node {s0 s : BSys σ cfg.fr.F} (h0 : Bar.init cfg = some s0) {ls : List (BLbl σ)} (h : Bar.runs cfg s0 ls = .ok s) :
    bCompilations cfg s0 ls ≤ 2 * Bar.getExplored cfg s.crit := by
  have h1 := (Bar.runs_work ls s0 s h).2
  obtain ⟨_, _, h4⟩ := Bar.init_work h0
  have h5 := Bar.runs_explored ls s0 s h
  rw [(Bar.init_noint h0).2] at h5
  unfold Bar.getExplored
  omega

/-- A run of two threads hands out 5 nodes and compiles 9 diagrams in which 67 nodes are expanded. -/
example : (Bar.init (Inst.raceCfg 2)).map (fun s0 => (bTotalWork (Inst.raceCfg 2) s0 (Inst.bsched Inst.raceRun), bCompilations (Inst.raceCfg 2) s0 (Inst.bsched Inst.raceRun))) =
    some (67, 9) ∧ Inst.btest (Inst.raceCfg 2) Inst.raceRun (fun s => Inst.bAllDone s && s.crit.explored == 5 && s.crit.exploredDd == 67) = true := by decide +kernel

end
end Verif.Props
