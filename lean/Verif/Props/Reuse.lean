import Verif.Proofs.Mdd.Reuse
import Verif.Examples.Instances
/-!
C22: a diagram object can be used again.
-/
set_option autoImplicit false

namespace Verif.Props
open Verif Dd
variable {σ : Type} [DecidableEq σ] [Inhabited σ]
variable {v : Variant} {o : Oracle σ} {p : Problem σ} {r : Relaxation σ} {rank : σ → σ → Ordering} {rd : Reads σ} {inp : Input σ}

/-- **C22.** Compiling into a used diagram object gives exactly what a new one gives, whatever was compiled into it before (only the
scratch list `prev_l`, which no method of the API reads, may differ). -/
theorem reuse_as_new (m0 : Dd σ) :
    (m0.compile v o p r rank rd inp).map (setPrev []) = ((Dd.new m0.cutsetType).compile v o p r rank rd inp).map (setPrev []) :=
  compile_reuse v o p r rank rd (Dd.new m0.cutsetType) m0 inp rfl

/-- **C22.** In particular every observation is the same: exactness, best value, best solution, cutset, statistics and updates of the barrier. -/
theorem reuse_observations (m0 : Dd σ) {D D' : Dd σ} (h : m0.compile v o p r rank rd inp = some D)
    (h' : (Dd.new m0.cutsetType).compile v o p r rank rd inp = some D') :
    D.exact = D'.exact ∧ D.bestValue = D'.bestValue ∧ D.bestSolution = D'.bestSolution ∧ D.drainCutset = D'.drainCutset ∧
      D.explored = D'.explored ∧ D.updates = D'.updates := by
  have e := reuse_as_new (v := v) (o := o) (p := p) (r := r) (rank := rank) (rd := rd) (inp := inp) m0
  rw [h, h'] at e
  have e : setPrev [] D = setPrev [] D' := by simpa using e
  have k : ∀ D : Dd σ, D.exact = (setPrev [] D).exact ∧ D.bestValue = (setPrev [] D).bestValue ∧ D.bestSolution = (setPrev [] D).bestSolution ∧
      D.drainCutset = (setPrev [] D).drainCutset ∧ D.explored = (setPrev [] D).explored ∧ D.updates = (setPrev [] D).updates := by
    intro D
    have hp : ∀ f b, D.bestEdges f b = (setPrev [] D).bestEdges f b := by
      intro f
      induction f with
      | zero => intro b; rfl
      | succ f ih =>
        intro b
        cases b with
        | none => rfl
        | some e => simp only [Dd.bestEdges, ih]; rfl
    refine ⟨rfl, rfl, ?_, ?_, rfl, rfl⟩
    · have : D.bestPath = (setPrev [] D).bestPath := by funext i; simp only [Dd.bestPath, hp]; rfl
      simp only [Dd.bestSolution, this]; rfl
    · have h1 : D.bestPath = (setPrev [] D).bestPath := by funext i; simp only [Dd.bestPath, hp]; rfl
      have h2 : D.cutsetNode = (setPrev [] D).cutsetNode := by funext b i; simp only [Dd.cutsetNode, h1]; rfl
      simp only [Dd.drainCutset, h2]; rfl
  obtain ⟨a1, a2, a3, a4, a5, a6⟩ := k D
  obtain ⟨b1, b2, b3, b4, b5, b6⟩ := k D'
  rw [a1, a2, a3, a4, a5, a6, b1, b2, b3, b4, b5, b6, e]
  exact ⟨rfl, rfl, rfl, rfl, rfl, rfl⟩

/-- **C22.** A new diagram calls itself exact, has no solution, no cutset, and has explored nothing; clearing a used one gives the same, but for the scratch list. -/
theorem fresh_observations (c : CutsetType) (m0 : Dd σ) :
    ((Dd.new c : Dd σ).exact = true ∧ (Dd.new c : Dd σ).bestValue = none ∧ (Dd.new c : Dd σ).bestSolution = none ∧ (Dd.new c : Dd σ).drainCutset = [] ∧ (Dd.new c : Dd σ).explored = 0) ∧
      setPrev [] m0.clear = Dd.new m0.cutsetType :=
  ⟨⟨rfl, rfl, rfl, rfl, rfl⟩, rfl⟩

/-- A diagram object used for a restricted compilation first: its content is not what a new one has, but the next compilation drains the same
subproblems (some). -/
example : (((Dd.new .lastExactLayer).compile .all Inst.orc Inst.kp Knap.relaxation Inst.kpRank Reads.none ⟨.restricted, 1, Inst.kpSub, -1⟩).bind fun D0 =>
      (D0.compile .all Inst.orc Inst.kp Knap.relaxation Inst.kpRank Reads.none ⟨.relaxed, 2, Inst.kpRoot, -1⟩).map fun D1 =>
        (D0.nodes.length, D0.cutsetType, D1.drainCutset.map (·.state))) = some (5, .lastExactLayer, [(1, 5), (1, 7)]) := by decide +kernel

end Verif.Props
