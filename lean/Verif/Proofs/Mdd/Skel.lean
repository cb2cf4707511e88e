import Verif.Proofs.Mdd.Real
/-! The bottom-up pass changes bounds, thresholds, marks and cutset membership only. -/
set_option autoImplicit false

namespace Verif.Dd
open Verif Spec
variable {σ : Type} [DecidableEq σ] [Inhabited σ]

/-- The parts of a node the bottom-up pass does not touch. -/
structure SameCore (n n' : Node σ) : Prop where
  state : n'.state = n.state
  value : n'.value = n.value
  best : n'.best = n.best
  inbound : n'.inbound = n.inbound
  depth : n'.depth = n.depth
  rub : n'.rub = n.rub
  exact : n'.flags.isExact = n.flags.isExact
  relaxed : n'.flags.isRelaxed = n.flags.isRelaxed
  deleted : n'.flags.isDeleted = n.flags.isDeleted
  pruned : n'.flags.isPrunedByBarrier = n.flags.isPrunedByBarrier

theorem SameCore.refl (n : Node σ) : SameCore n n := ⟨rfl, rfl, rfl, rfl, rfl, rfl, rfl, rfl, rfl, rfl⟩
theorem SameCore.trans {a b c : Node σ} (h : SameCore a b) (h' : SameCore b c) : SameCore a c :=
  ⟨h'.state.trans h.state, h'.value.trans h.value, h'.best.trans h.best, h'.inbound.trans h.inbound, h'.depth.trans h.depth,
   h'.rub.trans h.rub, h'.exact.trans h.exact, h'.relaxed.trans h.relaxed, h'.deleted.trans h.deleted, h'.pruned.trans h.pruned⟩

/-- Same diagram but for the results of the bottom-up pass. -/
structure Skel (m m' : Dd σ) : Prop where
  edges : m'.edges = m.edges
  len : m'.nodes.length = m.nodes.length
  node : ∀ i, SameCore (m.node i) (m'.node i)
  rootPa : m'.rootPa = m.rootPa
  bestN : m'.bestN = m.bestN
  exact : m'.exact = m.exact
  approximate : m'.approximate = m.approximate
  cutsetType : m'.cutsetType = m.cutsetType
  lelDepth : m'.lelDepth = m.lelDepth

theorem Skel.refl (m : Dd σ) : Skel m m := ⟨rfl, rfl, fun _ => .refl _, rfl, rfl, rfl, rfl, rfl, rfl⟩
theorem Skel.trans {a b c : Dd σ} (h : Skel a b) (h' : Skel b c) : Skel a c :=
  ⟨h'.edges.trans h.edges, h'.len.trans h.len, fun i => (h.node i).trans (h'.node i), h'.rootPa.trans h.rootPa, h'.bestN.trans h.bestN,
   h'.exact.trans h.exact, h'.approximate.trans h.approximate, h'.cutsetType.trans h.cutsetType, h'.lelDepth.trans h.lelDepth⟩

theorem Skel.modNode (m : Dd σ) (i : Nat) (f : Node σ → Node σ) (hf : ∀ n, SameCore n (f n)) : Skel m (m.modNode i f) := by
  refine ⟨rfl, modNode_length m i f, fun j => ?_, rfl, rfl, rfl, rfl, rfl, rfl⟩
  rw [node_modNode]
  split
  · exact hf _
  · exact .refl _

theorem Skel.edge {m m' : Dd σ} (h : Skel m m') (e : Nat) : m'.edge e = m.edge e := by unfold Dd.edge; rw [h.edges]
theorem Skel.inIds {m m' : Dd σ} (h : Skel m m') (i : Nat) : m'.inIds i = m.inIds i := by
  unfold Dd.inIds; rw [h.edges, (h.node i).inbound]

theorem Skel.bestEdges {m m' : Dd σ} (h : Skel m m') : ∀ f o, m'.bestEdges f o = m.bestEdges f o := by
  intro f
  induction f with
  | zero => intro o; rfl
  | succ f ih =>
    intro o
    cases o with
    | none => rfl
    | some e => simp only [Dd.bestEdges]; rw [h.edge e, (h.node _).best, ih]

theorem Skel.bestPath {m m' : Dd σ} (h : Skel m m') (i : Nat) : m'.bestPath i = m.bestPath i := by
  unfold Dd.bestPath; rw [h.rootPa, h.len, (h.node i).best, h.bestEdges]

theorem Skel.hasExact {m m' : Dd σ} (h : Skel m m') : ∀ f o, m'.hasExactBestPath f o = m.hasExactBestPath f o := by
  intro f
  induction f with
  | zero => intro o; rfl
  | succ f ih =>
    intro o
    cases o with
    | none => rfl
    | some i =>
      simp only [Dd.hasExactBestPath]
      rw [(h.node i).exact, (h.node i).relaxed, (h.node i).best, ih]
      simp only [h.edge]

theorem Skel.bestValue {m m' : Dd σ} (h : Skel m m') : m'.bestValue = m.bestValue := by
  unfold Dd.bestValue; rw [h.bestN]; cases m.bestN with
  | none => rfl
  | some i => simp [(h.node i).value]

theorem Skel.bestSolution {m m' : Dd σ} (h : Skel m m') : m'.bestSolution = m.bestSolution := by
  unfold Dd.bestSolution; rw [h.bestN]; cases m.bestN with
  | none => rfl
  | some i => simp [h.bestPath]

end Verif.Dd
