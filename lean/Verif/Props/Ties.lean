import Verif.Examples.Instances
import Verif.Proofs.Mdd.Ties
/-! C110: which of several equally good paths a diagram keeps. -/
set_option autoImplicit false

namespace Verif.Props
open Verif Spec
variable {σ : Type} [DecidableEq σ] [Inhabited σ]

/-- **C110.** Of the ways into a node of the next layer the first of the best is kept; later ones that are only as good change nothing. -/
theorem first_best_way {p : Problem σ} {inp : Input σ} {var depth : Nat} {m : Dd σ} {cur : List Nat} (hn : m.nextL = []) (hc : ∀ i ∈ cur, i < m.nodes.length) {s : σ} {i : Nat}
    (h : (s, i) ∈ (cur.foldl (Dd.expandOne .all p inp var depth) m).nextL) :
    ∃ l1 z l2 b, ways p inp.bestLb var m cur = l1 ++ z :: l2 ∧ z.target p m = s ∧
      ((cur.foldl (Dd.expandOne .all p inp var depth) m).node i).best = some b ∧ ((cur.foldl (Dd.expandOne .all p inp var depth) m).edge b).src = z.1 ∧
      ((cur.foldl (Dd.expandOne .all p inp var depth) m).edge b).decision = z.2 ∧ ((cur.foldl (Dd.expandOne .all p inp var depth) m).node i).value = z.value p m ∧
      (∀ y ∈ l1, y.target p m = s → y.value p m < z.value p m) ∧ (∀ y ∈ l2, y.target p m = s → y.value p m ≤ z.value p m) := by
  obtain ⟨l1, z, l2, b, h1, h2, h3, _, h5, h6, h7, _, h9, h10⟩ := (Dd.expand_tied (inp := inp) (var := var) (depth := depth) cur hc (Dd.start_tied (v := .all) (p := p) hn)).pick _ h
  refine ⟨l1, z, l2, b, h1, h2, h3, h5, h6, h7, fun y hy ht => ?_, fun y hy ht => ?_⟩
  · rcases h9 y hy ht with h | ⟨e, _⟩
    · exact h
    · cases e
  · by_cases hv : z.value p m < y.value p m
    · exact absurd (Or.inl hv) (h10 y hy ht)
    · omega

/-- **C110.** With a barrier, an exact way as good as the one kept so far takes its place: the last exact one of the best is kept, or the first of the best if no other one is exact; and the node is exact
just if the way that is kept is. -/
theorem barrier_best_way {p : Problem σ} {inp : Input σ} {var depth : Nat} {m : Dd σ} {cur : List Nat} (hn : m.nextL = []) (hc : ∀ i ∈ cur, i < m.nodes.length) {s : σ} {i : Nat}
    (h : (s, i) ∈ (cur.foldl (Dd.expandOne .barrier p inp var depth) m).nextL) :
    ∃ l1 z l2 b, ways p inp.bestLb var m cur = l1 ++ z :: l2 ∧ z.target p m = s ∧
      ((cur.foldl (Dd.expandOne .barrier p inp var depth) m).node i).best = some b ∧ ((cur.foldl (Dd.expandOne .barrier p inp var depth) m).edge b).src = z.1 ∧
      ((cur.foldl (Dd.expandOne .barrier p inp var depth) m).edge b).decision = z.2 ∧ ((cur.foldl (Dd.expandOne .barrier p inp var depth) m).node i).value = z.value p m ∧
      ((cur.foldl (Dd.expandOne .barrier p inp var depth) m).node i).flags.isExact = z.exact m ∧
      (∀ y ∈ l1, y.target p m = s → y.value p m < z.value p m ∨ (y.value p m = z.value p m ∧ z.exact m = true)) ∧
      (∀ y ∈ l2, y.target p m = s → y.value p m < z.value p m ∨ (y.value p m = z.value p m ∧ y.exact m = false)) := by
  obtain ⟨l1, z, l2, b, h1, h2, h3, _, h5, h6, h7, h8, h9, h10⟩ := (Dd.expand_tied (inp := inp) (var := var) (depth := depth) cur hc (Dd.start_tied (v := .barrier) (p := p) hn)).pick _ h
  refine ⟨l1, z, l2, b, h1, h2, h3, h5, h6, h7, by rw [h8 rfl]; rfl, fun y hy ht => ?_, fun y hy ht => ?_⟩
  · rcases h9 y hy ht with h | ⟨_, h⟩
    · exact Or.inl h
    · exact Or.inr h
  · have hno := h10 y hy ht
    unfold Way.ousts at hno
    by_cases hv : y.value p m < z.value p m
    · exact Or.inl hv
    · have hle : ¬ z.value p m < y.value p m := fun e => hno (Or.inl e)
      have he : y.value p m = z.value p m := by omega
      refine Or.inr ⟨he, ?_⟩
      cases hx : y.exact m
      · rfl
      · exact absurd (Or.inr ⟨rfl, he.symm, hx⟩) hno

/-- **C110.** The merged node keeps the last of the best edges redirected to it (also against the edges it had before, if it was a node already). -/
theorem last_best_redirected {r : Relaxation σ} {s : σ} {k : Nat} (zs : List (Nat × Nat)) {m : Dd σ} (hk : k < m.nodes.length) (hz : ∀ z ∈ zs, z.1 ≠ k ∧ z.2 < m.edges.length ∧ (m.edge z.2).src ≠ k) :
    (((zs.foldl (fun m z => Dd.redirect r s k z.1 m z.2) m).node k).best = (m.node k).best ∧ ((zs.foldl (fun m z => Dd.redirect r s k z.1 m z.2) m).node k).value = (m.node k).value ∧
        ∀ z ∈ zs, mergedValue r s m z < (m.node k).value) ∨
    ∃ l1 z l2 b, zs = l1 ++ z :: l2 ∧ ((zs.foldl (fun m z => Dd.redirect r s k z.1 m z.2) m).node k).best = some b ∧
      ((zs.foldl (fun m z => Dd.redirect r s k z.1 m z.2) m).edge b).src = (m.edge z.2).src ∧ ((zs.foldl (fun m z => Dd.redirect r s k z.1 m z.2) m).edge b).decision = (m.edge z.2).decision ∧
      ((zs.foldl (fun m z => Dd.redirect r s k z.1 m z.2) m).node k).value = mergedValue r s m z ∧
      (m.node k).value ≤ mergedValue r s m z ∧ (∀ y ∈ l1, mergedValue r s m y ≤ mergedValue r s m z) ∧ ∀ y ∈ l2, mergedValue r s m y < mergedValue r s m z :=
  Dd.redirect_last zs hk hz

/-- **C110.** The last of the best nodes of the last layer gives the best solution of the diagram. -/
theorem last_best_terminal {m : Dd σ} {l : List Nat} {i : Nat} (h : m.maxByValue l = some i) :
    ∃ l1 l2, l = l1 ++ i :: l2 ∧ (∀ j ∈ l1, (m.node j).value ≤ (m.node i).value) ∧ ∀ j ∈ l2, (m.node j).value < (m.node i).value :=
  Dd.max_last h

/-- A problem in which all states lead to 0, at the cost 1, by either of two decisions. -/
def tieProb : Problem Nat :=
  { nbVars := 2, init := 0, initVal := 0, nextVar := fun _ => some 0, dom := fun x _ => [⟨x, 0⟩, ⟨x, 1⟩], trans := fun _ _ => 0, cost := fun _ _ => 1, estimate := fun _ => 10 }

/-- Three nodes of the same value; the last one is not exact. -/
def tieDd : Dd Nat :=
  { Dd.new .lastExactLayer with
    nodes := [ { state := 1, value := 5, best := none, inbound := none, depth := 0, valueBot := isizeMin, theta := isizeMax, rub := isizeMax, flags := NodeFlags.newExact },
      { state := 2, value := 5, best := none, inbound := none, depth := 0, valueBot := isizeMin, theta := isizeMax, rub := isizeMax, flags := NodeFlags.newExact },
      { state := 3, value := 5, best := none, inbound := none, depth := 0, valueBot := isizeMin, theta := isizeMax, rub := isizeMax, flags := NodeFlags.newRelaxed } ] }

/-- What is kept for the node of the next layer: its way in. -/
def kept (v : Variant) (cur : List Nat) : Option (Nat × Int) :=
  let m := cur.foldl (Dd.expandOne v tieProb ⟨.restricted, 5, ⟨1, 0, [], 10⟩, 0⟩ 0 0) tieDd
  match m.nextL with
  | [(_, i)] => (m.node i).best.map fun b => ((m.edge b).src, (m.edge b).decision.value)
  | _ => none

/-- The hypotheses can be met, and ties do occur: without a barrier the first of the six ways is kept, with a barrier the last one of the exact ones, or the first one if none is exact. -/
example : tieDd.nextL = [] ∧ (∀ i ∈ [0, 1, 2], i < tieDd.nodes.length) ∧ (ways tieProb 0 0 tieDd [0, 1, 2]).length = 6 ∧
    kept .all [0, 1, 2] = some (0, 0) ∧ kept .barrier [0, 1, 2] = some (1, 1) ∧ kept .barrier [2] = some (2, 0) := by decide +kernel

/-- Two equal edges of one node are redirected: the second is kept. -/
example :
    let m := [0, 1].foldl (Dd.expandOne .all tieProb ⟨.relaxed, 5, ⟨1, 0, [], 10⟩, 0⟩ 0 0) tieDd
    let m' := [(3, 0), (3, 1)].foldl (fun m z => Dd.redirect ⟨fun _ => 9, fun _ _ _ _ c => c⟩ 9 2 z.1 m z.2) m
    (∀ z ∈ [(3, 0), (3, 1)], z.1 ≠ 2 ∧ z.2 < m.edges.length ∧ (m.edge z.2).src ≠ 2) ∧ (m'.node 2).best.map (fun b => (m'.edge b).decision.value) = some 1 := by decide +kernel

/-- Three equally good nodes: the last one is taken. -/
example : tieDd.maxByValue [0, 2, 1] = some 1 := by decide +kernel

end Verif.Props
