import Verif.Model.Prelude
/-!
Model of `src/frontier/no_dup.rs` (`NoDupFrontier`) and of the comparator `MaxUB` of `src/frontier/mod.rs`.

* A `Vec` is a `List`; every indexing is checked: `none` is the out-of-bounds panic.
* The `FxHashMap` is a partial function from states to node identifiers.
* `while` loops get a fuel argument, large enough according to `Props.noDup_never_panics`; running out of fuel is `none`, too.
  So "never `none`" means: no panic and no endless loop.
-/
set_option autoImplicit false

namespace Verif

/-- `src/frontier/mod.rs:9-14` -/
def maxUB {σ : Type} (rank : σ → σ → Ordering) (l r : SubProblem σ) : Ordering :=
  (compare l.ub r.ub).then (rank l.state r.state)

/-- Checked assignment `v[i] = x`. -/
def setChk {α : Type} (v : List α) (i : Nat) (x : α) : Option (List α) :=
  if i < v.length then some (v.set i x) else none

/-- `src/frontier/no_dup.rs:32-49` (the comparator is passed to the operations) -/
structure NoDup (σ : Type) where
  states : σ → Option Nat
  nodes : List (SubProblem σ)
  pos : List Nat
  heap : List Nat
  bin : List Nat

namespace NoDup
variable {σ : Type} [DecidableEq σ]

/-- `src/frontier/no_dup.rs:170-179` -/
def new : NoDup σ := { states := fun _ => none, nodes := [], pos := [], heap := [], bin := [] }

/-- `src/frontier/no_dup.rs:158-160` -/
def len (f : NoDup σ) : Nat := f.heap.length

/-- `src/frontier/no_dup.rs:182-184` -/
def isEmpty (f : NoDup σ) : Bool := f.heap.isEmpty

/-- `src/frontier/no_dup.rs:201-205` -/
def compareAtPos (rank : σ → σ → Ordering) (f : NoDup σ) (x y : Nat) : Option Ordering := do
  let idx ← f.heap[x]?
  let idy ← f.heap[y]?
  let nx ← f.nodes[idx]?
  let ny ← f.nodes[idy]?
  return maxUB rank nx ny

/-- `src/frontier/no_dup.rs:242-250` (with `is_root`, `is_left`, `288-295`) -/
def parent (pos : Nat) : Nat :=
  if pos = 0 then pos
  else if pos % 2 = 1 then pos / 2
  else pos / 2 - 1

/-- `src/frontier/no_dup.rs:278-280` -/
def leftChild (pos : Nat) : Nat := pos * 2 + 1
/-- `src/frontier/no_dup.rs:283-285` -/
def rightChild (pos : Nat) : Nat := pos * 2 + 2

/-- `src/frontier/no_dup.rs:259-275` -/
def maxChildOf (rank : σ → σ → Ordering) (f : NoDup σ) (pos : Nat) : Option Nat :=
  let size := f.len
  let left := leftChild pos
  let right := rightChild pos
  if left ≥ size then some 0
  else if right ≥ size then some left
  else do
    let o ← f.compareAtPos rank left right
    return (if o = .gt then left else right)

/-- The body of both bubbling loops (`src/frontier/no_dup.rs:212-217` and `229-234`): the node `id` at `me`
changes place with the node at `other`. -/
def swapWith (f : NoDup σ) (id me other : Nat) : Option (NoDup σ) := do
  let oid ← f.heap[other]?
  let pos1 ← setChk f.pos oid me
  let pos2 ← setChk pos1 id other
  let heap1 ← setChk f.heap me oid
  let heap2 ← setChk heap1 other id
  return { f with pos := pos2, heap := heap2 }

/-- `src/frontier/no_dup.rs:211-221` -/
def bubbleUpLoop (rank : σ → σ → Ordering) : Nat → NoDup σ → Nat → Nat → Option (NoDup σ)
  | 0, _, _, _ => none
  | fuel + 1, f, id, me =>
    if me = 0 then some f
    else do
      let o ← f.compareAtPos rank me (parent me)
      if o = .gt then
        let f' ← f.swapWith id me (parent me)
        bubbleUpLoop rank fuel f' id (parent me)
      else some f

/-- `src/frontier/no_dup.rs:207-222` -/
def bubbleUp (rank : σ → σ → Ordering) (f : NoDup σ) (id : Nat) : Option (NoDup σ) := do
  let me ← f.pos[id]?
  bubbleUpLoop rank (f.heap.length + 1) f id me

/-- `src/frontier/no_dup.rs:226-238` -/
def bubbleDownLoop (rank : σ → σ → Ordering) : Nat → NoDup σ → Nat → Nat → Option (NoDup σ)
  | 0, _, _, _ => none
  | fuel + 1, f, id, me => do
    let kid ← f.maxChildOf rank me
    if kid > 0 then
      let o ← f.compareAtPos rank me kid
      if o = .lt then
        let f' ← f.swapWith id me kid
        bubbleDownLoop rank fuel f' id kid
      else some f
    else some f

/-- `src/frontier/no_dup.rs:224-239` -/
def bubbleDown (rank : σ → σ → Ordering) (f : NoDup σ) (id : Nat) : Option (NoDup σ) := do
  let me ← f.pos[id]?
  bubbleDownLoop rank (f.heap.length + 1) f id me

/-- `src/frontier/no_dup.rs:72-98`, the `Occupied` branch of `push`, with the action at line 119. -/
def pushOccupied (rank : σ → σ → Ordering) (f : NoDup σ) (node : SubProblem σ) (id : Nat) :
    Option (NoDup σ) := do
  let old ← f.nodes[id]?
  let oldLp := old.value
  let oldUb := old.ub
  let newLp := node.value
  let newUb := node.ub
  let node := { node with ub := max newUb oldUb }
  let up := maxUB rank node old = .gt
  let nodes1 ← if newLp > oldLp then setChk f.nodes id node else some f.nodes
  let nodes2 ← if newUb > oldUb then do
      let n1 ← nodes1[id]?
      setChk nodes1 id { n1 with ub := newUb }
    else some nodes1
  let f' := { f with nodes := nodes2 }
  if up then f'.bubbleUp rank id else some f'

/-- `src/frontier/no_dup.rs:99-115`, the `Vacant` branch of `push`, with the action at line 119. -/
def pushVacant (rank : σ → σ → Ordering) (f : NoDup σ) (node : SubProblem σ) : Option (NoDup σ) := do
  let (id, f1) ← match f.bin.getLast? with
    | none =>
      some (f.nodes.length, { f with nodes := f.nodes ++ [node], pos := f.pos ++ [0] })
    | some id => do
      let nodes ← setChk f.nodes id node
      some (id, { f with nodes := nodes, bin := f.bin.dropLast })
  let heap := f1.heap ++ [id]
  let pos ← setChk f1.pos id (heap.length - 1)
  let f2 := { f1 with heap := heap, pos := pos,
                      states := fun s => if s = node.state then some id else f1.states s }
  f2.bubbleUp rank id

/-- `src/frontier/no_dup.rs:68-120` -/
def push (rank : σ → σ → Ordering) (f : NoDup σ) (node : SubProblem σ) : Option (NoDup σ) :=
  match f.states node.state with
  | some id => f.pushOccupied rank node id
  | none => f.pushVacant rank node

/-- `Vec::swap_remove(0)` on a non-empty vector: the last element takes the place of the first. -/
def swapRemove0 : List Nat → List Nat
  | [] => []
  | _ :: t =>
    match t.getLast? with
    | none => []
    | some l => l :: t.dropLast

/-- `src/frontier/no_dup.rs:124-144` -/
def pop (rank : σ → σ → Ordering) (f : NoDup σ) : Option (NoDup σ × Option (SubProblem σ)) :=
  match f.heap.head? with
  | none => some (f, none)
  | some id => do
    let f1 := { f with heap := swapRemove0 f.heap }
    let f2 ← match f1.heap.head? with
      | none => some f1
      | some h0 => do
        let pos ← setChk f1.pos h0 0
        ({ f1 with pos := pos }).bubbleDown rank h0
    let f3 := { f2 with bin := f2.bin ++ [id] }
    let node ← f3.nodes[id]?
    return ({ f3 with states := fun s => if s = node.state then none else f3.states s }, some node)

/-- `src/frontier/no_dup.rs:148-154` -/
def clear (_f : NoDup σ) : NoDup σ :=
  { states := fun _ => none, nodes := [], pos := [], heap := [], bin := [] }

end NoDup
end Verif
