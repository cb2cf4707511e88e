import Verif.Basic.ISize
import Verif.Model.Prelude
import Verif.Model.NodeFlags
/-!
Model of the decision diagrams `All` (`src/mdd/with_all.rs`) and `Barrier` (`src/mdd/with_barrier.rs`).

The two Rust files share most of their code line by line; the model has one definition per function with a
`Variant` argument where they differ.  Line numbers are given as `A:n` (`with_all.rs`) and `B:n` (`with_barrier.rs`).

Representation choices:
* `Vec` = `List`; a `NodeId`/`EdgeId` is an index.  Reads use a default for out-of-range indices; `Props.mdd_ids_in_range`
  shows every stored index is in range, so the default is never read.
* `next_l : FxHashMap<Arc<T>, NodeId>` = association list in insertion order.  Each time the code iterates it, the
  order is chosen by `Oracle.hashOrd` (an arbitrary permutation).
* `sort_unstable_by` = stable insertion sort of a list first permuted by `Oracle.shuffle`: any sorted permutation can
  be obtained this way, ties included.
* `while let Some(eid) = edge_id` loops over a linked list of inbound edges = a fold over `inIds` (the ids met along the `next` pointers).
  The loops never change existing edges, so reading the chain first is the same.
* What the barrier contains when the diagram looks a threshold up is an input (`Reads`), what it stores is an output (`updates`, a log of
  `try_update_barrier` calls).  The control flow of a compilation does not depend on the outcome of its own stores.
* `Node.depth`, `Node.theta`, `Dd.lelDepth`, `Dd.updates` exist only in `Barrier`; in variant `all` they are never read.
-/
set_option autoImplicit false

namespace Verif

/-- `src/prelude.rs:18-43`.  `for_each_in_domain` is the list of decisions it visits, in order. -/
structure Problem (σ : Type) where
  nbVars : Nat
  init : σ
  initVal : Int
  nextVar : List σ → Option Nat
  dom : Nat → σ → List Decision
  trans : σ → Decision → σ
  cost : σ → Decision → Int
  estimate : σ → Int

/-- `src/prelude.rs:45-58` -/
structure Relaxation (σ : Type) where
  merge : List σ → σ
  relax : σ → σ → σ → Decision → Int → Int

/-- Which of the two decision diagram types. -/
inductive Variant | all | barrier
deriving DecidableEq, Repr

/-- A:19-31, B:20-35 -/
structure Node (σ : Type) where
  state : σ
  value : Int
  best : Option Nat
  inbound : Option Nat
  depth : Nat
  valueBot : Int
  theta : Int
  rub : Int
  flags : NodeFlags
deriving Repr

instance {σ : Type} [Inhabited σ] : Inhabited (Node σ) :=
  ⟨{ state := default, value := 0, best := none, inbound := none, depth := 0, valueBot := 0, theta := 0,
     rub := 0, flags := default }⟩

/-- A:34-41, B:38-45 -/
structure Edge where
  src : Nat
  decision : Decision
  cost : Int
  next : Option Nat
deriving Repr, Inhabited

/-- A call of `try_update_barrier` that passed the `lel_depth` test (B:613-631). -/
structure Update (σ : Type) where
  depth : Nat
  state : σ
  theta : Int
  explored : Bool
deriving Repr

/-- A:44-65, B:53-77 -/
structure Dd (σ : Type) where
  rootPa : List Decision
  nodes : List (Node σ)
  edges : List Edge
  prevL : List Nat
  nextL : List (σ × Nat)
  cutset : List Nat
  lelDepth : Option Nat
  bestN : Option Nat
  exact : Bool
  approximate : Bool
  cutsetType : CutsetType
  explored : Nat
  updates : List (Update σ)
deriving Repr

/-- `src/prelude.rs:168-181` (problem, relaxation and ranking are passed separately) -/
structure Input (σ : Type) where
  compType : CompilationType
  maxWidth : Nat
  residual : SubProblem σ
  bestLb : Int

/-- Resolution of the non-determinism of one compilation. -/
structure Oracle (σ : Type) where
  hashOrd : List (σ × Nat) → List (σ × Nat)
  shuffle : List Nat → List Nat

/-- The oracle only permutes. -/
structure Oracle.Valid {σ : Type} (o : Oracle σ) : Prop where
  hash : ∀ l, (o.hashOrd l).Perm l
  shuf : ∀ l, (o.shuffle l).Perm l

/-- What the diagram sees when it reads the barrier of a layer (B:277, B:284). -/
structure Reads (σ : Type) where
  isEmpty : Nat → Bool
  theta : Nat → σ → Option Int

/-- The barrier is empty (also: the `All` diagram, which has none). -/
def Reads.none {σ : Type} : Reads σ := ⟨fun _ => true, fun _ _ => Option.none⟩

namespace Dd
variable {σ : Type} [DecidableEq σ] [Inhabited σ]

/-- A:104-118, B:116-132 -/
def new (c : CutsetType) : Dd σ :=
  { rootPa := [], nodes := [], edges := [], prevL := [], nextL := [], cutset := [], lelDepth := none,
    bestN := none, exact := true, approximate := false, cutsetType := c, explored := 0, updates := [] }

/-- A:119-129, B:133-144 (`prev_l` is not cleared; the log of updates is per compilation) -/
def clear (m : Dd σ) : Dd σ :=
  { m with
    rootPa := []
    nodes := []
    edges := []
    nextL := []
    cutset := []
    lelDepth := none
    bestN := none
    exact := true
    approximate := false
    explored := 0
    updates := [] }

/-- `self.nodes[i]` -/
def node (m : Dd σ) (i : Nat) : Node σ := m.nodes.getD i default
/-- `self.edges[e]` -/
def edge (m : Dd σ) (e : Nat) : Edge := m.edges.getD e default
/-- Update of a node in place. -/
def modNode (m : Dd σ) (i : Nat) (f : Node σ → Node σ) : Dd σ := { m with nodes := m.nodes.modify i f }

/-- The ids met by following `next` pointers. -/
def chain (es : List Edge) : Nat → Option Nat → List Nat
  | 0, _ => []
  | _ + 1, none => []
  | fuel + 1, some e => e :: chain es fuel (es.getD e default).next

/-- The ids visited by `let mut e = self.nodes[i].inbound; while let Some(eid) = e { ...; e = edge.next }`
(A:435-463, A:491-518, B:496-524, B:581-609) -/
def inIds (m : Dd σ) (i : Nat) : List Nat := chain m.edges (m.edges.length + 1) (m.node i).inbound

/-- A:136-148, B:151-163 -/
def hasExactBestPath (m : Dd σ) : Nat → Option Nat → Bool
  | 0, _ => false
  | _ + 1, none => true
  | fuel + 1, some i =>
    let n := m.node i
    if n.flags.isExact then true
    else !n.flags.isRelaxed && m.hasExactBestPath fuel (n.best.map fun e => (m.edge e).src)

/-- A:131-134, B:146-149 -/
def isExactDd (m : Dd σ) (c : CompilationType) : Bool :=
  !m.approximate || (c = .relaxed && m.hasExactBestPath (m.nodes.length + 1) m.bestN)

/-- A:150-152, B:165-167 -/
def bestValue (m : Dd σ) : Option Int := m.bestN.map fun i => (m.node i).value

/-- A:170-174, B:185-189: the decisions along the best edges, last one first. -/
def bestEdges (m : Dd σ) : Nat → Option Nat → List Decision
  | 0, _ => []
  | _ + 1, none => []
  | fuel + 1, some e => (m.edge e).decision :: m.bestEdges fuel (m.node (m.edge e).src).best

/-- A:158-176, B:173-191: the path to the root of the diagram, then the decisions from the last to the first. -/
def bestPath (m : Dd σ) (i : Nat) : List Decision := m.rootPa ++ m.bestEdges (m.nodes.length + 1) (m.node i).best

/-- A:154-156, B:169-171 -/
def bestSolution (m : Dd σ) : Option (List Decision) := m.bestN.map m.bestPath

/-- A:184-202, B:199-217: the subproblem made of one marked cutset node. -/
def cutsetNode (m : Dd σ) (bestValue : Int) (i : Nat) : SubProblem σ :=
  let n := m.node i
  let rub := satAdd n.value n.rub
  let locb := satAdd n.value n.valueBot
  { state := n.state, value := n.value, path := m.bestPath i, ub := min (min rub locb) bestValue }

/-- A:178-205, B:193-220: the subproblems passed to `func`, in order. -/
def drainCutset (m : Dd σ) : List (SubProblem σ) :=
  match m.bestValue with
  | none => []
  | some bv => (m.cutset.filter fun i => (m.node i).flags.isMarked).map (m.cutsetNode bv)

/-- `e.insert(node_id)` for a vacant entry of `next_l` (A:336, B:394). -/
def lookup (l : List (σ × Nat)) (s : σ) : Option Nat := (l.find? fun x => x.1 = s).map (·.2)

/-- A:300-365, B:355-420 -/
def branchOn (v : Variant) (p : Problem σ) (m : Dd σ) (fromId : Nat) (d : Decision) : Dd σ :=
  let src := m.node fromId
  let nextState := p.trans src.state d
  let cost := p.cost src.state d
  match lookup m.nextL nextState with
  | none =>
    let nodeId := m.nodes.length
    let edgeId := m.edges.length
    { m with
      edges := m.edges ++ [{ src := fromId, decision := d, cost := cost, next := none }]
      nodes := m.nodes ++ [{ state := nextState, value := satAdd src.value cost, best := some edgeId,
                             inbound := some edgeId, depth := src.depth + 1, valueBot := isizeMin,
                             theta := isizeMax, rub := isizeMax, flags := src.flags }]
      nextL := m.nextL ++ [(nextState, nodeId)] }
  | some nodeId =>
    let value := satAdd src.value cost
    let n := m.node nodeId
    let edgeId := m.edges.length
    let m : Dd σ := { m with edges := m.edges ++ [{ src := fromId, decision := d, cost := cost, next := n.inbound }] }
    match v with
    | .all =>
      -- A:345-346 flags hygiene, A:358-362
      let n := { n with flags := n.flags.setExact (src.flags.isExact && n.flags.isExact), inbound := some edgeId }
      let n := if value > n.value then { n with value := value, best := some edgeId } else n
      m.modNode nodeId fun _ => n
    | .barrier =>
      -- B:412-417
      let n := { n with inbound := some edgeId }
      let n := if value > n.value ∨ (value = n.value ∧ src.flags.isExact = true) then
          { n with value := value, best := some edgeId, flags := src.flags } else n
      m.modNode nodeId fun _ => n

/-- The comparator of A:377-383, A:401-407, B:432-438, B:457-463 (`reverse`d: best first). -/
def layerCmp (rank : σ → σ → Ordering) (m : Dd σ) (a b : Nat) : Ordering :=
  ((compare (m.node a).value (m.node b).value).then (rank (m.node a).state (m.node b).state)).swap

/-- Insert before the first element that is not smaller. -/
def insertBy {α : Type} (le : α → α → Bool) (a : α) : List α → List α
  | [] => [a]
  | b :: l => if le a b then a :: b :: l else b :: insertBy le a l

/-- A stable sort. -/
def sortBy {α : Type} (le : α → α → Bool) (l : List α) : List α := l.foldr (insertBy le) []

/-- `curr_l.sort_unstable_by(..)` -/
def sortLayer (o : Oracle σ) (rank : σ → σ → Ordering) (m : Dd σ) (l : List Nat) : List Nat :=
  sortBy (fun a b => (m.layerCmp rank a b).isLE) (o.shuffle l)

/-- A:367-385, B:422-440 -/
def restrict (o : Oracle σ) (rank : σ → σ → Ordering) (w : Nat) (m : Dd σ) (currL : List Nat) : Dd σ × List Nat :=
  let m : Dd σ := { m with approximate := true }
  (m, (m.sortLayer o rank currL).take w)

/-- A:393-398, B:448-454: the previous layer becomes the cutset. -/
def markLel (m : Dd σ) : Dd σ :=
  m.prevL.foldl (fun m i =>
    { m.modNode i (fun n => { n with flags := n.flags.setCutset true }) with
      cutset := m.cutset ++ [i]
      lelDepth := some (m.node i).depth }) m

/-- A:436-463, B:497-524: redirect one inbound edge of `dropId` to the merged node. -/
def redirect (r : Relaxation σ) (merged : σ) (mergedId dropId : Nat) (m : Dd σ) (eid : Nat) : Dd σ :=
  let edge := m.edge eid
  let src := (m.node edge.src).state
  let rcost := r.relax src (m.node dropId).state merged edge.decision edge.cost
  let newEid := m.edges.length
  let m : Dd σ := { m with
    edges := m.edges ++ [{ src := edge.src, decision := edge.decision, cost := rcost,
                           next := (m.node mergedId).inbound }] }
  let m := m.modNode mergedId fun n => { n with inbound := some newEid }
  let newValue := satAdd (m.node edge.src).value rcost
  if newValue ≥ (m.node mergedId).value then
    m.modNode mergedId fun n => { n with best := some newEid, value := newValue }
  else m

/-- A:434-464, B:493-525: merge one node into the merged node. -/
def mergeOne (v : Variant) (r : Relaxation σ) (merged : σ) (mergedId : Nat) (m : Dd σ) (dropId : Nat) : Dd σ :=
  let m : Dd σ := match v with
    | .all => m
    | .barrier => m.modNode dropId fun n => { n with flags := n.flags.setDeleted true }
  (m.inIds dropId).foldl (redirect r merged mergedId dropId) m

/-- A:387-472, B:442-535.  `none`: the panic of `max_width - 1` / `split_at_mut` when `max_width = 0`. -/
def relaxLayer (v : Variant) (o : Oracle σ) (rank : σ → σ → Ordering) (r : Relaxation σ) (w : Nat)
    (m : Dd σ) (currL : List Nat) : Option (Dd σ × List Nat) :=
  if w = 0 then none else
  let m := if m.cutsetType = .lastExactLayer ∧ m.approximate = false then m.markLel else m
  let m := { m with approximate := true }
  let currL := m.sortLayer o rank currL
  let keep := currL.take (w - 1)
  let merge := currL.drop (w - 1)
  let merged := r.merge (merge.map fun i => (m.node i).state)
  let recycled := keep.find? fun i => (m.node i).state = merged
  let mergedId := recycled.getD m.nodes.length
  let m : Dd σ := match recycled with
    | some _ => m
    | none => { m with nodes := m.nodes ++ [
        { state := merged, value := isizeMin, best := none, inbound := none,
          depth := (m.node (merge.headD 0)).depth, valueBot := isizeMin, theta := isizeMax, rub := isizeMax,
          flags := NodeFlags.newRelaxed }] }
  let m := m.modNode mergedId fun n => { n with flags := n.flags.setRelaxed true }
  let m := merge.foldl (mergeOne v r merged mergedId) m
  match recycled with
  | some _ =>
    let currL := currL.take w
    let m : Dd σ := match v with
      | .all => m
      | .barrier => m.modNode (currL.getD (w - 1) 0) fun n => { n with flags := n.flags.setDeleted false }
    some (m, currL)
  | none => some (m, currL.take (w - 1) ++ [mergedId])

/-- B:613-618: `try_update_barrier` up to the read of the barrier; the call is logged. -/
def tryUpdate (m : Dd σ) (depth : Nat) (s : σ) (theta : Int) (explored : Bool) : Dd σ :=
  if m.cutsetType = .lastExactLayer ∧ (m.lelDepth.any fun l => depth > l) = true then m
  else { m with updates := m.updates ++ [⟨depth, s, theta, explored⟩] }

/-- A:271-281, B:312-336: expansion of one node. -/
def expandOne (v : Variant) (p : Problem σ) (inp : Input σ) (var depth : Nat) (m : Dd σ) (i : Nat) : Dd σ :=
  let s := (m.node i).state
  let rub := p.estimate s
  let m := m.modNode i fun n => { n with rub := rub }
  let ub := satAdd rub (m.node i).value
  if ub > inp.bestLb then
    let m := (p.dom var s).foldl (fun m d => m.branchOn v p i d) m
    let m := { m with explored := m.explored + 1 }
    match v with
    | .all => m
    | .barrier =>
      if inp.compType = .relaxed ∧ (m.node i).flags.isExact = true then
        m.tryUpdate depth s (m.node i).value false else m
  else
    match v with
    | .all => m
    | .barrier =>
      let m := m.modNode i fun n => { n with theta := satSub inp.bestLb rub }
      if inp.compType = .relaxed ∧ (m.node i).flags.isExact = true then
        m.tryUpdate depth s (m.node i).theta false else m

/-- B:280-293: the test and effect of `retain_mut` on one node. -/
def pruneOne (rd : Reads σ) (depth : Nat) (acc : Dd σ × List Nat) (i : Nat) : Dd σ × List Nat :=
  let (m, kept) := acc
  if (m.node i).flags.isRelaxed then (m, kept ++ [i])
  else
    let theta := (rd.theta depth (m.node i).state).getD isizeMin
    if (m.node i).value > theta then (m, kept ++ [i])
    else (m.modNode i fun n => { n with theta := theta, flags := n.flags.setPrunedByBarrier true }, kept)

/-- B:277-295 -/
def pruneLayer (v : Variant) (rd : Reads σ) (rootDepth depth : Nat) (m : Dd σ) (currL : List Nat) : Dd σ × List Nat :=
  match v with
  | .all => (m, currL)
  | .barrier =>
    if depth > rootDepth ∧ rd.isEmpty depth = false then currL.foldl (pruneOne rd depth) (m, []) else (m, currL)

/-- A:256-268, B:297-309 -/
def squashLayer (v : Variant) (o : Oracle σ) (rank : σ → σ → Ordering) (r : Relaxation σ) (inp : Input σ)
    (rootDepth depth : Nat) (m : Dd σ) (currL : List Nat) : Option (Dd σ × List Nat) :=
  match inp.compType with
  | .exact => some (m, currL)
  | .restricted => if currL.length > inp.maxWidth then some (m.restrict o rank inp.maxWidth currL) else some (m, currL)
  | .relaxed =>
    if currL.length > inp.maxWidth ∧ depth > rootDepth + 1 then m.relaxLayer v o rank r inp.maxWidth currL
    else some (m, currL)

/-- How the loop of `_compile` ended. -/
inductive LoopEnd | finished | emptyLayer
deriving DecidableEq, Repr

/-- A:243-285, B:264-340.  `none`: panic, or out of fuel (endless loop).
`curr_l` is empty or the previously expanded layer. -/
def loop (v : Variant) (o : Oracle σ) (p : Problem σ) (r : Relaxation σ) (rank : σ → σ → Ordering) (rd : Reads σ)
    (inp : Input σ) (rootDepth : Nat) : Nat → Nat → Dd σ → List Nat → Option (Dd σ × LoopEnd)
  | 0, _, _, _ => none
  | fuel + 1, depth, m, currL =>
    let order := o.hashOrd m.nextL
    match p.nextVar (order.map (·.1)) with
    | none => some (m, .finished)
    | some var =>
      let m := { m with prevL := currL, nextL := [] }
      let currL := order.map (·.2)
      if currL.isEmpty then some (m, .emptyLayer)
      else
        let (m, currL) := m.pruneLayer v rd rootDepth depth currL
        match m.squashLayer v o rank r inp rootDepth depth currL with
        | none => none
        | some (m, currL) =>
          let m := currL.foldl (expandOne v p inp var depth) m
          loop v o p r rank rd inp rootDepth fuel (depth + 1) m currL

/-- `Iterator::max_by_key(|id| value)`: the last of the maximal elements. -/
def maxByValue (m : Dd σ) : List Nat → Option Nat
  | [] => none
  | i :: l => some (l.foldl (fun b j => if (m.node j).value ≥ (m.node b).value then j else b) i)

/-- A:217-241, B:232-262: the diagram with its root only. -/
def start (m : Dd σ) (inp : Input σ) : Dd σ :=
  let m := m.clear
  let rootV := inp.residual.value
  { m with
    rootPa := m.rootPa ++ inp.residual.path
    nodes := m.nodes ++ [{ state := inp.residual.state, value := rootV, best := none, inbound := none,
                           depth := inp.residual.path.length, valueBot := isizeMin, theta := isizeMax,
                           rub := inp.residual.ub - rootV, flags := NodeFlags.newExact }]
    nextL := m.nextL ++ [(inp.residual.state, 0)] }

/-- A:495-517: effect of one inbound edge in `compute_local_bounds`; the second component is `visit`. -/
def boundEdge (nodeId : Nat) (acc : Dd σ × List Nat) (eid : Nat) : Dd σ × List Nat :=
  let (m, visit) := acc
  let edge := m.edge eid
  let lp := satAdd (m.node nodeId).valueBot edge.cost
  let m := m.modNode edge.src fun n => { n with valueBot := max n.valueBot lp }
  let (m, visit) :=
    if (m.node edge.src).flags.isMarked then (m, visit)
    else
      let m := m.modNode edge.src fun n => { n with flags := n.flags.setMarked true }
      (m, if (m.node edge.src).flags.isCutset then visit else visit ++ [edge.src])
  if m.cutsetType = .frontier ∧ (m.node nodeId).flags.isMarked = true ∧ (m.node nodeId).flags.isExact = false ∧
      (m.node edge.src).flags.isExact = true ∧ (m.node edge.src).flags.isCutset = false then
    ({ m.modNode edge.src (fun n => { n with flags := n.flags.setCutset true }) with
        cutset := m.cutset ++ [edge.src] }, visit)
  else (m, visit)

/-- A:490-519: one round of `compute_local_bounds`. -/
def boundRound (m : Dd σ) (nextV : List Nat) : Dd σ × List Nat :=
  nextV.foldl (fun acc i => (acc.1.inIds i).foldl (boundEdge i) acc) (m, [])

/-- A:487-520 -/
def boundLoop : Nat → Dd σ → List Nat → Dd σ
  | 0, m, _ => m
  | fuel + 1, m, visit =>
    if visit.isEmpty then m
    else
      let (m, visit) := m.boundRound visit
      boundLoop fuel m visit

/-- A:474-522 -/
def computeLocalBounds (o : Oracle σ) (m : Dd σ) : Dd σ :=
  if m.exact then m
  else
    let ids := (o.hashOrd m.nextL).map (·.2)
    let m := ids.foldl (fun m i =>
      m.modNode i fun n => { n with valueBot := 0, flags := n.flags.setMarked true }) m
    boundLoop (m.nodes.length + 1) m ids

/-- B:538-548: initialisation of one node of the last layer. -/
def initTerminal (m : Dd σ) (i : Nat) : Dd σ :=
  let m := m.modNode i fun n => { n with valueBot := 0, flags := n.flags.setMarked true }
  if m.cutsetType = .lastExactLayer ∧ m.approximate = false then
    m.modNode i fun n => { n with flags := n.flags.setCutset true }
  else if m.cutsetType = .frontier ∧ (m.node i).flags.isExact = true then
    m.modNode i fun n => { n with flags := n.flags.setCutset true }
  else m

/-- B:583-608: effect of one inbound edge. -/
def thetaEdge (nodeId : Nat) (m : Dd σ) (eid : Nat) : Dd σ :=
  let edge := m.edge eid
  let m :=
    if (m.node nodeId).flags.isMarked then
      let lp := satAdd (m.node nodeId).valueBot edge.cost
      m.modNode edge.src fun n => { n with valueBot := max n.valueBot lp, flags := n.flags.setMarked true }
    else m
  let thetaUsing := satSub (m.node nodeId).theta edge.cost
  let m := m.modNode edge.src fun n => { n with theta := min n.theta thetaUsing }
  if m.cutsetType = .frontier ∧ (m.node nodeId).flags.isMarked = true ∧ (m.node nodeId).flags.isExact = false ∧
      (m.node edge.src).flags.isExact = true ∧ (m.node edge.src).flags.isCutset = false then
    { m.modNode edge.src (fun n => { n with flags := n.flags.setCutset true }) with
        cutset := m.cutset ++ [edge.src] }
  else m

/-- B:558-567: the threshold of a cutset node. -/
def cutsetTheta (bestLb : Int) (n : Node σ) : Node σ :=
  if n.flags.isCutset then
    let locb := satAdd n.value n.valueBot
    if locb < bestLb then { n with theta := min n.theta (satSub bestLb n.valueBot) }
    else { n with theta := min n.theta n.value }
  else n

/-- B:552-609: one node of the backward sweep. -/
def thetaNode (bestLb : Int) (m : Dd σ) (i : Nat) : Dd σ :=
  if (m.node i).flags.isDeleted then m
  else
    let m := m.modNode i (cutsetTheta bestLb)
    let n := m.node i
    let m :=
      if n.flags.isExact = true ∧ n.flags.isPrunedByBarrier = false then
        m.tryUpdate n.depth n.state n.theta (!n.flags.isCutset)
      else m
    (m.inIds i).foldl (thetaEdge i) m

/-- B:537-611 -/
def computeLocalBoundsAndTheta (o : Oracle σ) (bestLb : Int) (m : Dd σ) : Dd σ :=
  let ids := (o.hashOrd m.nextL).map (·.2)
  let m := ids.foldl (fun m i => m.initTerminal i) m
  (List.range m.nodes.length).reverse.foldl (thetaNode bestLb) m

/-- A:287-297, B:342-352 -/
def finish (v : Variant) (o : Oracle σ) (inp : Input σ) (m : Dd σ) : Dd σ :=
  let ids := (o.hashOrd m.nextL).map (·.2)
  let m : Dd σ := { m with bestN := m.maxByValue ids }
  let m : Dd σ := { m with exact := m.isExactDd inp.compType }
  match inp.compType with
  | .relaxed =>
    match v with
    | .all => m.computeLocalBounds o
    | .barrier => m.computeLocalBoundsAndTheta o inp.bestLb
  | _ => m

/-- A:211-298, B:226-353.  `none` is a panic or an endless loop; the fuel suffices for every well-formed problem. -/
def compile (v : Variant) (o : Oracle σ) (p : Problem σ) (r : Relaxation σ) (rank : σ → σ → Ordering)
    (rd : Reads σ) (m : Dd σ) (inp : Input σ) : Option (Dd σ) :=
  let rootDepth := inp.residual.path.length
  match loop v o p r rank rd inp rootDepth (p.nbVars + 2) rootDepth (m.start inp) [] with
  | none => none
  | some (m, .emptyLayer) => some m
  | some (m, .finished) => some (m.finish v o inp)

end Dd
end Verif
