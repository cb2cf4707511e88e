import Verif.Model.Bits
import Verif.Model.Mdd
/-!
Model of the example `examples/tsptw` (travelling salesman with time windows): `state.rs`, `model.rs`, `relax.rs`, `heuristics.rs`.

Simplifications: the distance matrix and the vector of time windows are functions (their cells are independent, C04); bit sets are numbers (`Model/Bits.lean`);
`usize` and `u16` are unbounded (durations are far below the limit); the minimum of an empty pool of positions, on which the code panics (`unwrap`), is 0 here:
`Props.tsptw_no_panic` shows that it is never asked for.
-/
set_option autoImplicit false

namespace Verif.Tsptw

/-- `instance.rs:30-33`, `instance.rs:44-51` -/
structure Inst where
  n : Nat
  dist : Nat → Nat → Nat
  earliest : Nat → Nat
  latest : Nat → Nat

/-- `state.rs:48-56` -/
inductive Position where
  | node (i : Nat)
  | virt (s : Nat)
deriving DecidableEq, Repr

/-- `state.rs:58-70` -/
inductive Elapsed where
  | fixed (d : Nat)
  | fuzzy (e l : Nat)
deriving DecidableEq, Repr

/-- `state.rs:33-46` -/
structure State where
  position : Position
  elapsed : Elapsed
  must : Nat
  maybe : Option Nat
  depth : Nat
deriving DecidableEq, Repr

instance : Inhabited State := ⟨⟨.node 0, .fixed 0, 0, none, 0⟩⟩

/-- `state.rs:72-79` -/
def Elapsed.add : Elapsed → Nat → Elapsed
  | .fixed d, x => .fixed (d + x)
  | .fuzzy e l, x => .fuzzy (e + x) (l + x)

/-- `state.rs:89-94` -/
def Elapsed.earliest : Elapsed → Nat
  | .fixed d => d
  | .fuzzy e _ => e

/-- `state.rs:95-100` -/
def Elapsed.latest : Elapsed → Nat
  | .fixed d => d
  | .fuzzy _ l => l

variable (I : Inst)

/-- `usize::max_value()` -/
def usizeMax : Nat := 2 ^ 64 - 1

/-- `model.rs:52-66`, one entry of the vector -/
def cheapest (i : Nat) : Nat :=
  (List.range I.n).foldl (fun m j => if i = j then m else min m (I.dist j i)) usizeMax

/-- `model.rs:39-50` -/
def initial : State :=
  { position := .node 0, elapsed := .fixed 0, must := Bits.clear (Bits.full I.n) 0, maybe := none, depth := 0 }

/-- `model.rs:307-316` -/
def minDist (s : State) (j : Nat) : Nat :=
  match s.position with
  | .node i => I.dist i j
  | .virt c => ((Bits.iter I.n c).map fun i => I.dist i j).min?.getD 0

/-- `model.rs:317-326` -/
def maxDist (s : State) (j : Nat) : Nat :=
  match s.position with
  | .node i => I.dist i j
  | .virt c => ((Bits.iter I.n c).map fun i => I.dist i j).max?.getD 0

/-- `model.rs:261-268` -/
def canMove (s : State) (j : Nat) : Bool :=
  decide ((s.elapsed.add (minDist I s j)).earliest ≤ I.latest j)

/-- `model.rs:281-287`, `relax.rs:98-104`: a fuzzy amount whose ends coincide is a fixed one. -/
def mkElapsed (e l : Nat) : Elapsed := if e = l then .fixed e else .fuzzy e l

/-- `model.rs:269-306` -/
def arrival (s : State) (j : Nat) : Elapsed :=
  match mkElapsed (s.elapsed.add (minDist I s j)).earliest (s.elapsed.add (maxDist I s j)).latest with
  | .fixed d => .fixed (max d (I.earliest j))
  | .fuzzy e l => mkElapsed (max e (I.earliest j)) (min l (I.latest j))

/-- `model.rs:99-130` -/
def dom (x : Nat) (s : State) : List Decision :=
  if s.depth = I.n - 1 then
    if canMove I s 0 then [⟨x, 0⟩] else []
  else if (Bits.iter I.n s.must).all (canMove I s) then
    (Bits.iter I.n s.must).map (fun i : Nat => (⟨x, (i : Int)⟩ : Decision)) ++
      match s.maybe with
      | some m => ((Bits.iter I.n m).filter (canMove I s)).map fun i : Nat => (⟨x, (i : Int)⟩ : Decision)
      | none => []
  else []

/-- `model.rs:132-151` -/
def trans (s : State) (d : Decision) : State :=
  { position := .node d.value.toNat
    elapsed := arrival I s d.value.toNat
    must := Bits.clear s.must d.value.toNat
    maybe := s.maybe.map fun m => Bits.clear m d.value.toNat
    depth := s.depth + 1 }

/-- `model.rs:153-175` -/
def cost (s : State) (d : Decision) : Int :=
  let j := d.value.toNat
  let travel := minDist I s j
  let now := s.elapsed.earliest + travel
  let waiting := if now < I.earliest j then I.earliest j - now else 0;
  -((travel + waiting : Nat) : Int)

/-- `model.rs:177-190` -/
def nextVar : List State → Option Nat
  | [] => none
  | s :: _ => if s.depth = I.n then none else some s.depth

/-- `sort_unstable()` on numbers: equal numbers cannot be told apart, so any sort will do. -/
def sortAsc (l : List Nat) : List Nat := Dd.sortBy (fun a b => decide (a ≤ b)) l

/-- `complete_tour -= 1` once per city that must be visited (`model.rs:201`) goes below zero: a panic if overflow checks are on. -/
def underflows (s : State) : Bool := decide (I.n - s.depth < Bits.count I.n s.must)

/-- `complete_tour` after the loop (`model.rs:193`, `model.rs:201`), with the wrap-around of a release build -/
def completeTour (s : State) : Nat :=
  if underflows I s then I.n - s.depth + 2 ^ 64 - Bits.count I.n s.must else I.n - s.depth - Bits.count I.n s.must

/-- `model.rs:192-257` -/
def estimate (s : State) : Int :=
  let musts := Bits.iter I.n s.must
  -- 200-210
  let late (i : Nat) : Bool := decide (I.latest i < (s.elapsed.add (cheapest I i)).earliest)
  if musts.any late then isizeMin else
  let mandatory := (musts.map (cheapest I)).sum
  let back := musts.foldl (fun b i => min b (I.dist i 0)) usizeMax
  -- 212-232
  let r : Option (Nat × Nat) :=
    match s.maybe with
    | none => some (mandatory, back)
    | some m =>
      let maybes := Bits.iter I.n m
      let temp := maybes.map (cheapest I)
      let back := maybes.foldl (fun b i => min b (I.dist i 0)) back
      let violations := (maybes.filter late).length
      if temp.length - violations < completeTour I s then none
      else some (mandatory + ((sortAsc temp).take (completeTour I s)).sum, back)
  match r with
  | none => isizeMin
  | some (mandatory, back) =>
    -- 237-245
    let back := if mandatory = 0 then min back (minDist I s 0) else back
    -- 249-256
    let total := mandatory + back
    if I.latest 0 < (s.elapsed.add total).earliest then isizeMin else -(total : Int)

/-- The `Problem` of the example (`model.rs:84-258`). -/
def problem : Problem State :=
  { nbVars := I.n
    init := initial I
    initVal := 0
    nextVar := nextVar I
    dom := dom I
    trans := trans I
    cost := cost I
    estimate := estimate I }

/-- `relax.rs:39-48` -/
structure Helper where
  depth : Nat
  position : Nat
  earliest : Nat
  latest : Nat
  allMust : Nat
  allAgree : Nat
  allMaybe : Nat

/-- `relax.rs:50-60` -/
def Helper.new (n : Nat) : Helper :=
  { depth := 0, position := 0, earliest := usizeMax, latest := 0, allMust := 0, allAgree := Bits.full n, allMaybe := 0 }

/-- `relax.rs:61-90`, `relax.rs:128-134` -/
def Helper.track (h : Helper) (s : State) : Helper :=
  { depth := max h.depth s.depth
    position := match s.position with
      | .node x => Bits.add h.position x
      | .virt xs => h.position ||| xs
    earliest := min h.earliest s.elapsed.earliest
    latest := max h.latest s.elapsed.latest
    allMust := h.allMust ||| s.must
    allAgree := h.allAgree &&& s.must
    allMaybe := match s.maybe with
      | some m => h.allMaybe ||| m
      | none => h.allMaybe }

/-- `relax.rs:92-119`, `relax.rs:136-142` -/
def Helper.get (n : Nat) (h : Helper) : State :=
  let maybe := (h.allMaybe ||| h.allMust) ^^^ h.allAgree
  { depth := h.depth
    position := .virt h.position
    elapsed := mkElapsed h.earliest h.latest
    must := h.allAgree
    maybe := if 0 < Bits.count n maybe then some maybe else none }

/-- `relax.rs:125-143` -/
def merge (l : List State) : State := (l.foldl Helper.track (Helper.new I.n)).get I.n

/-- The `Relaxation` of the example (`relax.rs:122-148`). -/
def relaxation : Relaxation State :=
  { merge := merge I, relax := fun _ _ _ _ c => c }

/-- `TsptwRanking` (`heuristics.rs:5-14`) -/
def rank (a b : State) : Ordering := compare a.depth b.depth

/-- `TsptwWidth` (`heuristics.rs:16-29`); the depth is a `u16`, and release builds drop the digits of the products that do not fit into a `usize`. -/
def width (nbVars factor : Nat) (s : State) : Nat := nbVars * (s.depth % 2 ^ 16 + 1) * factor % 2 ^ 64

end Verif.Tsptw
