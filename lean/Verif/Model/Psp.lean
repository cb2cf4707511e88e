import Verif.Model.Bits
import Verif.Model.Mdd
/-!
Model of the example `examples/psp/psp.rs` (pigment sequencing: production planning with one machine).

Periods are decided from the last to the first.  Simplifications: the two matrices of the input file are functions (their cells are independent, C04); `usize`, `i32` are
unbounded; a `Set32` is a number (`Model/Bits.lean`); the thread-local buffers are arguments.
-/
set_option autoImplicit false

namespace Verif.Psp

/-- The contents of an instance file (`psp.rs:366-456`): `demand i t` is the `t`-th number on the line of item `i`. -/
structure Inst where
  periods : Nat
  items : Nat
  changeover : Nat → Nat → Nat
  stocking : Nat → Nat
  demand : Nat → Nat → Nat

/-- `psp.rs:21-28` -/
structure State where
  time : Nat
  k : Int
  u : List Int
deriving DecidableEq, Repr, Inhabited

/-- `state.u[i]` -/
def State.at (s : State) (i : Nat) : Int := s.u.getD i (-1)

/-! ### The tables (`psp.rs:416-451`) -/

/-- What is known after some periods of the line of an item: `last_period` and the rows of the two matrices. -/
structure Row where
  last : Int
  prev : List Int
  rem : List Int
deriving DecidableEq, Repr

/-- `psp.rs:431-447`, one round of the loop; the cells of a row are written from left to right. -/
def Row.read (n : Nat) (r : Row) (period demand : Nat) : Row :=
  let prev := r.prev ++ [r.last]
  let cell := if 0 < period then r.rem.getD (period - 1) 0 else 0
  let last := if 0 < demand then (period : Int) else r.last
  { last := last
    rem := r.rem ++ [if 0 < demand then cell + 1 else cell]
    prev := if period = n - 1 then prev ++ [last] else prev }

/-- `psp.rs:420-451` -/
def row (n : Nat) (demand : Nat → Nat) : Row :=
  (List.range n).foldl (fun r p => r.read n p (demand p)) ⟨-1, [], []⟩

variable (I : Inst)

/-- `prev_demand[(i, p)]` -/
def prevDemand (i p : Nat) : Int := (row I.periods (I.demand i)).prev.getD p 0

/-- `rem_demand[(i, p)]` -/
def remDemand (i p : Nat) : Int := (row I.periods (I.demand i)).rem.getD p 0

/-! ### The dynamic program -/

/-- `psp.rs:123-130` -/
def initial : State :=
  { time := I.periods, k := -1, u := (List.range I.items).map fun i => prevDemand I i I.periods }

/-- `psp.rs:136-146` -/
def nextVar : List State → Option Nat
  | [] => none
  | s :: _ => if 0 < s.time then some (s.time - 1) else none

/-- `psp.rs:154-160` -/
def remaining (s : State) : Nat :=
  ((List.range I.items).map fun i => if s.at i < 0 then 0 else (remDemand I i (s.at i).toNat).toNat).sum

/-- `psp.rs:148-173` -/
def dom (x : Nat) (s : State) : List Decision :=
  if x + 1 < remaining I s then []
  else
    ((List.range I.items).filter fun i => decide ((x : Int) ≤ s.at i)).map (fun i : Nat => (⟨x, (i : Int)⟩ : Decision)) ++
      (if remaining I s < x + 1 then [(⟨x, -1⟩ : Decision)] else [])

/-- `psp.rs:174-183` -/
def trans (s : State) (d : Decision) : State :=
  if d.value = -1 then { s with time := s.time - 1 }
  else
    { time := s.time - 1
      k := d.value
      u := s.u.set d.value.toNat (prevDemand I d.value.toNat (s.at d.value.toNat).toNat) }

/-- `psp.rs:185-199` -/
def cost (s : State) (d : Decision) : Int :=
  if d.value = -1 then 0
  else
    let item := d.value.toNat
    let changeover := if s.k = -1 then 0 else I.changeover item s.k.toNat
    let stocking := I.stocking item * ((s.at item).toNat - d.var);
    -((changeover + stocking : Nat) : Int)

/-! ### The rough bound -/

/-- `psp.rs:250-260`: the item, the deadline and the cost found by the inner loop. -/
def pick (u : List Int) (t : Nat) : Int × Nat × Nat :=
  (List.range u.length).foldl
    (fun a i => if (t : Int) ≤ u.getD i (-1) ∧ a.2.2 ≤ I.stocking i then ((i : Int), (u.getD i (-1)).toNat, I.stocking i) else a) (-1, 0, 0)

/-- `psp.rs:262`: the subtraction goes below zero, a panic if overflow checks are on.  Otherwise the result is multiplied by a cost of 0. -/
def pickUnderflows (u : List Int) (t : Nat) : Bool := decide ((pick I u t).2.1 < t)

/-- `psp.rs:262-266`: the cost that is stored and the state afterwards. -/
def serve (u : List Int) (t : Nat) : Nat × List Int :=
  let a := pick I u t
  ((a.2.1 - t) * a.2.2, if a.1 = -1 then u else u.set a.1.toNat (prevDemand I a.1.toNat a.2.1))

/-- `psp.rs:249-267`: the first `t` entries of the buffer are overwritten, from the last to the first. -/
def fill : Nat → List Int → List Nat → List Nat
  | 0, _, buf => buf
  | t + 1, u, buf => fill t (serve I u t).2 (buf.set t (serve I u t).1)

/-- `usize::MAX` -/
def usizeMax : Nat := 2 ^ 64 - 1

/-- `psp.rs:269-274` -/
def cumulate : Nat → List Nat → List Nat
  | _, [] => []
  | tot, v :: l => let tot := min (tot + v) usizeMax; tot :: cumulate tot l

/-- `compute_ideal_stocking` (`psp.rs:242-277`) -/
def idealStocking (periods : Nat) (u : List Int) (buf : List Nat) : Nat :=
  (cumulate 0 (fill I periods u buf)).getD (periods - 1) 0

/-- `psp.rs:280-291` -/
def vertices (k : Int) (u : List Int) : Nat :=
  (List.range u.length).foldl (fun vs i => if 0 ≤ u.getD i (-1) then Bits.add vs i else vs) (if k = -1 then 0 else Bits.add 0 k.toNat)

/-- An entry of `heap`: cost and the two ends -/
abbrev Edge := Nat × Nat × Nat

/-- `psp.rs:309-319`: the edges that are pushed. -/
def edges (n vs : Nat) : List Edge :=
  (Bits.iter n vs).flatMap fun i => ((Bits.iter n vs).filter fun j => decide (i ≠ j)).map fun j => (min (I.changeover i j) (I.changeover j i), i, j)

/-- `psp.rs:321-342`: `total` and `edge_max` at the end of the loop. -/
def cover : Nat → List Edge → Nat → Nat → Nat × Nat
  | _, [], total, mx => (total, mx)
  | vs, e :: es, total, mx =>
    if vs = 0 then (total, mx)
    else if Bits.has vs e.2.1 || Bits.has vs e.2.2 then cover (Bits.clear (Bits.clear vs e.2.1) e.2.2) es (total + e.1) (max mx e.1)
    else cover vs es total mx

/-- `sort_unstable_by_key(|x| x.0)`: `shuffle` decides about ties. -/
def sortEdges (shuffle : List Edge → List Edge) (l : List Edge) : List Edge := Dd.sortBy (fun a b => decide (a.1 ≤ b.1)) (shuffle l)

/-- `mst` (`psp.rs:304-345`): the result and `heap` afterwards. -/
def mst (shuffle : List Edge → List Edge) (vs : Nat) (heap : List Edge) : Nat × List Edge :=
  let heap := sortEdges shuffle (heap ++ edges I I.items vs)
  let r := cover vs heap 0 0
  (r.1 - r.2, heap)

/-- `precompute_all_mst` (`psp.rs:293-303`): `heap` is not emptied between the calls. -/
def allMst (shuffle : List Edge → List Edge) : List Nat :=
  ((List.range (2 ^ I.items)).foldl (fun a vs => let r := mst I shuffle vs a.2; (a.1 ++ [r.1], r.2)) (([] : List Nat), ([] : List Edge))).1

/-- `psp.rs:201-237` -/
def estimate (shuffle : List Edge → List Edge) (buf : List Nat) (s : State) : Int :=
  if s.time = 0 then 0
  else ((idealStocking I s.time s.u buf + (allMst I shuffle).getD (vertices s.k s.u) 0 : Nat) : Int)

/-- The `Problem` of the example (`psp.rs:116-238`). -/
def problem (shuffle : List Edge → List Edge) : Problem State :=
  { nbVars := I.periods
    init := initial I
    initVal := 0
    nextVar := nextVar
    dom := dom I
    trans := trans I
    cost := cost I
    estimate := estimate I shuffle (List.replicate I.periods 0) }

/-! ### Relaxation and heuristics -/

/-- `psp.rs:37-46`, one round of the loop -/
def mergeStep (a : Nat × List Int) (s : State) : Nat × List Int :=
  (max a.1 s.time, if a.2 = [] then s.u else List.zipWith min s.u a.2)

/-- `psp.rs:34-52` -/
def merge (l : List State) : State :=
  let r := l.foldl mergeStep (0, [])
  { time := r.1, k := -1, u := r.2 }

/-- The `Relaxation` of the example (`psp.rs:31-64`). -/
def relaxation : Relaxation State :=
  { merge := merge, relax := fun _ _ _ _ c => c }

/-- The order of `Vec<i32>`: lexicographic. -/
def cmpList : List Int → List Int → Ordering
  | [], [] => .eq
  | [], _ :: _ => .lt
  | _ :: _, [] => .gt
  | a :: l, b :: m => (compare a b).then (cmpList l m)

/-- `PspRanking` (`psp.rs:66-76`) -/
def rank (a b : State) : Ordering := ((compare a.time b.time).then (compare a.k b.k)).then (cmpList a.u b.u)

/-- `PspWidth` (`psp.rs:82-95`); release builds drop the digits of the product that do not fit into a `usize`. -/
def width (nbVars factor : Nat) (_ : State) : Nat := nbVars * factor % 2 ^ 64

end Verif.Psp
