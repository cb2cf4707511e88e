import Verif.Model.Bits
import Verif.Model.F32
import Verif.Model.Mdd
/-!
Model of the example `examples/srflp` (single row facility layout): `instance.rs` (the flow matrix), `state.rs`, `model.rs`, `relax.rs`, `heuristics.rs`.

Simplifications: the flow matrix and the vector of lengths are functions (their cells are independent, C04); bit sets are numbers (`Model/Bits.lean`); the vector `cut` is a list;
`isize` is unbounded (except `isize::MAX`, the start of a minimum).  Reads outside a vector, where the code panics, give 0 here: `Props.srflp_in_range` shows that there are none.
The subtractions of `usize` are those of natural numbers: `Props.srflp_underflow_iff` shows where this hides a wrap-around.

The quotients `cut as f32 / length as f32` are modelled bit by bit (`Model/F32.lean`).
-/
set_option autoImplicit false

namespace Verif.Srflp
open F32

/-- `instance.rs:30-37` -/
structure Inst where
  n : Nat
  len : Nat → Int
  flow : Nat → Nat → Int

/-- `state.rs:28-37` -/
structure State where
  must : Nat
  maybe : Option Nat
  cut : List Int
  depth : Nat
deriving DecidableEq, Repr

instance : Inhabited State := ⟨⟨0, none, [], 0⟩⟩

/-- `state.cut[i]` -/
def State.at (s : State) (i : Nat) : Int := s.cut.getD i 0

/-! ### Reading the flow matrix -/

/-- `flows[(i, j)] = v` -/
def store (f : Nat → Nat → Int) (i j : Nat) (v : Int) : Nat → Nat → Int :=
  fun a b => if a = i ∧ b = j then v else f a b

/-- `instance.rs:92-95` -/
def symStep (f : Nat → Nat → Int) (p : Nat × Nat) : Nat → Nat → Int :=
  if f p.1 p.2 ≠ f p.2 p.1 then
    let f := store f p.1 p.2 (f p.1 p.2 + f p.2 p.1)
    store f p.2 p.1 (f p.1 p.2)
  else f

/-- The pairs `i < j < n`, in the order of two nested loops (`instance.rs:90-91`, `model.rs:45-46`) -/
def pairs (n : Nat) : List (Nat × Nat) :=
  (List.range n).flatMap fun i => (List.range' (i + 1) (n - (i + 1))).map fun j => (i, j)

/-- `instance.rs:89-97` -/
def symmetrise (n : Nat) (f : Nat → Nat → Int) : Nat → Nat → Int := (pairs n).foldl symStep f

/-! ### The dynamic program -/

variable (I : Inst)

/-- `model.rs:52-57` -/
def initial : State :=
  { must := Bits.full I.n, maybe := none, cut := List.replicate I.n 0, depth := 0 }

/-- `sort_unstable()` on numbers: equal numbers cannot be told apart, so any sort will do. -/
def sortAsc (l : List Int) : List Int := Dd.sortBy (fun a b => decide (a ≤ b)) l

/-- `model.rs:42-43` -/
def sortedLengths : List (Int × Nat) :=
  Dd.sortBy (fun a b => decide (a.1 < b.1 ∨ (a.1 = b.1 ∧ a.2 ≤ b.2))) ((List.range I.n).map fun i => (I.len i, i))

/-- `model.rs:44-50` -/
def sortedFlows : List (Int × Nat × Nat) :=
  Dd.sortBy (fun a b => decide (a.1 < b.1 ∨ (a.1 = b.1 ∧ (a.2.1 < b.2.1 ∨ (a.2.1 = b.2.1 ∧ a.2.2 ≤ b.2.2)))))
    ((pairs I.n).map fun p => (I.flow p.1 p.2, p.1, p.2))

/-- The members of `state.maybe_place`, if any -/
def maybes (s : State) : List Nat :=
  match s.maybe with
  | some m => Bits.iter I.n m
  | none => []

/-- `model.rs:77-95` -/
def dom (x : Nat) (s : State) : List Decision :=
  (Bits.iter I.n s.must).map (fun i : Nat => (⟨x, (i : Int)⟩ : Decision)) ++
    if 0 < I.n - s.depth - Bits.count I.n s.must then (maybes I s).map fun i : Nat => (⟨x, (i : Int)⟩ : Decision) else []

/-- `model.rs:112-120`: one of the loops that add the flows from `d` -/
def addFlows (d : Nat) (l : List Nat) (cut : List Int) : List Int :=
  l.foldl (fun cut i => cut.set i (cut.getD i 0 + I.flow d i)) cut

/-- `model.rs:97-128` -/
def trans (s : State) (d : Decision) : State :=
  let d := d.value.toNat
  let must := Bits.clear s.must d
  let maybe := s.maybe.map fun m => Bits.clear m d
  let cut := s.cut.set d 0
  let cut := addFlows I d (Bits.iter I.n must) cut
  let cut := match maybe with
    | some m => addFlows I d (Bits.iter I.n m) cut
    | none => cut
  { must := must, maybe := maybe, cut := cut, depth := s.depth + 1 }

/-- `model.rs:130-159` -/
def cost (s : State) (d : Decision) : Int :=
  let d := d.value.toNat
  let musts := (Bits.iter I.n s.must).filter fun i => decide (i ≠ d)
  let cut := (musts.map s.at).sum
  let complete := I.n - (s.depth + 1) - musts.length
  let cut :=
    if 0 < complete then
      match s.maybe with
      | some m => cut + ((sortAsc (((Bits.iter I.n m).filter fun i => decide (i ≠ d)).map s.at)).take complete).sum
      | none => cut
    else cut;
  -cut * I.len d

/-- `model.rs:161-174` -/
def nextVar : List State → Option Nat
  | [] => none
  | s :: _ => if s.depth = I.n then none else some s.depth

/-! ### The rough bound -/

/-- One turn of the loop over the sorted lengths (`model.rs:189-197`): how many departments may still be taken from `maybe_place`, `lengths`, `maybe_lengths` -/
def lengthStep (s : State) (a : Nat × List Int × List Int) (p : Int × Nat) : Nat × List Int × List Int :=
  if Bits.has s.must p.2 then (a.1, a.2.1 ++ [p.1], a.2.2)
  else match s.maybe with
    | some m => if Bits.has m p.2 && decide (0 < a.1) then (a.1 - 1, a.2.1 ++ [p.1], a.2.2 ++ [p.1]) else a
    | none => a

/-- The loop over the sorted lengths (`model.rs:188-201`) -/
def lengthLoop (s : State) (ca : Nat) : List (Int × Nat) → Nat × List Int × List Int → Nat × List Int × List Int
  | [], a => a
  | p :: ps, a => if (lengthStep s a p).2.1.length = ca then lengthStep s a p else lengthLoop s ca ps (lengthStep s a p)

/-- One turn of the loop over the sorted flows (`model.rs:206-219`): the two numbers of flows that may still be taken, `flows` -/
def flowStep (s : State) (a : Nat × Nat × List Int) (p : Int × Nat × Nat) : Nat × Nat × List Int :=
  if Bits.has s.must p.2.1 && Bits.has s.must p.2.2 then (a.1, a.2.1, a.2.2 ++ [p.1])
  else match s.maybe with
    | some m =>
      if Bits.has s.must p.2.1 && Bits.has m p.2.2 && decide (0 < a.1) then (a.1 - 1, a.2.1, a.2.2 ++ [p.1])
      else if Bits.has m p.2.1 && Bits.has s.must p.2.2 && decide (0 < a.1) then (a.1 - 1, a.2.1, a.2.2 ++ [p.1])
      else if Bits.has m p.2.1 && Bits.has m p.2.2 && decide (0 < a.2.1) then (a.1, a.2.1 - 1, a.2.2 ++ [p.1])
      else a
    | none => a

/-- The loop over the sorted flows (`model.rs:205-224`) -/
def flowLoop (s : State) (nFlows : Nat) : List (Int × Nat × Nat) → Nat × Nat × List Int → Nat × Nat × List Int
  | [], a => a
  | p :: ps, a => if (flowStep s a p).2.2.length = nFlows then flowStep s a p else flowLoop s nFlows ps (flowStep s a p)

/-- `model.rs:177` -/
def completeArrangement (s : State) : Nat := I.n - s.depth

/-- `model.rs:178` -/
def nFlows (s : State) : Nat := completeArrangement I s * (completeArrangement I s - 1) / 2

/-- `model.rs:179-180` -/
def nFromMaybe (s : State) : Nat := completeArrangement I s - Bits.count I.n s.must

/-- Whether `complete_arrangement - 1` or `n_from_maybe_place - 1` goes below zero (`model.rs:178`, `model.rs:204`) -/
def estimateUnderflows (s : State) : Bool := decide (completeArrangement I s < 1) || decide (nFromMaybe I s < 1)

/-- `lengths` and `maybe_lengths` (`model.rs:184-201`) -/
def lengths (s : State) : List Int × List Int :=
  (lengthLoop s (completeArrangement I s) (sortedLengths I) (nFromMaybe I s, [], [])).2

/-- `flows` (`model.rs:183`, `model.rs:203-224`) -/
def flows (s : State) : List Int :=
  (flowLoop s (nFlows I s) (sortedFlows I) (Bits.count I.n s.must * nFromMaybe I s, nFromMaybe I s * (nFromMaybe I s - 1) / 2, [])).2.2

/-- `ratios` before it is sorted, without the ratios (`model.rs:226-244`): lengths and cuts -/
def items (s : State) : List (Int × Int) :=
  (Bits.iter I.n s.must).map (fun i => (I.len i, s.at i)) ++
    match s.maybe with
    | some m =>
      let cuts := sortAsc ((Bits.iter I.n m).map s.at)
      (List.range (nFromMaybe I s)).map fun i => ((lengths I s).2.getD i 0, cuts.getD (nFromMaybe I s - 1 - i) 0)
    | none => []

/-- The order of `sort_unstable_by_key(|r| Reverse(*r))` on `(ratio, length, cut)` (`model.rs:246`) -/
def ratioGe (a b : Int × Int) : Bool :=
  let x := ratio a.2 a.1
  let y := ratio b.2 b.1
  decide (y.1 < x.1 ∨ (y.1 = x.1 ∧ (y.2 < x.2 ∨ (y.2 = x.2 ∧ (b.1 < a.1 ∨ (b.1 = a.1 ∧ b.2 ≤ a.2))))))

/-- `model.rs:248-253`: `cut_bound`, `cumul_length` -/
def cutLoop (l : List (Int × Int)) : Int × Int :=
  l.foldl (fun a p => (a.1 + a.2 * p.2, a.2 + p.1)) (0, 0)

/-- One turn of the outer loop (`model.rs:259-264`): `edge_bound`, `idx`, `cumul_length` -/
def edgeStep (ca nf : Nat) (ls fs : List Int) (a : Int × Nat × Int) (i : Nat) : Int × Nat × Int :=
  let b := (List.range (ca - (i + 1))).foldl (fun (b : Int × Nat) _ => (b.1 + a.2.2 * fs.getD (nf - 1 - b.2) 0, b.2 + 1)) (a.1, a.2.1)
  (b.1, b.2, a.2.2 + ls.getD i 0)

/-- `model.rs:255-265` -/
def edgeBound (ca nf : Nat) (ls fs : List Int) : Int :=
  ((List.range (ca - 1)).foldl (edgeStep ca nf ls fs) (0, 0, 0)).1

/-- `model.rs:176-268` -/
def estimate (s : State) : Int :=
  -((cutLoop (Dd.sortBy ratioGe (items I s))).1 + edgeBound (completeArrangement I s) (nFlows I s) (lengths I s).1 (flows I s))

/-- The `Problem` of the example (`model.rs:62-269`). -/
def problem : Problem State :=
  { nbVars := I.n
    init := initial I
    initVal := 0
    nextVar := nextVar I
    dom := dom I
    trans := trans I
    cost := cost I
    estimate := estimate I }

/-! ### Merging -/

/-- `relax.rs:40-46` -/
structure Helper where
  depth : Nat
  allMust : Nat
  allAgree : Nat
  allMaybe : Nat
  cut : List Int

/-- `relax.rs:48-56` -/
def Helper.new (n : Nat) : Helper :=
  { depth := 0, allMust := 0, allAgree := Bits.full n, allMaybe := 0, cut := List.replicate n isizeMax }

/-- One of the two loops of `relax.rs:69-79` -/
def trackCut (s : State) (l : List Nat) (cut : List Int) : List Int :=
  l.foldl (fun cut i => cut.set i (min (cut.getD i 0) (s.at i))) cut

/-- `relax.rs:57-79`, `relax.rs:110-115` -/
def Helper.track (h : Helper) (s : State) : Helper :=
  { depth := max h.depth s.depth
    allMust := h.allMust ||| s.must
    allAgree := h.allAgree &&& s.must
    allMaybe := match s.maybe with
      | some m => h.allMaybe ||| m
      | none => h.allMaybe
    cut :=
      let cut := trackCut s (Bits.iter h.cut.length s.must) h.cut
      match s.maybe with
      | some m => trackCut s (Bits.iter h.cut.length m) cut
      | none => cut }

/-- `relax.rs:81-102`, `relax.rs:117-122` -/
def Helper.get (n : Nat) (h : Helper) : State :=
  let maybe := (h.allMaybe ||| h.allMust) ^^^ h.allAgree
  { depth := h.depth
    must := h.allAgree
    maybe := if 0 < Bits.count n maybe then some maybe else none
    cut := h.cut }

/-- `relax.rs:107-123` -/
def merge (l : List State) : State := (l.foldl Helper.track (Helper.new I.n)).get I.n

/-- The `Relaxation` of the example (`relax.rs:104-136`). -/
def relaxation : Relaxation State :=
  { merge := merge I, relax := fun _ _ _ _ c => c }

/-- `SrflpRanking` (`heuristics.rs:8-14`) -/
def rank (a b : State) : Ordering := compare a.depth b.depth

/-- `SrflpWidth` (`heuristics.rs:16-29`); release builds drop the digits of the product that do not fit into a `usize`. -/
def width (nbVars factor : Nat) (_ : State) : Nat := nbVars * factor % 2 ^ 64

end Verif.Srflp
