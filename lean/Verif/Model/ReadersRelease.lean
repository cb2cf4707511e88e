import Verif.Model.Readers
/-!
The reader of the example `psp` (`examples/psp/psp.rs:371-478`) in a release build.

The checks of `Matrix::pos` (`examples/psp/utils.rs:70-79`) are `debug_assert!`s, so in a release build a cell is a position in the vector `data`, and only this position is checked.  The sizes of the
three vectors are taken to be below `2^64`.
-/
set_option autoImplicit false

namespace Verif.Read
open Text

/-- `self.data[position] = v` (`examples/psp/utils.rs:91-97`) for a vector of length `size`; `none` is a panic. -/
def put (size : Nat) (m : Nat → Int) (q : Nat) (v : Int) : Option (Nat → Int) :=
  if q < size then some fun x => if x = q then v else m x else none

/-- `last_period` and the vectors of the two matrices (`psp.rs:416-417`, `psp.rs:430`) -/
structure Flat where
  last : Int
  prev : Nat → Int
  rem : Nat → Int

/-- `psp.rs:432-446`, one round of the loop over the words of a line; `nb_periods - 1` wraps around if there is no period, and then no `period` is equal to it. -/
def Flat.word (items periods i : Nat) (t : Flat) (p : Nat) (w : List Char) : Option Flat :=
  (put (items * (periods + 1)) t.prev ((periods + 1) * i + p) t.last).bind fun prev =>
  (if 0 < p then put (items * periods) t.rem (periods * i + p) (t.rem (periods * i + (p - 1))) else some t.rem).bind fun rem =>
  (parseNat usizeMax w).bind fun demand =>
  (if 0 < demand then put (items * periods) rem (periods * i + p) (rem (periods * i + p) + 1) else some rem).bind fun rem =>
  if p + 1 = periods then
    (put (items * (periods + 1)) prev ((periods + 1) * i + (1 + p)) (if 0 < demand then p else t.last)).map fun prev => ⟨if 0 < demand then p else t.last, prev, rem⟩
  else some ⟨if 0 < demand then p else t.last, prev, rem⟩

/-- The loop over the words of a line -/
def Flat.words (items periods i : Nat) : Flat → Nat → List (List Char) → Option Flat
  | t, _, [] => some t
  | t, p, w :: ws => (t.word items periods i p w).bind fun t => t.words items periods i (p + 1) ws

/-- `psp.rs:418-450` -/
def flatRows (items periods : Nat) : Nat → Flat → List (List Char) → Option Flat
  | _, t, [] => some t
  | i, t, line :: lines => (Flat.words items periods i { t with last := -1 } 0 (Text.words isWs line)).bind fun t => flatRows items periods (i + 1) t lines

/-- `psp.rs:388-402` -/
def changeoverCells (items : Nat) : Nat → (Nat → Nat → Nat) → List (List Char) → Option (Nat → Nat → Nat)
  | _, m, [] => some m
  | i, m, line :: lines => (parseAll (parseNat usizeMax) (words isWs line)).bind fun vs => (setCells items m i vs).bind fun m => changeoverCells items (i + 1) m lines

/-- `psp.rs:371-478`, in a release build -/
def pspRelease : List (List Char) → Option Psp
  | l1 :: l2 :: l3 :: lines =>
    (parseNat usizeMax l1).bind fun periods =>
    (parseNat usizeMax l2).bind fun items =>
    (parseNat usizeMax l3).bind fun orders =>
    let (rows, lines) := section_ (lines.drop 1)
    (changeoverCells items 0 (fun _ _ => 0) rows).bind fun changeover =>
    match lines with
    | [] => none
    | line :: lines =>
      (stockingCosts items line).bind fun stocking =>
      let (rows, lines) := section_ (lines.drop 1)
      (flatRows items periods 0 ⟨-1, fun _ => 0, fun _ => 0⟩ rows).bind fun t =>
      (knownOptimum lines).map fun optimum =>
        { optimum := optimum, periods := periods, items := items, orders := orders, changeover := changeover, stocking := stocking,
          prev := fun i p => t.prev ((periods + 1) * i + p), rem := fun i p => t.rem (periods * i + p) }
  | _ => none

end Verif.Read
