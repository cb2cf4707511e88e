import Verif.Model.Text
import Verif.Model.F32
import Verif.Model.Tsptw
import Verif.Model.Srflp
import Verif.Model.Psp
/-!
How the three examples read their instance files: `examples/srflp/instance.rs`, `examples/tsptw/instance.rs`, `examples/psp/psp.rs`.

A file is the list of its lines.  `none` is a panic or an error, so that there is no instance.  The checks of array indices are those of a debug build; note that the matrix of `srflp` and `tsptw`
(`src/utils.rs:199-201`) has no check of the column.  Left out: failures of the input itself, and files so large that the matrices do not fit in the memory.  An instance is made of functions: a length or
a time window that is missing in the file is 0 here, whereas the programs `srflp` and `tsptw` panic when they want to use it.
-/
set_option autoImplicit false

namespace Verif.Read
open Text F32

/-- Reads every word; one that cannot be read is an error. -/
def parseAll {α : Type} (f : List Char → Option α) : List (List Char) → Option (List α)
  | [] => some []
  | w :: ws => match f w, parseAll f ws with
    | some a, some as => some (a :: as)
    | _, _ => none

/-- `for (j, v) in … .enumerate() { m[(i, j)] = v }` -/
def setRow {α : Type} [Inhabited α] (m : Nat → Nat → α) (i : Nat) (vs : List α) : Nat → Nat → α :=
  fun a b => if a = i ∧ b < vs.length then vs.getD b default else m a b

/-- The same for a square matrix of size `n` whose index is not checked (`src/utils.rs:199-201`, `src/utils.rs:215-218`): the words that are too many go into the next rows; `none` if they go beyond the last one. -/
def setCells {α : Type} [Inhabited α] (n : Nat) (m : Nat → Nat → α) (i : Nat) (vs : List α) : Option (Nat → Nat → α) :=
  if n * i + vs.length ≤ n * n then
    some fun a b => if b < n ∧ n * i ≤ n * a + b ∧ n * a + b < n * i + vs.length then vs.getD (n * a + b - n * i) default else m a b
  else none

/-! ### `srflp/instance.rs` -/

/-- `&[' ',',','\t']` -/
def comma (c : Char) : Bool := c == ' ' || c == ',' || c == '\t'

/-- `instance.rs:51-54` -/
structure Srflp where
  lc : Nat
  n : Nat
  lengths : List Int
  flows : Nat → Nat → Int

/-- `instance.rs:56-87`, one round of the loop -/
def Srflp.step (s : Srflp) (line : List Char) : Option Srflp :=
  if (trim line).isEmpty then some s
  else if s.lc = 0 then
    match words comma (trim line) with
    | [] => none
    | w :: _ => (parseNat usizeMax w).map fun n => { s with lc := s.lc + 1, n := n, flows := fun _ _ => 0 }
  else if s.lc = 1 then
    (parseAll parseInt (words comma (trim line))).map fun vs => { s with lc := s.lc + 1, lengths := s.lengths ++ vs }
  else if 2 ≤ s.lc ∧ s.lc ≤ s.n + 1 then
    (parseAll parseInt (words comma (trim line))).bind fun vs =>
      (setCells s.n s.flows (s.lc - 2) vs).map fun flows => { s with lc := s.lc + 1, flows := flows }
  else some { s with lc := s.lc + 1 }

/-- The loop over the lines -/
def Srflp.loop : Srflp → List (List Char) → Option Srflp
  | s, [] => some s
  | s, line :: lines => (s.step line).bind fun s => s.loop lines

/-- `instance.rs:50-100` -/
def srflp (lines : List (List Char)) : Option Verif.Srflp.Inst :=
  (Srflp.loop ⟨0, 0, [], fun _ _ => 0⟩ lines).map fun s =>
    { n := s.n, len := fun i => s.lengths.getD i 0, flow := Verif.Srflp.symmetrise s.n s.flows }

/-! ### `tsptw/instance.rs` -/

/-- `(x * 10000.0) as usize` where `x` is `n / 10 ^ k` in single precision (`instance.rs:88-89`) -/
def tenThousandths (n k : Nat) : Nat :=
  if n = 0 then 0 else min usizeMax (scaled (f32Div (scaled (f32Div n (10 ^ k)) * 10000) (2 ^ 128)) / 2 ^ 128)

/-- `(x * 10000.0) as usize` (`instance.rs:88-89`, `instance.rs:96-100`): negative numbers and NaN are converted to 0, infinity to `usize::MAX`. -/
def toUsize : Bool × Number → Nat
  | (false, .inf) => usizeMax
  | (false, .dec n z) => tenThousandths (n * 10 ^ z.toNat) (-z).toNat
  | _ => 0

/-- `instance.rs:88-89`, `instance.rs:96-100` -/
def number (w : List Char) : Option Nat := (parseFloat w).map toUsize

/-- `instance.rs:65-68` -/
structure Tsptw where
  lc : Nat
  n : Nat
  dist : Nat → Nat → Nat
  windows : List (Nat × Nat)

/-- `u16::MAX` -/
def u16Max : Nat := 2 ^ 16 - 1

/-- `instance.rs:79-104` -/
def Tsptw.content (s : Tsptw) (line : List Char) : Option Tsptw :=
  if s.lc = 0 then
    match words isWs line with
    | [] => none
    | w :: _ => (parseNat u16Max w).map fun n => { s with n := n, dist := fun _ _ => 0 }
  else if 1 ≤ s.lc ∧ s.lc ≤ s.n then
    (parseAll number (words isWs line)).bind fun vs =>
      (setCells s.n s.dist (s.lc - 1) vs).map fun dist => { s with dist := dist }
  else match words isWs line with
    | a :: b :: _ => match number a, number b with
      | some e, some l => some { s with windows := s.windows ++ [(e, l)] }
      | _, _ => none
    | _ => none

/-- `instance.rs:70-107`, one round of the loop; the line counter is a `u16`. -/
def Tsptw.step (s : Tsptw) (line : List Char) : Option Tsptw :=
  if (trim line).head? = some '#' || (trim line).isEmpty then some s
  else (s.content (trim line)).bind fun s => if s.lc + 1 ≤ u16Max then some { s with lc := s.lc + 1 } else none

/-- The loop over the lines -/
def Tsptw.loop : Tsptw → List (List Char) → Option Tsptw
  | s, [] => some s
  | s, line :: lines => (s.step line).bind fun s => s.loop lines

/-- `instance.rs:64-110` -/
def tsptw (lines : List (List Char)) : Option Verif.Tsptw.Inst :=
  (Tsptw.loop ⟨0, 0, fun _ _ => 0, []⟩ lines).map fun s =>
    { n := s.n, dist := s.dist, earliest := fun i => (s.windows.getD i (0, 0)).1, latest := fun i => (s.windows.getD i (0, 0)).2 }

/-! ### `psp.rs` -/

/-- `psp.rs:99-113`, without the table `mst` and the buffers -/
structure Psp where
  optimum : Option Nat
  periods : Nat
  items : Nat
  orders : Nat
  changeover : Nat → Nat → Nat
  stocking : List Nat
  prev : Nat → Nat → Int
  rem : Nat → Nat → Int

/-- The lines that a loop `for line in &mut lines { … break }` passes, trimmed, and the lines after the blank line on which it stops (`psp.rs:389-394`, `psp.rs:419-425`) -/
def section_ : List (List Char) → List (List Char) × List (List Char)
  | [] => ([], [])
  | line :: lines => if (trim line).isEmpty then ([], lines) else (trim line :: (section_ lines).1, (section_ lines).2)

/-- `psp.rs:388-402` -/
def changeoverRows (items : Nat) : Nat → (Nat → Nat → Nat) → List (List Char) → Option (Nat → Nat → Nat)
  | _, m, [] => some m
  | i, m, line :: lines => (parseAll (parseNat usizeMax) (words isWs line)).bind fun vs =>
    if i < items ∧ vs.length ≤ items then changeoverRows items (i + 1) (setRow m i vs) lines else none

/-- `m[(i, j)] = v` -/
def store (m : Nat → Nat → Int) (i j : Nat) (v : Int) : Nat → Nat → Int := fun a b => if a = i ∧ b = j then v else m a b

/-- `last_period` and the two matrices (`psp.rs:416-417`, `psp.rs:430`) -/
structure Tables where
  last : Int
  prev : Nat → Nat → Int
  rem : Nat → Nat → Int

/-- `psp.rs:432`, `psp.rs:445`: the first matrix has `nb_periods + 1` columns. -/
def Tables.setPrev (items periods i p : Nat) (t : Tables) : Option Tables :=
  if i < items ∧ p < periods + 1 then some { t with prev := store t.prev i p t.last } else none

/-- `rem_demand[(i, p)] = v`: the second matrix has `nb_periods` columns. -/
def Tables.setRem (items periods i p : Nat) (v : Int) (t : Tables) : Option Tables :=
  if i < items ∧ p < periods then some { t with rem := store t.rem i p v } else none

/-- `psp.rs:432-446`, one round of the loop over the words of a line -/
def Tables.word (items periods i : Nat) (t : Tables) (p : Nat) (w : List Char) : Option Tables :=
  (t.setPrev items periods i p).bind fun t =>
  (if 0 < p then t.setRem items periods i p (t.rem i (p - 1)) else some t).bind fun t =>
  (parseNat usizeMax w).bind fun demand =>
  (if 0 < demand then { t with last := p }.setRem items periods i p (t.rem i p + 1) else some t).bind fun t =>
  if periods = 0 then none
  else if p = periods - 1 then t.setPrev items periods i (1 + p) else some t

/-- The loop over the words of a line -/
def Tables.words (items periods i : Nat) : Tables → Nat → List (List Char) → Option Tables
  | t, _, [] => some t
  | t, p, w :: ws => (t.word items periods i p w).bind fun t => t.words items periods i (p + 1) ws

/-- `psp.rs:418-450` -/
def demandRows (items periods : Nat) : Nat → Tables → List (List Char) → Option Tables
  | _, t, [] => some t
  | i, t, line :: lines => (Tables.words items periods i { t with last := -1 } 0 (Text.words isWs line)).bind fun t => demandRows items periods (i + 1) t lines

/-- `psp.rs:404-412`: the first words of the line replace zeros. -/
def stockingCosts (items : Nat) (line : List Char) : Option (List Nat) :=
  (parseAll (parseNat usizeMax) ((words isWs line).take items)).map fun vs => vs ++ List.replicate (items - vs.length) 0

/-- `psp.rs:452-459` -/
def knownOptimum (lines : List (List Char)) : Option (Option Nat) :=
  match lines.drop 1 with
  | [] => some none
  | line :: _ => (parseNat usizeMax (trim line)).map some

/-- `psp.rs:371-478` -/
def psp : List (List Char) → Option Psp
  | l1 :: l2 :: l3 :: lines =>
    (parseNat usizeMax l1).bind fun periods =>
    (parseNat usizeMax l2).bind fun items =>
    (parseNat usizeMax l3).bind fun orders =>
    let (rows, lines) := section_ (lines.drop 1)
    (changeoverRows items 0 (fun _ _ => 0) rows).bind fun changeover =>
    match lines with
    | [] => none
    | line :: lines =>
      (stockingCosts items line).bind fun stocking =>
      let (rows, lines) := section_ (lines.drop 1)
      (demandRows items periods 0 ⟨-1, fun _ _ => 0, fun _ _ => 0⟩ rows).bind fun t =>
      (knownOptimum lines).map fun optimum =>
        { optimum := optimum, periods := periods, items := items, orders := orders, changeover := changeover, stocking := stocking, prev := t.prev, rem := t.rem }
  | _ => none

end Verif.Read
