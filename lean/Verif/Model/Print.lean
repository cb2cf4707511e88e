import Verif.Model.Names
import Verif.Model.Report
/-!
The table that `src/xputils.rs` prints: the header (`resolution_header`) and the line of a run (end of `solve_timeout`).

`{:>n}` pads strings and numbers.  It has no effect on a type whose `Display` calls `write!` on the formatter, such as `SolverType` and `ResolutionStatus`: the text written by
`write!` has its own format, without a width.  The time and the memory are inputs; a single precision number is given as a fraction.
-/
set_option autoImplicit false

namespace Verif.Print

/-- `{:>n}` for strings and numbers: alignment to the right, nothing is cut off -/
def padLeft (n : Nat) (l : List Char) : List Char := List.replicate (n - l.length) ' ' ++ l

/-- `Display` of `usize` -/
def showNat (n : Nat) : List Char :=
  if h : n < 10 then [Char.ofNat (48 + n)] else showNat (n / 10) ++ [Char.ofNat (48 + n % 10)]
termination_by n
decreasing_by omega

/-- `Display` of `isize` -/
def showInt (z : Int) : List Char := if z < 0 then '-' :: showNat z.natAbs else showNat z.natAbs

/-- `{:.k}` of the number `x / y ≥ 0`, for `k > 0`: rounded to `k` digits, ties to even -/
def showFixed (k x y : Nat) : List Char :=
  let q := F32.roundDiv (x * 10 ^ k) y
  let f := showNat (q % 10 ^ k)
  showNat (q / 10 ^ k) ++ '.' :: (List.replicate (k - f.length) '0' ++ f)

/-- `{:.4}` of the gap, which is given as in `gap` (`F32.ratio`) -/
def showGap (g : Nat × Int) : List Char :=
  if g.1 = 3 then ['N', 'a', 'N']
  else if g.1 = 2 then ['i', 'n', 'f']
  else if g.1 = 0 then ['-', 'i', 'n', 'f']
  else if g.2 = 0 then showFixed 4 0 1
  else if g.2 < 0 then '-' :: showFixed 4 (F32.scaled g.2.natAbs) (2 ^ 128)
  else showFixed 4 (F32.scaled g.2.natAbs) (2 ^ 128)

/-- `src/prelude.rs:83-90`; `true`: `Proved` -/
def showStatus (proved : Bool) : List Char := (if proved then "Proved" else "Timeout").toList

/-- `src/xputils.rs:98-101` -/
def showBest : Option Int → List Char
  | some v => showInt v
  | none => "not found".toList

/-- `" | "` between the columns -/
def joinCells : List (List Char) → List Char
  | [] => []
  | [c] => c
  | c :: cs => c ++ ' ' :: '|' :: ' ' :: joinCells cs

/-- `src/xputils.rs:180-185` -/
def header : List Char :=
  joinCells [padLeft 30 "NAME".toList, padLeft 10 "SOLVER".toList, padLeft 15 "STATUS".toList, padLeft 8 "DURATION".toList, padLeft 8 "RAM_(MB)".toList, padLeft 15 "BEST-VAL".toList,
    padLeft 15 "LB".toList, padLeft 15 "UB".toList, padLeft 5 ("GAP".toList.take 4), padLeft 15 "NODES B&B".toList, padLeft 15 "NODES DD".toList]

/-- `src/xputils.rs:107-121`, `src/xputils.rs:149-163` -/
def line (name : List Char) (solver : SolverType) (time ram : Nat × Nat) (r : Report) : List Char :=
  joinCells [padLeft 30 name, solver.fmt.toList, showStatus r.proved, padLeft 8 (showFixed 2 time.1 time.2), padLeft 8 (showFixed 2 ram.1 ram.2), padLeft 15 (showBest r.best),
    padLeft 15 (showInt r.lb), padLeft 15 (showInt r.ub), padLeft 5 (showGap r.gap), padLeft 15 (showNat r.explored), padLeft 15 (showNat r.exploredDd)]

end Verif.Print
