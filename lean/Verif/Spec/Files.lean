import Verif.Spec.Text
import Mathlib.Data.List.Forall2
/-! What the instance files of the three examples contain, independently of how they are read. -/
set_option autoImplicit false

namespace Verif.Files
open Text

/-- The rows of words of a file: blank lines do not count, nor do lines that begin with `mark`. -/
inductive Rows (sep : Char → Bool) (mark : Option Char) : List (List Char) → List (List (List Char)) → Prop
  | nil : Rows sep mark [] []
  | blank {l : List Char} {ls : List (List Char)} {rs : List (List (List Char))} (hl : Blank l) (h : Rows sep mark ls rs) : Rows sep mark (l :: ls) rs
  | comment {a m : List Char} {c : Char} {ls : List (List Char)} {rs : List (List (List Char))} (hc : mark = some c) (ha : Blank a) (h : Rows sep mark ls rs) :
      Rows sep mark ((a ++ c :: m) :: ls) rs
  | row {l t : List Char} {ts : List (List Char)} {ls : List (List Char)} {rs : List (List (List Char))} (hl : Line sep l (t :: ts))
      (hc : ∀ c, mark = some c → t.head? ≠ some c) (h : Rows sep mark ls rs) : Rows sep mark (l :: ls) ((t :: ts) :: rs)

/-- The entry of a matrix given by its rows -/
def entry {α : Type} [Inhabited α] (rows : List (List α)) (i j : Nat) : α := (rows.getD i []).getD j default

/-- Every number fits into an `isize`. -/
def Fits (z : Int) : Prop := -2 ^ 63 ≤ z ∧ z < 2 ^ 63

/-- A file of the example `srflp`: the number of departments, their lengths, the matrix of flows.  Words are separated by spaces, commas or tabulators. -/
structure SrflpFile (lines : List (List Char)) (lens : List Int) (flows : List (List Int)) : Prop where
  rows : ∃ w ws tl tf extra, Rows (fun c => c == ' ' || c == ',' || c == '\t') none lines ((w :: ws) :: tl :: (tf ++ extra)) ∧ Unsigned w lens.length ∧ List.Forall₂ Signed tl lens ∧
    List.Forall₂ (List.Forall₂ Signed) tf flows
  square : flows.length = lens.length ∧ ∀ r ∈ flows, r.length = lens.length
  fits : (∀ z ∈ lens, Fits z) ∧ (∀ r ∈ flows, ∀ z ∈ r, Fits z) ∧ lens.length < 2 ^ 64

/-- A decimal fraction `n / 10 ^ k`, written with `k` digits after the point -/
def IsDecimal (w : List Char) (x : Nat × Nat) : Prop := Decimal w x.1 x.2

/-- A file of the example `tsptw`: the number of nodes, the matrix of distances, the time windows.  Lines that begin with `#` are comments. -/
structure TsptwFile (lines : List (List Char)) (dist : List (List (Nat × Nat))) (windows : List ((Nat × Nat) × (Nat × Nat))) : Prop where
  rows : ∃ w ws td tw, Rows isWs (some '#') lines ((w :: ws) :: (td ++ tw)) ∧ Unsigned w dist.length ∧ List.Forall₂ (List.Forall₂ IsDecimal) td dist ∧
    List.Forall₂ (fun ts x => ∃ a b rest, ts = a :: b :: rest ∧ IsDecimal a x.1 ∧ IsDecimal b x.2) tw windows
  square : ∀ r ∈ dist, r.length = dist.length
  count : windows.length = dist.length
  small : 2 * dist.length + 1 < 2 ^ 16

/-- Rows of natural numbers, one per line -/
inductive Block : List (List Char) → List (List Nat) → Prop
  | nil : Block [] []
  | cons {l t : List Char} {ts : List (List Char)} {ns : List Nat} {ls : List (List Char)} {rs : List (List Nat)} (hl : Line isWs l (t :: ts)) (hn : List.Forall₂ Unsigned (t :: ts) ns)
      (hr : ∀ n ∈ ns, n < 2 ^ 64) (h : Block ls rs) : Block (l :: ls) (ns :: rs)

/-- The end of a file of the example `psp`: nothing, or two lines of which the first is blank, and then the cost of a best plan, if it is known -/
inductive Ending : List (List Char) → Option Nat → Prop
  | none : Ending [] none
  | blank {b : List Char} (hb : Blank b) : Ending [b] .none
  | two {b x : List Char} (hb : Blank b) : Ending [b, x] .none
  | known {b x l w : List Char} {n : Nat} {rest : List (List Char)} (hb : Blank b) (hl : ∃ p q, l = p ++ w ++ q ∧ Blank p ∧ Blank q) (hw : Unsigned w n) (hn : n < 2 ^ 64) : Ending (b :: x :: l :: rest) (some n)

/-- A file of the example `psp`: the numbers of periods, items and orders, the changeover costs, the stocking costs, and one line of demands per item; a line is left free between these parts. -/
structure PspFile (lines : List (List Char)) (periods orders : Nat) (changeover : List (List Nat)) (stocking : List Nat) (demand : List (List Nat)) (optimum : Option Nat) : Prop where
  parts : ∃ l1 l2 l3 x1 b ls x2 cs ds tail ts, lines = l1 :: l2 :: l3 :: x1 :: (cs ++ b :: ls :: x2 :: (ds ++ tail)) ∧ Unsigned l1 periods ∧ Unsigned l2 stocking.length ∧ Unsigned l3 orders ∧
    Block cs changeover ∧ Blank b ∧ Words isWs ls ts ∧ List.Forall₂ Unsigned ts stocking ∧ Block ds demand ∧ Ending tail optimum
  square : changeover.length = stocking.length ∧ ∀ r ∈ changeover, r.length = stocking.length
  table : demand.length = stocking.length ∧ ∀ r ∈ demand, r.length = periods
  fits : periods < 2 ^ 64 ∧ stocking.length < 2 ^ 64 ∧ orders < 2 ^ 64 ∧ ∀ n ∈ stocking, n < 2 ^ 64
  positive : 1 ≤ periods

end Verif.Files
