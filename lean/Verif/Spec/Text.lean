import Verif.Model.Text
/-! How numbers are written in a line, independently of how they are read. -/
set_option autoImplicit false

namespace Verif.Text

/-- `w` is written `n` in decimal notation, possibly with leading zeros. -/
inductive Digits : List Char → Nat → Prop
  | one (d : Nat) (h : d < 10) : Digits [Char.ofNat (48 + d)] d
  | snoc {w : List Char} {n : Nat} (d : Nat) (h : d < 10) (hw : Digits w n) : Digits (w ++ [Char.ofNat (48 + d)]) (10 * n + d)

/-- A natural number, possibly with a sign -/
def Unsigned (w : List Char) (n : Nat) : Prop := Digits w n ∨ ∃ v, w = '+' :: v ∧ Digits v n

/-- An integer -/
def Signed (w : List Char) (z : Int) : Prop := (∃ n : Nat, z = n ∧ Unsigned w n) ∨ ∃ v, ∃ n : Nat, w = '-' :: v ∧ Digits v n ∧ z = -n

/-- The decimal fraction `n / 10 ^ k`: `k` digits after the point -/
def Decimal (w : List Char) (n k : Nat) : Prop := (Digits w n ∧ k = 0) ∨ ∃ a b, w = a ++ '.' :: b ∧ Digits (a ++ b) n ∧ k = b.length

/-- The number `n / 10 ^ k * 10 ^ e`, where the exponent may be left out -/
def Scientific (w : List Char) (n k : Nat) (e : Int) : Prop := (Decimal w n k ∧ e = 0) ∨ ∃ a c b, w = a ++ c :: b ∧ (c = 'e' ∨ c = 'E') ∧ Decimal a n k ∧ Signed b e

/-- The words for what is not a number and for infinity, in lower case -/
def special : List (List Char) := ["nan".toList, "inf".toList, "infinity".toList]

/-- The characters with the Unicode property `White_Space` -/
def whiteSpace : List Nat := [0x9, 0xA, 0xB, 0xC, 0xD, 0x20, 0x85, 0xA0, 0x1680, 0x2000, 0x2001, 0x2002, 0x2003, 0x2004, 0x2005, 0x2006, 0x2007, 0x2008, 0x2009, 0x200A,
  0x2028, 0x2029, 0x202F, 0x205F, 0x3000]

/-- A line that consists of words, with separators between them and possibly around them -/
inductive Words (sep : Char → Bool) : List Char → List (List Char) → Prop
  | nil {g : List Char} (hg : ∀ c ∈ g, sep c = true) : Words sep g []
  | cons {g t l : List Char} {ts : List (List Char)} (hg : ∀ c ∈ g, sep c = true) (ht : t ≠ []) (hc : ∀ c ∈ t, sep c = false ∧ isWs c = false)
      (hl : l = [] ∨ ∃ c m, l = c :: m ∧ sep c = true) (h : Words sep l ts) : Words sep (g ++ t ++ l) (t :: ts)

/-- A line of words, possibly with white space of any kind around them -/
def Line (sep : Char → Bool) (l : List Char) (ts : List (List Char)) : Prop :=
  ∃ a m b, l = a ++ m ++ b ∧ (∀ c ∈ a, isWs c = true) ∧ (∀ c ∈ b, isWs c = true) ∧ Words sep m ts

/-- A line of white space -/
def Blank (l : List Char) : Prop := ∀ c ∈ l, isWs c = true

/-- The lines of a text: each ends with a line feed, possibly after a carriage return; at the end of the text these may be missing. -/
inductive LinesOf : List Char → List (List Char) → Prop
  | nil : LinesOf [] []
  | rest {l : List Char} (h0 : l ≠ []) (hl : '\n' ∉ l) : LinesOf l [l]
  | unix {l t : List Char} {ls : List (List Char)} (hl : '\n' ∉ l) (hr : l.getLast? ≠ some '\r') (h : LinesOf t ls) : LinesOf (l ++ '\n' :: t) (l :: ls)
  | dos {l t : List Char} {ls : List (List Char)} (hl : '\n' ∉ l) (h : LinesOf t ls) : LinesOf (l ++ '\r' :: '\n' :: t) (l :: ls)

/-- Lines that differ only in the white space around them -/
def SameLine (l l' : List Char) : Prop := ∃ a m b a' b', l = a ++ m ++ b ∧ l' = a' ++ m ++ b' ∧ Blank a ∧ Blank b ∧ Blank a' ∧ Blank b'

end Verif.Text
