/-!
The functions of the standard library that the instance readers of the examples use: `trim`, `split`, `split_whitespace`, `parse`.  A line is a list of characters.
-/
set_option autoImplicit false

namespace Verif.Text

/-- `char::is_whitespace` (the Unicode property `White_Space`), used by `instance.rs:73` (TSPTW) and others -/
def isWs (c : Char) : Bool :=
  let n := c.toNat
  (decide (9 ≤ n) && decide (n ≤ 13)) || n == 32 || n == 0x85 || n == 0xA0 || n == 0x1680 || (decide (0x2000 ≤ n) && decide (n ≤ 0x200A)) || n == 0x2028 || n == 0x2029 || n == 0x202F ||
    n == 0x205F || n == 0x3000

/-- `str::trim` -/
def trim (l : List Char) : List Char := ((l.dropWhile isWs).reverse.dropWhile isWs).reverse

/-- `str::split` -/
def split (p : Char → Bool) : List Char → List (List Char)
  | [] => [[]]
  | c :: l =>
    if p c then [] :: split p l
    else match split p l with
      | w :: ws => (c :: w) :: ws
      | [] => [[c]]

/-- `split(p).filter(|s| !s.is_empty())` (`srflp/instance.rs:64`); with `p := isWs` this is `split_whitespace()` -/
def words (p : Char → Bool) (l : List Char) : List (List Char) := (split p l).filter fun w => !w.isEmpty

/-- `char::to_digit(10)` -/
def digit (c : Char) : Option Nat := if 48 ≤ c.toNat ∧ c.toNat ≤ 57 then some (c.toNat - 48) else none

/-- The value of a sequence of digits, given that of the digits before it -/
def digits : Nat → List Char → Option Nat
  | n, [] => some n
  | n, c :: l => match digit c with
    | some d => digits (10 * n + d) l
    | none => none

/-- A nonempty sequence of digits whose value is at most `max` -/
def magnitude (max : Nat) (l : List Char) : Option Nat :=
  if l.isEmpty then none
  else match digits 0 l with
    | some n => if n ≤ max then some n else none
    | none => none

/-- Without a leading `+` -/
def unplus : List Char → List Char
  | '+' :: l => l
  | l => l

/-- `parse::<usize>()`, `parse::<u16>()`: an optional `+`, then digits; `none` is an error -/
def parseNat (max : Nat) (l : List Char) : Option Nat := magnitude max (unplus l)

/-- `parse::<isize>()`: an optional sign, then digits; `none` is an error -/
def parseInt (l : List Char) : Option Int :=
  match l with
  | '-' :: l => (magnitude (2 ^ 63) l).map fun (n : Nat) => -(n : Int)
  | l => (magnitude (2 ^ 63 - 1) (unplus l)).map fun (n : Nat) => (n : Int)

/-- Digits, possibly with a point before, between or after them, as a fraction `n / 10 ^ k` -/
def parseDecimal (l : List Char) : Option (Nat × Nat) :=
  let a := l.takeWhile fun c => c != '.'
  let b := (l.dropWhile fun c => c != '.').drop 1
  if a.isEmpty && b.isEmpty then none
  else (digits 0 (a ++ b)).map fun n => (n, b.length)

/-- The digits of an exponent, given the value of those before it; the standard library stops counting at 65536. -/
def exponentDigits : Nat → List Char → Option Nat
  | n, [] => some n
  | n, c :: l => match digit c with
    | some d => exponentDigits (if n < 65536 then 10 * n + d else n) l
    | none => none

/-- An optional sign, then digits -/
def parseExponent (l : List Char) : Option Int :=
  match l with
  | '-' :: l => if l.isEmpty then none else (exponentDigits 0 l).map fun (n : Nat) => -(n : Int)
  | l => if (unplus l).isEmpty then none else (exponentDigits 0 (unplus l)).map fun (n : Nat) => (n : Int)

/-- A decimal fraction, possibly with an exponent, as `n * 10 ^ z` -/
def parseNumber (l : List Char) : Option (Nat × Int) :=
  match l.dropWhile fun c => c != 'e' && c != 'E' with
  | [] => (parseDecimal l).map fun x => (x.1, -(x.2 : Int))
  | _ :: b => (parseDecimal (l.takeWhile fun c => c != 'e' && c != 'E')).bind fun x => (parseExponent b).map fun z => (x.1, z - x.2)

/-- What `parse::<f32>()` returns, without the sign and before it is rounded: not a number, infinity, `n * 10 ^ z` -/
inductive Number
  | nan
  | inf
  | dec (n : Nat) (z : Int)
deriving DecidableEq, Repr

/-- `parse::<f32>()` without a sign: a number, or one of three words in upper or lower case -/
def parseMagnitude (l : List Char) : Option Number :=
  match parseNumber l with
  | some x => some (.dec x.1 x.2)
  | none =>
    if l.map Char.toLower = ['n', 'a', 'n'] then some .nan
    else if l.map Char.toLower = ['i', 'n', 'f'] ∨ l.map Char.toLower = ['i', 'n', 'f', 'i', 'n', 'i', 't', 'y'] then some .inf
    else none

/-- `parse::<f32>()` (`tsptw/instance.rs:88`): an optional sign (`true` is negative), then a magnitude; `none` is an error -/
def parseFloat (l : List Char) : Option (Bool × Number) :=
  match l with
  | '-' :: l => (parseMagnitude l).map fun x => (true, x)
  | l => (parseMagnitude (unplus l)).map fun x => (false, x)

/-- A line without the end `\r`; the line is given backwards. -/
def chomp : List Char → List Char
  | '\r' :: l => l
  | l => l

/-- The lines of a text, of which `acc` (backwards) has been read since the last line end -/
def linesFrom (acc : List Char) : List Char → List (List Char)
  | [] => if acc.isEmpty then [] else [acc.reverse]
  | c :: l => if c = '\n' then (chomp acc).reverse :: linesFrom [] l else linesFrom (c :: acc) l

/-- `BufRead::lines` (`srflp/instance.rs:46`, `tsptw/instance.rs:60`, `psp.rs:365`): a line ends with `\n` or `\r\n`; after the last line the end may be missing. -/
def lines (l : List Char) : List (List Char) := linesFrom [] l

/-- `usize::MAX` -/
def usizeMax : Nat := 2 ^ 64 - 1

end Verif.Text
