/-!
Sets of small numbers, as used by the example problems (`bitset_fixed::BitSet`, an external crate).

A set is the natural number whose binary digits are its members; the capacity `n` is passed where the code needs it.
`BitSetIter` (`src/utils.rs:22-70`) over such a set yields its members in increasing order (C02), which is `Bits.iter`.
-/
set_option autoImplicit false

namespace Verif.Bits

/-- `BitSet::new(n).not()`: all of `0, …, n-1` -/
def full (n : Nat) : Nat := 2 ^ n - 1

/-- `bs[i]` -/
def has (s i : Nat) : Bool := s.testBit i

/-- `bs.set(i, true)` -/
def add (s i : Nat) : Nat := s ||| (1 <<< i)

/-- `bs.set(i, false)` -/
def clear (s i : Nat) : Nat := if s.testBit i then s ^^^ (1 <<< i) else s

/-- The members of a set of capacity `n`, in the order `BitSetIter` yields them. -/
def iter (n s : Nat) : List Nat := (List.range n).filter (fun i => s.testBit i)

/-- `bs.count_ones()` -/
def count (n s : Nat) : Nat := (iter n s).length

end Verif.Bits
