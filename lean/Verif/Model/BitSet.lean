/-!
Model of the bit set helpers of `src/utils.rs` (`BitSetIter`, `LexBitSet`).
`u64` words are `BitVec 64`; a `bitset_fixed::BitSet` is its size and its buffer of words.
`usize` indices are `Nat` (a bit index cannot overflow: it is below 64 times the buffer length).
-/
set_option autoImplicit false

namespace Verif

abbrev Word := BitVec 64

/-- `bitset_fixed::BitSet`: size in bits and buffer of words (only `buffer()` and `==` are used here). -/
structure BitSet where
  size : Nat
  buf : List Word
deriving DecidableEq, Repr

/-- `src/utils.rs:28-37` -/
structure BitSetIter where
  iter : List Word
  word : Option Word
  base : Nat
  offset : Nat
deriving Repr

namespace BitSetIter

/-- `src/utils.rs:41-45` -/
def new (bs : BitSet) : BitSetIter :=
  { iter := bs.buf.tail, word := bs.buf.head?, base := 0, offset := 0 }

/-- `src/utils.rs:62-65`: the inner `while` that looks for the next 1-bit; returns the final offset. -/
def scan (w mask : Word) (offset : Nat) : Nat :=
  if w &&& mask = 0 ∧ offset < 64 then scan w (mask <<< 1) (offset + 1) else offset
termination_by 64 - offset

theorem le_scan (w mask : Word) (offset : Nat) : offset ≤ scan w mask offset := by
  fun_induction scan w mask offset with
  | case1 mask offset h ih => omega
  | case2 => omega

/-- `src/utils.rs:54-74`: one call of `next`; the result is the yielded item and the new iterator
state, or `none` when the iteration is over. -/
def next (it : BitSetIter) : Option (Nat × BitSetIter) :=
  match h : it.word with
  | none => none
  | some w =>
    if w = 0 ∨ it.offset ≥ 64 then
      next { iter := it.iter.tail, word := it.iter.head?, base := it.base + 64, offset := 0 }
    else
      let off := scan w (1#64 <<< it.offset) it.offset
      if off < 64 then
        some (it.base + off, { it with offset := off + 1 })
      else
        next { it with offset := off }
termination_by (it.iter.length + (if it.word.isSome then 1 else 0), 64 - it.offset)
decreasing_by
  · apply Prod.Lex.left
    cases hi : it.iter <;> simp [h]
  · rename_i hc hoff
    have := le_scan w (1#64 <<< it.offset) it.offset
    apply Prod.Lex.right
    show 64 - scan w (1#64 <<< it.offset) it.offset < 64 - it.offset
    have hoff' : ¬ scan w (1#64 <<< it.offset) it.offset < 64 := hoff
    omega

end BitSetIter

namespace LexBitSet

/-- `src/utils.rs:128-136`: the loop over the 64 bits of two words (`mask` starts at 1). -/
def cmpBits : Nat → Word → Word → Word → Option Ordering
  | 0, _, _, _ => none
  | n + 1, mask, xi, yi =>
    let bitX := xi &&& mask
    let bitY := yi &&& mask
    if bitX ≠ bitY then some (compare bitX.toNat bitY.toNat)
    else cmpBits n (mask <<< 1) xi yi

/-- `src/utils.rs:124-139`: the loop over the words, `x` and `y` being the two word iterators. -/
def cmpWords : Nat → List Word → List Word → Ordering
  | 0, _, _ => .eq
  | n + 1, x, y =>
    let xi := x.head?.getD 0
    let yi := y.head?.getD 0
    if xi ≠ yi then
      match cmpBits 64 1 xi yi with
      | some o => o
      | none => cmpWords n x.tail y.tail
    else cmpWords n x.tail y.tail

/-- `src/utils.rs:119-141` `Ord::cmp` -/
def cmp (a b : BitSet) : Ordering := cmpWords (max a.buf.length b.buf.length) a.buf b.buf

/-- `src/utils.rs:146-148` `PartialOrd::partial_cmp` -/
def partialCmp (a b : BitSet) : Option Ordering := some (cmp a b)

/-- `src/utils.rs:159-161` `PartialEq::eq` -/
def eq (a b : BitSet) : Bool := decide (a = b) || decide (cmp a b = .eq)

end LexBitSet
end Verif
