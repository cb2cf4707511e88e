import Verif.Model.BitSet
/-! Specification of bit sets: a bit set is the set of the positions of its 1-bits. -/
set_option autoImplicit false

namespace Verif.Spec

/-- `i` is a member: bit `i % 64` of word `i / 64` is on (missing words read as zeros). -/
def BitMem (bs : BitSet) (i : Nat) : Prop := ∃ w, bs.buf[i / 64]? = some w ∧ w.getLsbD (i % 64) = true

/-- Draining an iterator yields exactly the list: each call of `next` returns the next item and,
after the last one, `None`. -/
inductive Yields : BitSetIter → List Nat → Prop
  | done {it} : it.next = none → Yields it []
  | item {it it' x l} : it.next = some (x, it') → Yields it' l → Yields it (x :: l)

/-- Lexicographic order from bit 0: at the first position where the sets differ, `a` has a 0. -/
def LexLt (a b : BitSet) : Prop :=
  ∃ i, (∀ j, j < i → (BitMem a j ↔ BitMem b j)) ∧ ¬ BitMem a i ∧ BitMem b i

/-- Same members. -/
def SameMembers (a b : BitSet) : Prop := ∀ i, BitMem a i ↔ BitMem b i

end Verif.Spec
