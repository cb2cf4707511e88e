import Mathlib.Data.Nat.Factorial.Basic
/-! Numbers of partial layouts, plans and tours. -/
set_option autoImplicit false

namespace Verif.Spec

/-- How many ways there are to put some of `n` things in a row: 1 for none of them, `n` for one, `n * (n - 1)` for two, and so on. -/
def rows (n : Nat) : Nat := ((List.range (n + 1)).map n.descFactorial).sum

/-- How many words of at most `n` letters there are, with `b` letters to choose from. -/
def words (b n : Nat) : Nat := ((List.range (n + 1)).map (b ^ ·)).sum

/-- Four things: 1 + 4 + 12 + 24 + 24. -/
example : rows 4 = 65 := by decide
/-- Words over two letters: 1 + 2 + 4 + 8. -/
example : words 2 3 = 15 := by decide

end Verif.Spec
