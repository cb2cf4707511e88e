import Verif.Proofs.Print
/-! C93: how integers are written. -/
set_option autoImplicit false

namespace Verif.Print
open Text

/-- The usual notation of a natural number: digits, without zeros in front. -/
def Plain (w : List Char) (n : Nat) : Prop := Digits w n ∧ (w.head? = some '0' → w = ['0'])

theorem showNat_ne_nil (n : Nat) : showNat n ≠ [] := by
  rw [showNat]; split <;> simp

theorem showNat_plain (n : Nat) : Plain (showNat n) n := by
  refine ⟨showNat_digits n, ?_⟩
  induction n using Nat.strongRecOn with
  | _ n ih =>
    intro h
    rw [showNat] at h ⊢
    split
    · rename_i hn
      rw [dif_pos hn] at h
      simpa using h
    · rename_i hn
      rw [dif_neg hn, List.head?_append_of_ne_nil _ (showNat_ne_nil _)] at h
      have h1 := ih (n / 10) (by omega) h
      have h2 : showNat (n / 10) = showNat 0 := by rw [h1, showNat]; rfl
      have := showNat_inj h2
      omega

end Verif.Print

namespace Verif.Props
open Verif Print Text

/-- **C93.** An integer is written with a minus sign if and only if it is negative (0 has none), and without zeros in front. -/
theorem integer_text (z : Int) : (z < 0 → ∃ w, showInt z = '-' :: w ∧ Plain w z.natAbs) ∧ (0 ≤ z → Plain (showInt z) z.natAbs) := by
  constructor
  · intro h
    exact ⟨_, if_pos h, showNat_plain _⟩
  · intro h
    rw [showInt, if_neg (by omega)]
    exact showNat_plain _

example : showInt 0 = "0".toList ∧ showInt (-120) = "-120".toList := by decide +kernel
example : ¬ Plain "-0".toList 0 := fun h => Text.Digits.not h.1 (x := '-') (by decide) (by decide)
example : ¬ Plain "012".toList 12 := fun h => absurd (h.2 rfl) (by decide)

end Verif.Props
