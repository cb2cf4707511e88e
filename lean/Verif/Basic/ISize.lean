/-!
`isize` arithmetic.  Values are mathematical integers; the saturating operations of the standard library are
clamped to the 64-bit range exactly as `isize::saturating_add` / `saturating_sub` do.
-/
set_option autoImplicit false

namespace Verif

/-- `isize::MIN` on a 64-bit target. -/
def isizeMin : Int := -9223372036854775808
/-- `isize::MAX` on a 64-bit target. -/
def isizeMax : Int := 9223372036854775807

/-- The nearest representable value. -/
def clamp (x : Int) : Int := max isizeMin (min isizeMax x)

/-- `isize::saturating_add` -/
def satAdd (a b : Int) : Int := clamp (a + b)
/-- `isize::saturating_sub` -/
def satSub (a b : Int) : Int := clamp (a - b)

/-- Representable as an `isize`. -/
def InISize (x : Int) : Prop := isizeMin ≤ x ∧ x ≤ isizeMax

instance (x : Int) : Decidable (InISize x) := inferInstanceAs (Decidable (_ ∧ _))

theorem clamp_of_in {x : Int} (h : InISize x) : clamp x = x := by
  obtain ⟨h1, h2⟩ := h; simp only [clamp, isizeMin, isizeMax] at *; omega

theorem clamp_mono {x y : Int} (h : x ≤ y) : clamp x ≤ clamp y := by
  simp only [clamp, isizeMin, isizeMax] at *; omega

theorem clamp_in (x : Int) : InISize (clamp x) := by
  simp only [InISize, clamp, isizeMin, isizeMax]; omega

theorem le_clamp {x y : Int} (h : InISize x) (hxy : x ≤ y) : x ≤ clamp y := by
  rw [← clamp_of_in h]; exact clamp_mono hxy

theorem clamp_le {x y : Int} (h : InISize y) (hxy : x ≤ y) : clamp x ≤ y := by
  rw [← clamp_of_in h]; exact clamp_mono hxy

theorem satAdd_of_in {a b : Int} (h : InISize (a + b)) : satAdd a b = a + b := clamp_of_in h

theorem satAdd_mono {a b c d : Int} (h1 : a ≤ c) (h2 : b ≤ d) : satAdd a b ≤ satAdd c d :=
  clamp_mono (by omega)

theorem le_satAdd {w a b : Int} (hw : InISize w) (h : w ≤ a + b) : w ≤ satAdd a b := le_clamp hw h

theorem satAdd_in (a b : Int) : InISize (satAdd a b) := clamp_in _
theorem satSub_in (a b : Int) : InISize (satSub a b) := clamp_in _

theorem satAdd_comm (a b : Int) : satAdd a b = satAdd b a := by simp [satAdd, Int.add_comm]

end Verif
