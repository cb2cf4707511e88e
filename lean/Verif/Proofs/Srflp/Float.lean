import Verif.Model.Srflp
import Verif.Proofs.F32
/-! The order of the quotients in the rough bound of the layout example. -/
set_option autoImplicit false

namespace Verif.Srflp
open Verif F32

/-! ### The order of the quotients -/

theorem ratioGe_total (a b : Int × Int) (h : ratioGe a b = false) : ratioGe b a = true := by
  unfold ratioGe at *
  simp only [decide_eq_false_iff_not, decide_eq_true_eq] at *
  generalize ratio a.2 a.1 = x at *
  generalize ratio b.2 b.1 = y at *
  omega

theorem ratioGe_trans (a b c : Int × Int) (h1 : ratioGe a b = true) (h2 : ratioGe b c = true) : ratioGe a c = true := by
  unfold ratioGe at *
  simp only [decide_eq_true_eq] at *
  generalize ratio a.2 a.1 = x at *
  generalize ratio b.2 b.1 = y at *
  generalize ratio c.2 c.1 = z at *
  omega

/-- The order computed in single precision is that of the quotients, if numbers are small. -/
theorem ratioGe_mul {C L : Nat} (hCL : C * L < 2 ^ 23) {a b : Int × Int} (ha : 0 ≤ a.1 ∧ a.1 ≤ L ∧ 0 ≤ a.2 ∧ a.2 ≤ C) (hb : 0 ≤ b.1 ∧ b.1 ≤ L ∧ 0 ≤ b.2 ∧ b.2 ≤ C)
    (h : ratioGe a b = true) : b.2 * a.1 ≤ a.2 * b.1 := by
  obtain ⟨la, ca⟩ := a
  obtain ⟨lb, cb⟩ := b
  simp only at *
  obtain ⟨a1, a2, a3, a4⟩ := ha
  obtain ⟨b1, b2, b3, b4⟩ := hb
  have hpos := Int.mul_nonneg a3 b1
  by_cases hla : la = 0
  · subst hla; simpa using hpos
  by_cases hcb : cb = 0
  · subst hcb; simpa using hpos
  unfold ratioGe at h
  simp only [decide_eq_true_eq] at h
  by_cases hlb : lb = 0
  · exfalso
    have e1 : ratio cb lb = (2, 0) := by
      unfold ratio; rw [if_pos hlb, if_neg hcb, if_pos (by omega)]
    have e2 : (ratio ca la).1 = 1 := by
      unfold ratio
      rw [if_neg hla]
      split
      · rfl
      · split <;> rfl
    rw [e1, e2] at h
    simp at h
  obtain ⟨la, rfl⟩ := Int.eq_ofNat_of_zero_le a1
  obtain ⟨ca, rfl⟩ := Int.eq_ofNat_of_zero_le a3
  obtain ⟨lb, rfl⟩ := Int.eq_ofNat_of_zero_le b1
  obtain ⟨cb, rfl⟩ := Int.eq_ofNat_of_zero_le b3
  have hla' : 0 < la := by omega
  have hlb' : 0 < lb := by omega
  have hcb' : 0 < cb := by omega
  have hL : L < 2 ^ 23 := by
    have : 1 * L ≤ C * L := Nat.mul_le_mul_right _ (by omega)
    omega
  have hC : C < 2 ^ 23 := by
    have : C * 1 ≤ C * L := Nat.mul_le_mul_left _ (by omega)
    omega
  have small : ∀ x y : Nat, x ≤ C → y ≤ L → x * y < 2 ^ 23 := fun x y hx hy => Nat.lt_of_le_of_lt (Nat.mul_le_mul hx hy) hCL
  have key : ∀ c l : Nat, 0 < c → 0 < l → c ≤ C → l ≤ L → ratio (c : Int) (l : Int) = (1, (f32Div c l : Int)) := by
    intro c l hc hl hc' hl'
    unfold ratio
    rw [if_neg (by omega), if_neg (by omega), if_pos (by simp [hc, hl]), Int.natAbs_natCast, Int.natAbs_natCast, f32_small (by omega), f32_small (by omega)]
  rw [key cb lb hcb' hlb' (by omega) (by omega)] at h
  by_contra hcon
  have hlt : ca * lb < cb * la := by
    have : (ca : Int) * lb < cb * la := by omega
    exact_mod_cast this
  by_cases hca : ca = 0
  · subst hca
    have e : ratio ((0 : Nat) : Int) (la : Int) = (1, 0) := by
      unfold ratio; rw [if_neg (by omega), if_pos (by simp)]
    rw [e] at h
    simp only at h
    have hpos : 0 < f32Div cb lb := code_pos (Nat.mul_pos hlb' (Nat.two_pow_pos _)) (exponent hlb' (range hcb' <| Nat.le_trans (show lb ≤ 2 ^ 24 by omega) (Nat.pow_le_pow_right (by decide) (by decide)))).1
    omega
  · rw [key ca la (by omega) hla' (by omega) (by omega)] at h
    have := f32Div_lt (by omega) hla' hcb' hlb' (by omega) (by omega) hlt (small _ _ (by omega) (by omega))
    simp only at h
    omega

end Verif.Srflp
