import Verif.Spec.F32
import Mathlib.Tactic.Linarith
import Mathlib.Tactic.Ring
import Mathlib.Tactic.FieldSimp
import Mathlib.Tactic.Positivity
import Mathlib.Algebra.Order.Field.Power
/-! Single precision: rounding to nearest, and small quotients are told apart. -/
set_option autoImplicit false

namespace Verif.F32
open Verif

theorem roundDiv_spec (x y : Nat) (hy : 0 < y) : 2 * (roundDiv x y * y) ≤ 2 * x + y ∧ 2 * x ≤ 2 * (roundDiv x y * y) + y := by
  have h := Nat.div_add_mod x y
  have h' : x / y * y + x % y = x := by rw [Nat.mul_comm]; exact h
  have hlt := Nat.mod_lt x hy
  unfold roundDiv
  simp only
  split
  · constructor <;> omega
  · split
    · rw [Nat.add_mul, Nat.one_mul]; constructor <;> omega
    · split
      · constructor <;> omega
      · rw [Nat.add_mul, Nat.one_mul]; constructor <;> omega

theorem roundDiv_ge {x y c : Nat} (h : c * y ≤ x) (hy : 0 < y) : c ≤ roundDiv x y := by
  have : c ≤ x / y := (Nat.le_div_iff_mul_le hy).2 h
  unfold roundDiv
  simp only
  split <;> (try split) <;> (try split) <;> omega

theorem roundDiv_le {x y c : Nat} (h : x < c * y) (hy : 0 < y) : roundDiv x y ≤ c := by
  have : x / y < c := (Nat.div_lt_iff_lt_mul hy).2 h
  unfold roundDiv
  simp only
  split <;> (try split) <;> (try split) <;> omega

theorem f32_small {x : Nat} (h : x < 2 ^ 24) : f32 x = x := by unfold f32; rw [if_pos h]

/-- A condition under which the quotient is in the range of the representation -/
theorem range {a b : Nat} (ha : 0 < a) (hb : b ≤ 2 ^ 104) : 2 ^ 24 * b ≤ a * 2 ^ 128 :=
  calc 2 ^ 24 * b ≤ 2 ^ 24 * 2 ^ 104 := Nat.mul_le_mul_left _ hb
    _ = 2 ^ 128 := by norm_num
    _ ≤ a * 2 ^ 128 := Nat.le_mul_of_pos_left _ ha

/-- The exponent: the quotient lies between two powers of two. -/
theorem exponent {a b : Nat} (hb : 0 < b) (hb' : 2 ^ 24 * b ≤ a * 2 ^ 128) :
    (b * 2 ^ ((a * 2 ^ 128 / b).log2 - 23)) * 2 ^ 23 ≤ a * 2 ^ 128 ∧ a * 2 ^ 128 < (b * 2 ^ ((a * 2 ^ 128 / b).log2 - 23)) * 2 ^ 24 := by
  have hq : 2 ^ 24 ≤ a * 2 ^ 128 / b := by
    rw [Nat.le_div_iff_mul_le hb]
    exact hb'
  have hne : a * 2 ^ 128 / b ≠ 0 := by
    intro h; rw [h] at hq; exact absurd hq (by norm_num)
  have hlog : 24 ≤ (a * 2 ^ 128 / b).log2 := (Nat.le_log2 hne).2 hq
  have h1 := Nat.log2_self_le hne
  have h2 := Nat.lt_log2_self (n := a * 2 ^ 128 / b)
  generalize (a * 2 ^ 128 / b).log2 = g at *
  obtain ⟨e, rfl⟩ := Nat.exists_eq_add_of_le (show 23 ≤ g by omega)
  have e1 : 23 + e - 23 = e := by omega
  rw [e1]
  constructor
  · have := Nat.mul_le_of_le_div _ _ _ h1
    calc b * 2 ^ e * 2 ^ 23 = 2 ^ (23 + e) * b := by rw [Nat.pow_add]; ring
      _ ≤ _ := this
  · have := (Nat.div_lt_iff_lt_mul hb).1 h2
    calc a * 2 ^ 128 < 2 ^ (23 + e + 1) * b := this
      _ = _ := by rw [Nat.pow_add, Nat.pow_add]; ring

/-- The comparison, for quotients `N / b` and `N' / d` with exponents `e` and `e'` -/
theorem code_lt {N N' b d e e' : Nat} (hb : 0 < b) (hd : 0 < d) (h1 : b * 2 ^ e * 2 ^ 23 ≤ N) (h2 : N < b * 2 ^ e * 2 ^ 24)
    (h3 : d * 2 ^ e' * 2 ^ 23 ≤ N') (h4 : N' < d * 2 ^ e' * 2 ^ 24) (star : (2 ^ 23 + 1) * (N * d) < 2 ^ 23 * (N' * b)) :
    e * 2 ^ 23 + roundDiv N (b * 2 ^ e) < e' * 2 ^ 23 + roundDiv N' (d * 2 ^ e') := by
  have hE : 0 < 2 ^ e := Nat.two_pow_pos e
  have hE' : 0 < 2 ^ e' := Nat.two_pow_pos e'
  have hy : 0 < b * 2 ^ e := Nat.mul_pos hb hE
  have hy' : 0 < d * 2 ^ e' := Nat.mul_pos hd hE'
  obtain ⟨r1, r2⟩ := roundDiv_spec N _ hy
  obtain ⟨r3, r4⟩ := roundDiv_spec N' _ hy'
  have m1 := roundDiv_le (x := N) (y := b * 2 ^ e) (c := 2 ^ 24) (by omega) hy
  have m2 := roundDiv_ge (x := N') (y := d * 2 ^ e') (c := 2 ^ 23) (by omega) hy'
  generalize roundDiv N (b * 2 ^ e) = R at r1 r2 m1 ⊢
  generalize roundDiv N' (d * 2 ^ e') = R' at r3 r4 m2 ⊢
  -- everything over a common denominator
  have h1 := Nat.mul_le_mul_right d h1
  have r1 := Nat.mul_le_mul_right d r1
  have h4 := Nat.mul_lt_mul_of_pos_right h4 hb
  have r4 := Nat.mul_le_mul_right b r4
  have e3 : 2 * N' * b = 2 * (N' * b) := by ring
  have e1 : (2 * N + b * 2 ^ e) * d = 2 * (N * d) + b * d * 2 ^ e := by ring
  have e2 : 2 * (R * (b * 2 ^ e)) * d = 2 * (R * (b * d * 2 ^ e)) := by ring
  rw [e1, e2] at r1
  rw [e3] at r4
  generalize N * d = U at *
  generalize N' * b = V at *
  rcases Nat.lt_trichotomy e' e with hlt' | heq | hgt
  · exfalso
    obtain ⟨k, rfl⟩ := Nat.exists_eq_add_of_lt hlt'
    have : d * 2 ^ e' * 2 ^ 24 * b ≤ b * 2 ^ (e' + k + 1) * 2 ^ 23 * d := by
      have e1 : 2 ^ (e' + k + 1) = 2 ^ e' * 2 ^ k * 2 := by rw [Nat.pow_add, Nat.pow_add]
      rw [e1]
      calc d * 2 ^ e' * 2 ^ 24 * b = (d * 2 ^ e' * 2 ^ 24 * b) * 1 := by ring
        _ ≤ (d * 2 ^ e' * 2 ^ 24 * b) * 2 ^ k := Nat.mul_le_mul_left _ (Nat.two_pow_pos k)
        _ = _ := by ring
    omega
  · subst heq
    have e4 : (2 * (R' * (d * 2 ^ e')) + d * 2 ^ e') * b = 2 * (R' * (b * d * 2 ^ e')) + b * d * 2 ^ e' := by ring
    have e5 : b * 2 ^ e' * 2 ^ 23 * d = b * d * 2 ^ e' * 2 ^ 23 := by ring
    rw [e4] at r4
    rw [e5] at h1
    generalize b * d * 2 ^ e' = G at *
    by_contra hcon
    have hR : R' ≤ R := by omega
    have := Nat.mul_le_mul_right G hR
    omega
  · obtain ⟨k, rfl⟩ := Nat.exists_eq_add_of_lt hgt
    cases k with
    | succ k => omega
    | zero =>
      by_contra hcon
      have hR : R = 2 ^ 24 := by omega
      have hR' : R' = 2 ^ 23 := by omega
      subst hR
      subst hR'
      have e4 : (2 * (2 ^ 23 * (d * 2 ^ (e + 0 + 1))) + d * 2 ^ (e + 0 + 1)) * b = (2 ^ 25 + 2) * (b * d * 2 ^ e) := by
        rw [Nat.add_zero, Nat.pow_add]; ring
      rw [e4] at r4
      have hG : 0 < b * d * 2 ^ e := Nat.mul_pos (Nat.mul_pos hb hd) hE
      generalize b * d * 2 ^ e = G at *
      omega

theorem code_pos {N y e : Nat} (hy : 0 < y) (h : y * 2 ^ 23 ≤ N) : 0 < e * 2 ^ 23 + roundDiv N y := by
  have := roundDiv_ge (x := N) (y := y) (c := 2 ^ 23) (by omega) hy
  omega

/-- Different quotients of small numbers stay different, and in their order. -/
theorem f32Div_lt {a b c d : Nat} (ha : 0 < a) (hb : 0 < b) (hc : 0 < c) (hd : 0 < d) (hb' : b < 2 ^ 24) (hd' : d < 2 ^ 24) (hlt : a * d < c * b)
    (hs : a * d < 2 ^ 23) : f32Div a b < f32Div c d := by
  obtain ⟨h1, h2⟩ := exponent hb (range ha <| Nat.le_trans (Nat.le_of_lt hb') (Nat.pow_le_pow_right (by decide) (by decide)))
  obtain ⟨h3, h4⟩ := exponent hd (range hc <| Nat.le_trans (Nat.le_of_lt hd') (Nat.pow_le_pow_right (by decide) (by decide)))
  refine code_lt hb hd h1 h2 h3 h4 ?_
  have : (2 ^ 23 + 1) * (a * d) < 2 ^ 23 * (c * b) := by omega
  calc (2 ^ 23 + 1) * (a * 2 ^ 128 * d) = (2 ^ 23 + 1) * (a * d) * 2 ^ 128 := by ring
    _ < 2 ^ 23 * (c * b) * 2 ^ 128 := Nat.mul_lt_mul_of_pos_right this (by norm_num)
    _ = _ := by ring

/-! ### Rounding to nearest -/

theorem round_half (N y : Nat) (hy : 0 < y) : |(N : ℚ) / y - roundDiv N y| ≤ 1 / 2 := by
  obtain ⟨h1, h2⟩ := roundDiv_spec N y hy
  have hy' : (0 : ℚ) < y := by exact_mod_cast hy
  have h1' : 2 * ((roundDiv N y : ℚ) * y) ≤ 2 * N + y := by exact_mod_cast h1
  have h2' : 2 * (N : ℚ) ≤ 2 * (roundDiv N y * y) + y := by exact_mod_cast h2
  have e : (N : ℚ) = (N : ℚ) / y * y := by field_simp
  rw [e] at h1' h2'
  generalize (N : ℚ) / y = z at *
  generalize (roundDiv N y : ℚ) = R at *
  rw [abs_le]
  constructor
  · by_contra h
    push Not at h
    nlinarith
  · by_contra h
    push Not at h
    nlinarith

theorem round_tie (N y : Nat) (hy : 0 < y) (h : |(N : ℚ) / y - roundDiv N y| = 1 / 2) : roundDiv N y % 2 = 0 := by
  have hy' : (0 : ℚ) < y := by exact_mod_cast hy
  have e : (N : ℚ) = (N : ℚ) / y * y := by field_simp
  have h' : 2 * (roundDiv N y * y) = 2 * N + y ∨ 2 * N = 2 * (roundDiv N y * y) + y := by
    rcases (abs_eq (by norm_num)).1 h with h | h
    · right
      have : (2 : ℚ) * N = 2 * (roundDiv N y * y) + y := by
        have h3 : (N : ℚ) / y = roundDiv N y + 1 / 2 := by linarith
        rw [e, h3]; ring
      exact_mod_cast this
    · left
      have : (2 : ℚ) * (roundDiv N y * y) = 2 * N + y := by
        have h3 : (N : ℚ) / y = roundDiv N y - 1 / 2 := by linarith
        rw [e, h3]; ring
      exact_mod_cast this
  have hd := Nat.div_add_mod N y
  have hd' : N / y * y + N % y = N := by rw [Nat.mul_comm]; exact hd
  have hlt := Nat.mod_lt N hy
  unfold roundDiv at *
  simp only at *
  split at h'
  · rw [if_pos (by assumption)]; omega
  · rw [if_neg (by assumption)]
    split at h'
    · rw [Nat.add_mul, Nat.one_mul] at h'; omega
    · rw [if_neg (by assumption)]
      split
      · assumption
      · omega

/-- A quotient between `2 ^ 23` and `2 ^ 24`, rounded to an integer and scaled, is the nearest single precision number. -/
theorem round_nearest {N y : Nat} (hy : 0 < y) (h1 : y * 2 ^ 23 ≤ N) (h2 : N < y * 2 ^ 24) (E : ℤ) :
    IsNearest ((N : ℚ) / y * 2 ^ E) (roundDiv N y * 2 ^ E) := by
  have hy' : (0 : ℚ) < y := by exact_mod_cast hy
  have hE : (0 : ℚ) < 2 ^ E := by positivity
  have hR1 : 2 ^ 23 ≤ roundDiv N y := roundDiv_ge (by rw [Nat.mul_comm]; exact h1) hy
  have hR2 : roundDiv N y ≤ 2 ^ 24 := roundDiv_le (by rw [Nat.mul_comm]; exact h2) hy
  have hhalf := round_half N y hy
  have htie := round_tie N y hy
  have hz : (2 : ℚ) ^ 23 ≤ (N : ℚ) / y := by
    rw [le_div_iff₀ hy', mul_comm]; exact_mod_cast h1
  generalize roundDiv N y = R at *
  generalize (N : ℚ) / y = z at *
  -- what any single precision number is after division by the scale
  have key : ∀ w : ℚ, IsSingle w → (∃ k : ℤ, w = k * 2 ^ E) ∨ w / 2 ^ E < 2 ^ 23 := by
    rintro w ⟨m, e, hm, rfl⟩
    rcases le_or_gt E e with h | h
    · left
      obtain ⟨d, rfl⟩ := Int.le.dest h
      refine ⟨m * 2 ^ d, ?_⟩
      rw [zpow_add₀ (by norm_num)]
      push_cast
      rw [zpow_natCast]; ring
    · right
      have hm' : (m : ℚ) < 2 ^ 24 := by
        have : m < 2 ^ 24 := lt_of_le_of_lt (le_abs_self m) hm
        exact_mod_cast this
      obtain ⟨d, hd⟩ := Int.le.dest (show e + 1 ≤ E by omega)
      rw [div_lt_iff₀ hE, ← hd, zpow_add₀ (by norm_num), zpow_add₀ (by norm_num), zpow_one, zpow_natCast]
      have h0 : (0 : ℚ) < 2 ^ e := by positivity
      have h3 : (1 : ℚ) ≤ 2 ^ d := one_le_pow₀ (by norm_num)
      calc (m : ℚ) * 2 ^ e < 2 ^ 24 * 2 ^ e := mul_lt_mul_of_pos_right hm' h0
        _ = 2 ^ 23 * (2 ^ e * 2 * 1) := by ring
        _ ≤ 2 ^ 23 * (2 ^ e * 2 * 2 ^ d) := by
          apply mul_le_mul_of_nonneg_left _ (by norm_num)
          exact mul_le_mul_of_nonneg_left h3 (by positivity)
  have scale : ∀ w : ℚ, |z * 2 ^ E - w| = |z - w / 2 ^ E| * 2 ^ E := by
    intro w
    have e : z * 2 ^ E - w = (z - w / 2 ^ E) * 2 ^ E := by field_simp
    rw [e, abs_mul, abs_of_pos hE]
  have int : ∀ k : ℤ, k ≠ (R : ℤ) → 1 / 2 ≤ |z - k| := by
    intro k hk
    have h1 : (1 : ℚ) ≤ |(k : ℚ) - R| := by
      have : (1 : ℤ) ≤ |k - (R : ℤ)| := Int.one_le_abs (by omega)
      have h2 : ((1 : ℤ) : ℚ) ≤ ((|k - (R : ℤ)| : ℤ) : ℚ) := by exact_mod_cast this
      rw [Int.cast_abs] at h2
      push_cast at h2
      exact h2
    have h2 : |(k : ℚ) - R| ≤ |z - k| + |z - R| := by
      have e : (k : ℚ) - R = (z - R) - (z - k) := by ring
      rw [e]
      calc |(z - R) - (z - k)| ≤ |z - R| + |z - k| := abs_sub _ _
        _ = _ := add_comm _ _
    linarith
  have low : ∀ w : ℚ, w < 2 ^ 23 → |z - (R : ℚ)| < |z - w| := by
    intro w hw
    rw [abs_of_nonneg (show 0 ≤ z - w by linarith)]
    rcases Nat.lt_or_ge R (2 ^ 23 + 1) with h | h
    · have : R = 2 ^ 23 := by omega
      rw [this]
      push_cast
      rw [abs_of_nonneg (by linarith)]
      linarith
    · have hk := int (2 ^ 23) (by omega)
      push_cast at hk
      rw [abs_of_nonneg (show 0 ≤ z - 8388608 by linarith)] at hk
      linarith
  have cmp : ∀ w : ℚ, IsSingle w → w ≠ R * 2 ^ E → 1 / 2 ≤ |z - w / 2 ^ E| ∨ |z - (R : ℚ)| < |z - w / 2 ^ E| := by
    intro w hw hne
    rcases key w hw with ⟨k, rfl⟩ | h
    · left
      rw [mul_div_assoc, div_self hE.ne', mul_one]
      refine int k fun h => hne ?_
      rw [h]; push_cast; rfl
    · exact Or.inr (low _ h)
  have self : |z * 2 ^ E - R * 2 ^ E| = |z - R| * 2 ^ E := by
    rw [scale, mul_div_assoc, div_self hE.ne', mul_one]
  have std : ∃ m e : ℤ, 2 ^ 23 ≤ |m| ∧ |m| < 2 ^ 24 ∧ (R % 2 = 0 → m % 2 = 0) ∧ (R : ℚ) * 2 ^ E = m * 2 ^ e := by
    rcases Nat.lt_or_ge R (2 ^ 24) with h | h
    · refine ⟨R, E, ?_, ?_, fun h => by omega, by push_cast; rfl⟩
      · rw [abs_of_nonneg (by omega)]; omega
      · rw [abs_of_nonneg (by omega)]; omega
    · have hR : R = 2 ^ 24 := by omega
      subst hR
      refine ⟨2 ^ 23, E + 1, by norm_num, by norm_num, fun _ => by norm_num, ?_⟩
      rw [zpow_add₀ (by norm_num), zpow_one]
      push_cast
      ring
  refine ⟨?_, ?_, ?_⟩
  · obtain ⟨m, e, _, hm, _, h⟩ := std
    exact ⟨m, e, hm, h⟩
  · intro w hw
    by_cases hne : w = R * 2 ^ E
    · rw [hne]
    rw [self, scale w]
    refine mul_le_mul_of_nonneg_right ?_ hE.le
    rcases cmp w hw hne with h | h
    · linarith
    · exact h.le
  · intro w hw hne heq
    rw [self, scale w] at heq
    have heq := mul_right_cancel₀ hE.ne' heq
    obtain ⟨m, e, h1, h2, h3, h4⟩ := std
    refine ⟨m, e, h1, h2, h3 ?_, h4⟩
    apply htie
    rcases cmp w hw hne with h | h <;> linarith

theorem nearest_self {x : ℚ} (h : IsSingle x) : IsNearest x x := by
  refine ⟨h, fun y _ => ?_, fun y _ hne heq => ?_⟩
  · rw [sub_self, abs_zero]; exact abs_nonneg _
  · rw [sub_self, abs_zero, abs_eq_zero, sub_eq_zero] at heq
    exact absurd heq.symm hne

theorem f32_nearest (x : Nat) : IsNearest x (f32 x) := by
  unfold f32
  split
  · rename_i h
    refine nearest_self ⟨x, 0, ?_, by simp⟩
    rw [abs_of_nonneg (by omega)]; omega
  · rename_i h
    have hx : x ≠ 0 := by omega
    have h0 : 24 ≤ x.log2 := (Nat.le_log2 hx).2 (by omega)
    have h1 := Nat.log2_self_le hx
    have h2 := Nat.lt_log2_self (n := x)
    simp only
    generalize x.log2 = g at *
    obtain ⟨e, rfl⟩ := Nat.exists_eq_add_of_le (show 23 ≤ g by omega)
    have e1 : 23 + e - 23 = e := by omega
    rw [e1]
    have := round_nearest (N := x) (y := 2 ^ e) (Nat.two_pow_pos e) (by rw [← Nat.pow_add, Nat.add_comm]; exact h1)
      (by rw [← Nat.pow_add]; refine Nat.lt_of_lt_of_eq h2 ?_; congr 1; omega) (e : ℤ)
    have e2 : ((x : ℚ) / ((2 ^ e : Nat) : ℚ)) * 2 ^ (e : ℤ) = x := by
      rw [zpow_natCast]; push_cast; field_simp
    rw [e2] at this
    rw [zpow_natCast] at this
    push_cast
    exact this

theorem scaled_code {e R : Nat} (h1 : 2 ^ 23 ≤ R) (h2 : R ≤ 2 ^ 24) : scaled (e * 2 ^ 23 + R) = R * 2 ^ e := by
  unfold scaled
  rcases Nat.lt_or_ge R (2 ^ 24) with h | h
  · have e1 : (e * 2 ^ 23 + R) % 2 ^ 23 = R - 2 ^ 23 := by omega
    have e2 : (e * 2 ^ 23 + R) / 2 ^ 23 = e + 1 := by omega
    rw [e1, e2, Nat.sub_add_cancel h1, Nat.add_sub_cancel]
  · have hR : R = 2 ^ 24 := by omega
    subst hR
    have e1 : (e * 2 ^ 23 + 2 ^ 24) % 2 ^ 23 = 0 := by omega
    have e2 : (e * 2 ^ 23 + 2 ^ 24) / 2 ^ 23 = e + 2 := by omega
    rw [e1, e2, Nat.zero_add, show e + 2 - 1 = e + 1 by omega, Nat.pow_succ 2 e]
    omega

theorem f32Div_scaled {a b : Nat} (hb : 0 < b) (hb' : 2 ^ 24 * b ≤ a * 2 ^ 128) :
    scaled (f32Div a b) = roundDiv (a * 2 ^ 128) (b * 2 ^ ((a * 2 ^ 128 / b).log2 - 23)) * 2 ^ ((a * 2 ^ 128 / b).log2 - 23) := by
  obtain ⟨h1, h2⟩ := exponent hb hb'
  have hy : 0 < b * 2 ^ ((a * 2 ^ 128 / b).log2 - 23) := Nat.mul_pos hb (Nat.two_pow_pos _)
  exact scaled_code (roundDiv_ge (by rw [Nat.mul_comm]; exact h1) hy) (roundDiv_le (by rw [Nat.mul_comm (2 ^ 24)]; exact h2) hy)

theorem f32Div_nearest {a b : Nat} (hb : 0 < b) (hb' : 2 ^ 24 * b ≤ a * 2 ^ 128) : IsNearest ((a : ℚ) / b) (value (f32Div a b)) := by
  unfold value
  rw [f32Div_scaled hb hb']
  obtain ⟨h1, h2⟩ := exponent hb hb'
  generalize (a * 2 ^ 128 / b).log2 - 23 = e at *
  have := round_nearest (Nat.mul_pos hb (Nat.two_pow_pos e)) h1 h2 ((e : ℤ) - 128)
  have hb0 : (b : ℚ) ≠ 0 := by exact_mod_cast hb.ne'
  have p : (2 : ℚ) ^ ((e : ℤ) - 128) = 2 ^ e / 2 ^ 128 := by
    rw [zpow_sub₀ (by norm_num), zpow_natCast]; norm_num
  rw [p] at this
  have e1 : (((a * 2 ^ 128 : Nat) : ℚ) / ((b * 2 ^ e : Nat) : ℚ)) * (2 ^ e / 2 ^ 128) = (a : ℚ) / b := by
    push_cast
    field_simp
    norm_num
  rw [e1] at this
  convert this using 1
  push_cast
  ring

theorem nearest_lt_absurd {x q q' : ℚ} (hx : 0 < x) (h : IsNearest x q) (h' : IsNearest x q') (hlt : q < q') : False := by
  have heq : |x - q| = |x - q'| := le_antisymm (h.nearest q' h'.single) (h'.nearest q h.single)
  have hmid : x - q = q' - x := by
    rcases abs_eq_abs.1 heq with h1 | h1 <;> linarith
  have between : ∀ y, IsSingle y → q < y → y < q' → False := by
    intro y hy h1 h2
    have := h.nearest y hy
    rw [abs_of_nonneg (show 0 ≤ x - q by linarith)] at this
    rcases le_abs.1 this with h3 | h3 <;> linarith
  obtain ⟨m, e, a1, a2, a3, a4⟩ := h.even q' h'.single hlt.ne' heq.symm
  obtain ⟨m', e', b1, b2, b3, b4⟩ := h'.even q h.single hlt.ne heq
  have hp : (0 : ℚ) < 2 ^ e := by positivity
  have hp' : (0 : ℚ) < 2 ^ e' := by positivity
  rcases le_or_gt m 0 with hm | hm
  · have hq : q < 0 := by
      have : m ≠ 0 := by rintro rfl; norm_num at a1
      have : (m : ℚ) < 0 := by exact_mod_cast (lt_of_le_of_ne hm this)
      rw [a4]; exact mul_neg_of_neg_of_pos this hp
    exact between 0 ⟨0, 0, by norm_num, by norm_num⟩ hq (by linarith)
  · have hm' : 0 < m' := by
      have h0 : 0 < q := by rw [a4]; exact mul_pos (by exact_mod_cast hm) hp
      by_contra hcon
      have : (m' : ℚ) ≤ 0 := by exact_mod_cast not_lt.1 hcon
      have : (m' : ℚ) * 2 ^ e' ≤ 0 := mul_nonpos_of_nonpos_of_nonneg this hp'.le
      linarith
    rw [abs_of_pos hm] at a1 a2
    rw [abs_of_pos hm'] at b1 b2
    refine between ((m + 1 : ℤ) * 2 ^ e) ⟨m + 1, e, by rw [abs_of_pos (by omega)]; omega, rfl⟩ ?_ ?_
    · rw [a4]
      refine mul_lt_mul_of_pos_right ?_ hp
      push_cast; linarith
    · rw [b4]
      rcases lt_trichotomy e e' with h1 | h1 | h1
      · obtain ⟨d, hd⟩ := Int.le.dest (show e + 1 ≤ e' by omega)
        have h3 : (1 : ℚ) ≤ 2 ^ d := one_le_pow₀ (by norm_num)
        have h4 : ((m + 1 : ℤ) : ℚ) < 2 ^ 24 := by exact_mod_cast (show m + 1 < 2 ^ 24 by omega)
        have h5 : (2 : ℚ) ^ 23 ≤ m' := by exact_mod_cast b1
        calc ((m + 1 : ℤ) : ℚ) * 2 ^ e < 2 ^ 24 * 2 ^ e := mul_lt_mul_of_pos_right h4 hp
          _ = 2 ^ 23 * (2 ^ e * 2 * 1) := by ring
          _ ≤ 2 ^ 23 * (2 ^ e * 2 * 2 ^ d) := by
            apply mul_le_mul_of_nonneg_left _ (by norm_num)
            exact mul_le_mul_of_nonneg_left h3 (by positivity)
          _ = 2 ^ 23 * 2 ^ e' := by rw [← hd, zpow_add₀ (by norm_num), zpow_add₀ (by norm_num), zpow_one, zpow_natCast]
          _ ≤ m' * 2 ^ e' := mul_le_mul_of_nonneg_right h5 hp'.le
      · subst h1
        have h2 : m < m' := by
          rw [a4, b4] at hlt
          exact_mod_cast lt_of_mul_lt_mul_right hlt hp.le
        refine mul_lt_mul_of_pos_right ?_ hp
        exact_mod_cast (show m + 1 < m' by omega)
      · exfalso
        obtain ⟨d, hd⟩ := Int.le.dest (show e' + 1 ≤ e by omega)
        have h3 : (1 : ℚ) ≤ 2 ^ d := one_le_pow₀ (by norm_num)
        have h4 : (m' : ℚ) < 2 ^ 24 := by exact_mod_cast b2
        have h5 : (2 : ℚ) ^ 23 ≤ m := by exact_mod_cast a1
        have : (m' : ℚ) * 2 ^ e' < m * 2 ^ e := by
          calc (m' : ℚ) * 2 ^ e' < 2 ^ 24 * 2 ^ e' := mul_lt_mul_of_pos_right h4 hp'
            _ = 2 ^ 23 * (2 ^ e' * 2 * 1) := by ring
            _ ≤ 2 ^ 23 * (2 ^ e' * 2 * 2 ^ d) := by
              apply mul_le_mul_of_nonneg_left _ (by norm_num)
              exact mul_le_mul_of_nonneg_left h3 (by positivity)
            _ = 2 ^ 23 * 2 ^ e := by rw [← hd, zpow_add₀ (by norm_num), zpow_add₀ (by norm_num), zpow_one, zpow_natCast]
            _ ≤ m * 2 ^ e := mul_le_mul_of_nonneg_right h5 hp.le
        rw [a4, b4] at hlt
        linarith

theorem nearest_unique {x q q' : ℚ} (hx : 0 < x) (h : IsNearest x q) (h' : IsNearest x q') : q = q' := by
  rcases lt_trichotomy q q' with h1 | h1 | h1
  · exact (nearest_lt_absurd hx h h' h1).elim
  · exact h1
  · exact (nearest_lt_absurd hx h' h h1).elim

theorem scaled_succ {r : Nat} (h : 2 ^ 23 ≤ r) : scaled r < scaled (r + 1) := by
  unfold scaled
  rcases Nat.lt_or_ge (r % 2 ^ 23 + 1) (2 ^ 23) with h1 | h1
  · have e1 : (r + 1) % 2 ^ 23 = r % 2 ^ 23 + 1 := by omega
    have e2 : (r + 1) / 2 ^ 23 = r / 2 ^ 23 := by omega
    rw [e1, e2]
    exact Nat.mul_lt_mul_of_pos_right (by omega) (Nat.two_pow_pos _)
  · have e1 : (r + 1) % 2 ^ 23 = 0 := by omega
    have e2 : (r + 1) / 2 ^ 23 = r / 2 ^ 23 + 1 := by omega
    have e3 : r % 2 ^ 23 = 2 ^ 23 - 1 := by omega
    obtain ⟨k, hk⟩ : ∃ k, r / 2 ^ 23 = k + 1 := ⟨r / 2 ^ 23 - 1, by omega⟩
    rw [e1, e2, e3, hk, Nat.add_sub_cancel, Nat.add_sub_cancel, Nat.pow_succ 2 k]
    have := Nat.two_pow_pos k
    generalize 2 ^ k = K at *
    omega

theorem scaled_lt {r r' : Nat} (h : 2 ^ 23 ≤ r) (hlt : r < r') : scaled r < scaled r' := by
  induction r' with
  | zero => omega
  | succ n ih =>
    rcases Nat.lt_or_ge r n with h1 | h1
    · exact Nat.lt_trans (ih h1) (scaled_succ (by omega))
    · have : r = n := by omega
      subst this; exact scaled_succ h

theorem f32Div_ge {a b : Nat} (hb : 0 < b) (hb' : 2 ^ 24 * b ≤ a * 2 ^ 128) : 2 ^ 23 ≤ f32Div a b := by
  have h1 := (exponent hb hb').1
  have hy : 0 < b * 2 ^ ((a * 2 ^ 128 / b).log2 - 23) := Nat.mul_pos hb (Nat.two_pow_pos _)
  have := roundDiv_ge (x := a * 2 ^ 128) (c := 2 ^ 23) (by rw [Nat.mul_comm (2 ^ 23)]; exact h1) hy
  unfold f32Div
  simp only
  omega

theorem value_lt_iff {r r' : Nat} (h : 2 ^ 23 ≤ r) (h' : 2 ^ 23 ≤ r') : r < r' ↔ value r < value r' := by
  have key : ∀ {r r' : Nat}, 2 ^ 23 ≤ r → r < r' → value r < value r' := by
    intro r r' h hlt
    unfold value
    refine div_lt_div_of_pos_right ?_ (by positivity)
    exact_mod_cast scaled_lt h hlt
  refine ⟨key h, fun hv => ?_⟩
  rcases Nat.lt_trichotomy r r' with h1 | h1 | h1
  · exact h1
  · subst h1; exact absurd hv (lt_irrefl _)
  · exact absurd (key h' h1) (not_lt.2 hv.le)

theorem f32Div_compare {a b c d : Nat} (ha : 0 < a) (hb : 0 < b) (hb' : b ≤ 2 ^ 104) (hc : 0 < c) (hd : 0 < d) (hd' : d ≤ 2 ^ 104) :
    f32Div a b < f32Div c d ↔ value (f32Div a b) < value (f32Div c d) :=
  value_lt_iff (f32Div_ge hb (range ha hb')) (f32Div_ge hd (range hc hd'))

/-! ### The error of one rounding -/

theorem nearest_error {x q : ℚ} (h : IsNearest x q) {N y : Nat} {E : ℤ} (hy : 0 < y) (h1 : y * 2 ^ 23 ≤ N) (h2 : N < y * 2 ^ 24) (hx : x = (N : ℚ) / y * 2 ^ E) :
    |x - q| ≤ x / 2 ^ 24 := by
  have hy' : (0 : ℚ) < y := by exact_mod_cast hy
  have hE : (0 : ℚ) < 2 ^ E := by positivity
  have hz : (2 : ℚ) ^ 23 ≤ (N : ℚ) / y := by
    rw [le_div_iff₀ hy', mul_comm]; exact_mod_cast h1
  have hN : 0 < N := Nat.lt_of_lt_of_le (Nat.mul_pos hy (by norm_num)) h1
  have hu : q = roundDiv N y * 2 ^ E := by
    refine nearest_unique (x := x) ?_ h ?_
    · rw [hx]; exact mul_pos (div_pos (by exact_mod_cast hN) hy') hE
    · rw [hx]; exact round_nearest hy h1 h2 E
  have e : x - q = ((N : ℚ) / y - roundDiv N y) * 2 ^ E := by rw [hx, hu]; ring
  rw [e, abs_mul, abs_of_pos hE, hx]
  have := round_half N y hy
  have : |(N : ℚ) / y - roundDiv N y| ≤ (N : ℚ) / y / 2 ^ 24 := by
    refine this.trans ?_
    rw [le_div_iff₀ (by norm_num)]
    linarith
  calc |(N : ℚ) / y - roundDiv N y| * 2 ^ E ≤ (N : ℚ) / y / 2 ^ 24 * 2 ^ E := mul_le_mul_of_nonneg_right this hE.le
    _ = _ := by ring

/-- A conversion from an integer changes it by at most one part in `2 ^ 24`. -/
theorem f32_error (x : Nat) : |(x : ℚ) - f32 x| ≤ x / 2 ^ 24 := by
  rcases Nat.lt_or_ge x (2 ^ 24) with h | h
  · rw [f32_small h, sub_self, abs_zero]; positivity
  · have hx : x ≠ 0 := by omega
    have h0 : 24 ≤ x.log2 := (Nat.le_log2 hx).2 (by omega)
    have h1 := Nat.log2_self_le hx
    have h2 := Nat.lt_log2_self (n := x)
    generalize x.log2 = g at *
    obtain ⟨e, rfl⟩ := Nat.exists_eq_add_of_le (show 23 ≤ g by omega)
    refine nearest_error (f32_nearest x) (N := x) (y := 2 ^ e) (E := e) (Nat.two_pow_pos e) (by rw [← Nat.pow_add, Nat.add_comm]; exact h1)
      (by rw [← Nat.pow_add]; refine Nat.lt_of_lt_of_eq h2 ?_; congr 1; omega) ?_
    rw [zpow_natCast]; push_cast; field_simp

/-- So does a division. -/
theorem f32Div_error {a b : Nat} (hb : 0 < b) (hb' : 2 ^ 24 * b ≤ a * 2 ^ 128) : |(a : ℚ) / b - value (f32Div a b)| ≤ (a : ℚ) / b / 2 ^ 24 := by
  obtain ⟨h1, h2⟩ := exponent hb hb'
  have hn := f32Div_nearest hb hb'
  generalize value (f32Div a b) = v at *
  generalize (a * 2 ^ 128 / b).log2 - 23 = e at *
  refine nearest_error hn (E := (e : ℤ) - 128) (Nat.mul_pos hb (Nat.two_pow_pos e)) h1 h2 ?_
  have hb0 : (b : ℚ) ≠ 0 := by exact_mod_cast hb.ne'
  rw [zpow_sub₀ (by norm_num), zpow_natCast]
  push_cast
  field_simp

/-! ### Consequences -/

theorem f32_low (x : Nat) : (x : ℚ) * (1 - 1 / 2 ^ 24) ≤ f32 x := by
  have := (abs_le.1 (f32_error x)).2
  linarith

theorem f32_high (x : Nat) : (f32 x : ℚ) ≤ x * (1 + 1 / 2 ^ 24) := by
  have := (abs_le.1 (f32_error x)).1
  linarith

theorem f32_pos {x : Nat} (h : 0 < x) : 0 < f32 x := by
  have h1 := f32_low x
  have h2 : (0 : ℚ) < x := by exact_mod_cast h
  have : (0 : ℚ) < f32 x := lt_of_lt_of_le (mul_pos h2 (by norm_num)) h1
  exact_mod_cast this

theorem f32_le_pow {x : Nat} (h : x < 2 ^ 64) : f32 x ≤ 2 ^ 104 := by
  have h1 := f32_high x
  have h2 : (x : ℚ) < 2 ^ 64 := by exact_mod_cast h
  have h3 : (f32 x : ℚ) ≤ 2 ^ 104 := by linarith
  exact_mod_cast h3

theorem nearest_mono {x y q r : ℚ} (hxy : x ≤ y) (h : IsNearest x q) (h' : IsNearest y r) (hx : 0 < x) : q ≤ r := by
  rcases hxy.eq_or_lt with he | hlt
  · subst he; exact (nearest_unique hx h h').le
  · by_contra hcon
    push Not at hcon
    have h1 := h.nearest r h'.single
    have h2 := h'.nearest q h.single
    have h1 := sq_le_sq.2 h1
    have h2 := sq_le_sq.2 h2
    nlinarith

theorem f32_mono {x y : Nat} (h : x ≤ y) : f32 x ≤ f32 y := by
  rcases Nat.eq_zero_or_pos x with h0 | h0
  · subst h0; exact Nat.zero_le _
  · have := nearest_mono (x := x) (y := y) (by exact_mod_cast h) (f32_nearest x) (f32_nearest y) (by exact_mod_cast h0)
    exact_mod_cast this

theorem value_pos (r : Nat) : 0 < value r := by
  unfold value scaled
  have : 0 < (r % 2 ^ 23 + 2 ^ 23) * 2 ^ (r / 2 ^ 23 - 1) := Nat.mul_pos (by omega) (Nat.two_pow_pos _)
  exact div_pos (by exact_mod_cast this) (by positivity)

theorem quotient_le_one {a b : Nat} (ha : 0 < a) (hb : 0 < b) (hb' : b ≤ 2 ^ 104) (h : a ≤ b) : value (f32Div a b) ≤ 1 := by
  have hb0 : (0 : ℚ) < b := by exact_mod_cast hb
  have h1 : (a : ℚ) / b ≤ 1 := by rw [div_le_one hb0]; exact_mod_cast h
  have h2 := (f32Div_nearest hb (range ha hb')).nearest 1 ⟨1, 0, by norm_num, by norm_num⟩
  rw [abs_sub_comm ((a : ℚ) / b) 1, abs_of_nonneg (show 0 ≤ 1 - (a : ℚ) / b by linarith)] at h2
  have := (abs_le.1 h2).1
  linarith

theorem gap_error {l u : Nat} (hlt : l < u) (hu : u < 2 ^ 64) : |value (f32Div (f32 (u - l)) (f32 u)) - (1 - (l : ℚ) / u)| ≤ 1 / 2 ^ 22 := by
  have hu0 : (0 : ℚ) < u := by exact_mod_cast (show 0 < u by omega)
  have hc : (0 : ℚ) < ((u - l : Nat) : ℚ) := by exact_mod_cast (show 0 < u - l by omega)
  have hcu : ((u - l : Nat) : ℚ) ≤ u := by exact_mod_cast (show u - l ≤ u by omega)
  have e : 1 - (l : ℚ) / u = ((u - l : Nat) : ℚ) / u := by
    rw [Nat.cast_sub hlt.le]; field_simp
  rw [e]
  have p1 := f32_pos (show 0 < u - l by omega)
  have p2 := f32_pos (show 0 < u by omega)
  have hd := f32Div_error p2 (range p1 (f32_le_pow hu))
  have hm : (f32 (u - l) : ℚ) ≤ f32 u := by exact_mod_cast f32_mono (show u - l ≤ u by omega)
  have q2 : (0 : ℚ) < f32 u := by exact_mod_cast p2
  have e1 := f32_error (u - l)
  have e2 := f32_error u
  have l2 := f32_low u
  generalize ((u - l : Nat) : ℚ) = c at *
  generalize (f32 (u - l) : ℚ) = c' at *
  generalize (f32 u : ℚ) = u' at *
  generalize value (f32Div (f32 (u - l)) (f32 u)) = q at *
  have s1 : |c' / u' - q| ≤ 1 / 2 ^ 24 := by
    refine hd.trans ?_
    rw [div_le_div_iff_of_pos_right (by norm_num), div_le_one q2]
    exact hm
  have s2 : |c' / u' - c / u| ≤ 3 / 2 ^ 24 := by
    have e3 : c' / u' - c / u = ((c' - c) * u + c * (u - u')) / (u' * u) := by field_simp; ring
    rw [e3, abs_div, abs_of_pos (mul_pos q2 hu0), div_le_iff₀ (mul_pos q2 hu0)]
    have a1 : |(c' - c) * u| ≤ c / 2 ^ 24 * u := by
      rw [abs_mul, abs_of_pos hu0, abs_sub_comm]
      exact mul_le_mul_of_nonneg_right e1 hu0.le
    have a2 : |c * (u - u')| ≤ c * (u / 2 ^ 24) := by
      rw [abs_mul, abs_of_pos hc]
      exact mul_le_mul_of_nonneg_left e2 hc.le
    have a3 := abs_add_le ((c' - c) * (u : ℚ)) (c * (u - u'))
    have a4 : c * u ≤ u * u := mul_le_mul_of_nonneg_right hcu hu0.le
    have a5 : (u : ℚ) * (1 - 1 / 2 ^ 24) * u ≤ u' * u := mul_le_mul_of_nonneg_right l2 hu0.le
    nlinarith
  have s3 : q - c / u = (c' / u' - c / u) - (c' / u' - q) := by ring
  rw [s3]
  refine (abs_sub _ _).trans ?_
  have : (3 : ℚ) / 2 ^ 24 + 1 / 2 ^ 24 = 1 / 2 ^ 22 := by norm_num
  linarith

end Verif.F32
