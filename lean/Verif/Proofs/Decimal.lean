import Verif.Proofs.F32
import Verif.Model.Readers
/-! Decimal fractions read in single precision, multiplied by 10000 and truncated. -/
set_option autoImplicit false

namespace Verif.Read
open F32

theorem pow_range {k : Nat} (hk : k ≤ 31) : 10 ^ k ≤ 2 ^ 104 :=
  Nat.le_trans (Nat.pow_le_pow_right (by norm_num) hk) (by norm_num)

theorem scaled_big (r : Nat) : 2 ^ 23 ≤ scaled r := by
  unfold scaled
  calc 2 ^ 23 ≤ (r % 2 ^ 23 + 2 ^ 23) * 1 := by omega
    _ ≤ _ := Nat.mul_le_mul_left _ (Nat.two_pow_pos _)

theorem product_range (r : Nat) : 2 ^ 24 * 2 ^ 128 ≤ scaled r * 10000 * 2 ^ 128 := by
  have := scaled_big r
  exact Nat.mul_le_mul_right _ (by omega)

/-- The number before it is truncated -/
def product (n k : Nat) : ℚ := value (f32Div (scaled (f32Div n (10 ^ k)) * 10000) (2 ^ 128))

theorem product_nearest (n k : Nat) : IsNearest (value (f32Div n (10 ^ k)) * 10000) (product n k) := by
  have := f32Div_nearest (Nat.two_pow_pos 128) (product_range (f32Div n (10 ^ k)))
  unfold product
  convert this using 1
  unfold value
  push_cast
  ring

theorem product_error (n k : Nat) : |value (f32Div n (10 ^ k)) * 10000 - product n k| ≤ value (f32Div n (10 ^ k)) * 10000 / 2 ^ 24 := by
  have := f32Div_error (Nat.two_pow_pos 128) (product_range (f32Div n (10 ^ k)))
  have e : (((scaled (f32Div n (10 ^ k)) * 10000 : Nat) : ℚ)) / ((2 ^ 128 : Nat) : ℚ) = value (f32Div n (10 ^ k)) * 10000 := by
    unfold value
    push_cast
    ring
  rw [e] at this
  exact this

theorem trunc_iff (r m : Nat) : scaled r / 2 ^ 128 = m ↔ (m : ℚ) ≤ value r ∧ value r < m + 1 := by
  unfold value
  have hp : (0 : ℚ) < 2 ^ 128 := by positivity
  rw [le_div_iff₀ hp, div_lt_iff₀ hp]
  have h1 : (m : ℚ) * 2 ^ 128 ≤ (scaled r : ℚ) ↔ m * 2 ^ 128 ≤ scaled r := by
    rw [← Nat.cast_le (α := ℚ)]; push_cast; rfl
  have h2 : (scaled r : ℚ) < ((m : ℚ) + 1) * 2 ^ 128 ↔ scaled r < (m + 1) * 2 ^ 128 := by
    rw [← Nat.cast_lt (α := ℚ)]; push_cast; rfl
  rw [h1, h2]
  generalize scaled r = q
  generalize hb : (2 : Nat) ^ 128 = b
  have hb0 : 0 < b := by rw [← hb]; exact Nat.two_pow_pos _
  constructor
  · rintro rfl
    exact ⟨Nat.div_mul_le_self _ _, by rw [Nat.mul_comm]; exact Nat.lt_mul_div_succ _ hb0⟩
  · rintro ⟨h3, h4⟩
    exact Nat.div_eq_of_lt_le h3 h4

theorem tenThousandths_eq {n k : Nat} (hn : 0 < n) : tenThousandths n k = min Text.usizeMax (scaled (f32Div (scaled (f32Div n (10 ^ k)) * 10000) (2 ^ 128)) / 2 ^ 128) := by
  unfold tenThousandths
  rw [if_neg (by omega)]

theorem close_aux {v N P : ℚ} (h1 : 1 ≤ N) (h2 : N ≤ 2 ^ 23 - 1) (e1 : |N / 10000 - v| ≤ N / 10000 / 2 ^ 24) (e2 : |v * 10000 - P| ≤ v * 10000 / 2 ^ 24) : N - 1 < P ∧ P < N + 1 := by
  obtain ⟨a1, a2⟩ := abs_le.1 e1
  obtain ⟨b1, b2⟩ := abs_le.1 e2
  norm_num at *
  constructor <;> linarith

theorem value_le {r r' : Nat} (h : value r ≤ value r') : scaled r ≤ scaled r' := by
  unfold value at h
  have hp : (0 : ℚ) < 2 ^ 128 := by positivity
  rw [div_le_div_iff_of_pos_right hp] at h
  exact_mod_cast h

/-- A number with an exact value below 2 ^ 23 is read as this value, or as one less. -/
theorem tenThousandths_close {n k N : Nat} (hk : k ≤ 31) (hN : N * 10 ^ k = n * 10000) (hlt : N < 2 ^ 23) : tenThousandths n k = N ∨ tenThousandths n k + 1 = N := by
  by_cases hn : n = 0
  · subst hn
    left
    have : N = 0 := by
      simp only [Nat.zero_mul, Nat.mul_eq_zero] at hN
      rcases hN with h | h
      · exact h
      · exact absurd h (by positivity)
    subst this
    simp [tenThousandths]
  have hn : 0 < n := Nat.pos_of_ne_zero hn
  have hp : 0 < 10 ^ k := by positivity
  have e1 := f32Div_error hp (range hn (pow_range hk))
  have e2 := product_error n k
  have hx : (n : ℚ) / ((10 ^ k : Nat) : ℚ) = N / 10000 := by
    rw [div_eq_div_iff (by exact_mod_cast hp.ne') (by norm_num)]
    exact_mod_cast hN.symm
  rw [hx] at e1
  have hN1 : 1 ≤ N := by
    rcases Nat.eq_zero_or_pos N with h | h
    · subst h; simp at hN; omega
    · exact h
  have hN0 : (1 : ℚ) ≤ N := by exact_mod_cast hN1
  have hN2 : (N : ℚ) ≤ 2 ^ 23 - 1 := by
    have : N + 1 ≤ 2 ^ 23 := hlt
    have : ((N + 1 : Nat) : ℚ) ≤ ((2 ^ 23 : Nat) : ℚ) := by exact_mod_cast this
    push_cast at this ⊢
    linarith
  obtain ⟨lower, upper⟩ := close_aux hN0 hN2 e1 e2
  rw [tenThousandths_eq hn]
  have hres : scaled (f32Div (scaled (f32Div n (10 ^ k)) * 10000) (2 ^ 128)) / 2 ^ 128 = N ∨ scaled (f32Div (scaled (f32Div n (10 ^ k)) * 10000) (2 ^ 128)) / 2 ^ 128 = N - 1 := by
    rcases le_or_gt (N : ℚ) (product n k) with h | h
    · left; rw [trunc_iff]; exact ⟨h, upper⟩
    · right; rw [trunc_iff]
      have e : ((N - 1 : Nat) : ℚ) = (N : ℚ) - 1 := by rw [Nat.cast_sub hN1, Nat.cast_one]
      rw [e]
      exact ⟨le_of_lt lower, by rw [sub_add_cancel]; exact h⟩
  have hmax : N ≤ Text.usizeMax := by unfold Text.usizeMax; omega
  rcases hres with h | h
  · left; rw [h]; exact Nat.min_eq_right hmax
  · right; rw [h, Nat.min_eq_right (by omega)]; omega

/-- Larger numbers are read with a small relative error, and possibly as one less because of the truncation. -/
theorem tenThousandths_error {n k : Nat} (hk : k ≤ 31) (hlt : n < 2 ^ 48 * 10 ^ k) :
    |(tenThousandths n k : ℚ) - n * 10000 / 10 ^ k| ≤ n * 10000 / 10 ^ k / 2 ^ 22 + 1 := by
  by_cases hn : n = 0
  · subst hn; simp [tenThousandths]
  have hn : 0 < n := Nat.pos_of_ne_zero hn
  have hp : 0 < 10 ^ k := by positivity
  have e1 := f32Div_error hp (range hn (pow_range hk))
  have e2 := product_error n k
  push_cast at e1
  have hx : (n : ℚ) * 10000 / 10 ^ k = (n : ℚ) / 10 ^ k * 10000 := by ring
  rw [hx]
  have hx1 : 0 < (n : ℚ) / 10 ^ k := by
    have : (0 : ℚ) < n := by exact_mod_cast hn
    positivity
  have hx2 : (n : ℚ) / 10 ^ k < 2 ^ 48 := by
    rw [div_lt_iff₀ (by positivity)]
    exact_mod_cast hlt
  generalize (n : ℚ) / 10 ^ k = x at *
  generalize value (f32Div n (10 ^ k)) = v at *
  obtain ⟨a1, a2⟩ := abs_le.1 e1
  obtain ⟨b1, b2⟩ := abs_le.1 e2
  obtain ⟨c1, c2⟩ := (trunc_iff (f32Div (scaled (f32Div n (10 ^ k)) * 10000) (2 ^ 128)) _).1 rfl
  have ep : value (f32Div (scaled (f32Div n (10 ^ k)) * 10000) (2 ^ 128)) = product n k := rfl
  rw [ep] at c1 c2
  have hle : scaled (f32Div (scaled (f32Div n (10 ^ k)) * 10000) (2 ^ 128)) / 2 ^ 128 ≤ Text.usizeMax := by
    have h1 : product n k < 2 ^ 63 := by norm_num at *; linarith
    have h2 : ((scaled (f32Div (scaled (f32Div n (10 ^ k)) * 10000) (2 ^ 128)) / 2 ^ 128 : Nat) : ℚ) < ((2 ^ 63 : Nat) : ℚ) := by
      push_cast at c1 ⊢; linarith
    have h3 := Nat.cast_lt.1 h2
    unfold Text.usizeMax; omega
  rw [tenThousandths_eq hn, Nat.min_eq_right hle]
  generalize scaled (f32Div (scaled (f32Div n (10 ^ k)) * 10000) (2 ^ 128)) / 2 ^ 128 = T at *
  rw [abs_le]
  norm_num at *
  constructor <;> linarith

/-- Numbers are read in order. -/
theorem tenThousandths_mono {n k n' k' : Nat} (hk : k ≤ 31) (hk' : k' ≤ 31) (h : n * 10 ^ k' ≤ n' * 10 ^ k) : tenThousandths n k ≤ tenThousandths n' k' := by
  by_cases hn : n = 0
  · subst hn; simp [tenThousandths]
  have hn : 0 < n := Nat.pos_of_ne_zero hn
  have hp : 0 < 10 ^ k := by positivity
  have hp' : 0 < 10 ^ k' := by positivity
  have hn' : 0 < n' := by
    rcases Nat.eq_zero_or_pos n' with h0 | h0
    · subst h0
      have : 0 < n * 10 ^ k' := Nat.mul_pos hn hp'
      omega
    · exact h0
  have m1 : value (f32Div n (10 ^ k)) ≤ value (f32Div n' (10 ^ k')) := by
    refine nearest_mono ?_ (f32Div_nearest hp (range hn (pow_range hk))) (f32Div_nearest hp' (range hn' (pow_range hk'))) ?_
    · rw [div_le_div_iff₀ (by exact_mod_cast hp) (by exact_mod_cast hp')]
      exact_mod_cast h
    · have h1 : (0 : ℚ) < n := by exact_mod_cast hn
      have h2 : (0 : ℚ) < ((10 ^ k : Nat) : ℚ) := by exact_mod_cast hp
      positivity
  have m2 : product n k ≤ product n' k' := by
    refine nearest_mono ?_ (product_nearest n k) (product_nearest n' k') ?_
    · linarith
    · have := value_pos (f32Div n (10 ^ k)); linarith
  rw [tenThousandths_eq hn, tenThousandths_eq hn']
  exact min_le_min (le_refl _) (Nat.div_le_div_right (value_le m2))

/-- A number is read exactly if it is a single precision number and its ten thousandfold is another one. -/
theorem tenThousandths_exact {n k N : Nat} (hk : k ≤ 31) (hN : N * 10 ^ k = n * 10000) (hs : IsSingle ((n : ℚ) / 10 ^ k)) (hs' : IsSingle (N : ℚ)) (hlt : N < 2 ^ 64) : tenThousandths n k = N := by
  by_cases hn : n = 0
  · subst hn
    have : N = 0 := by
      simp only [Nat.zero_mul, Nat.mul_eq_zero] at hN
      rcases hN with h | h
      · exact h
      · exact absurd h (by positivity)
    subst this
    simp [tenThousandths]
  have hn : 0 < n := Nat.pos_of_ne_zero hn
  have hp : 0 < 10 ^ k := by positivity
  have hx : (n : ℚ) / 10 ^ k * 10000 = N := by
    have hp' : (10 : ℚ) ^ k ≠ 0 := by positivity
    have h : (N : ℚ) * 10 ^ k = n * 10000 := by exact_mod_cast hN
    rw [div_mul_eq_mul_div, div_eq_iff hp', h]
  have hx1 : 0 < (n : ℚ) / 10 ^ k := by
    have : (0 : ℚ) < n := by exact_mod_cast hn
    positivity
  have h1 := f32Div_nearest hp (range hn (pow_range hk))
  push_cast at h1
  have h2 : value (f32Div n (10 ^ k)) = (n : ℚ) / 10 ^ k := nearest_unique hx1 h1 (nearest_self hs)
  have h3 := product_nearest n k
  rw [h2, hx] at h3
  have h4 : product n k = N := nearest_unique (by rw [← hx]; linarith) h3 (nearest_self hs')
  rw [tenThousandths_eq hn]
  have h5 := (trunc_iff (f32Div (scaled (f32Div n (10 ^ k)) * 10000) (2 ^ 128)) N).2 (by
    have ep : value (f32Div (scaled (f32Div n (10 ^ k)) * 10000) (2 ^ 128)) = product n k := rfl
    rw [ep, h4]; exact ⟨le_refl _, by linarith⟩)
  rw [h5]
  exact Nat.min_eq_right (by unfold Text.usizeMax; omega)

theorem tenThousandths_integer {n : Nat} (h : 625 * n < 2 ^ 24) : tenThousandths n 0 = 10000 * n := by
  refine tenThousandths_exact (by norm_num) (by ring) ⟨n, 0, ?_, by norm_num⟩ ⟨625 * n, 4, ?_, by push_cast; ring⟩ (by omega)
  · rw [abs_of_nonneg (by positivity)]; omega
  · rw [abs_of_nonneg (by positivity)]; omega

end Verif.Read
