import Verif.Proofs.BitSet
/-! C02 (`BitSetIter`) and C03 (`LexBitSet`). -/
set_option autoImplicit false

namespace Verif.Props
open Verif Spec Proofs

/-- C02: iterating a bit set terminates; the yielded items are strictly increasing (hence without
repetition) and are exactly the members of the set. -/
theorem bitSetIter_enumerates (bs : BitSet) :
    ∃ l : List Nat, Yields (BitSetIter.new bs) l ∧ l.Pairwise (· < ·) ∧ ∀ i, i ∈ l ↔ BitMem bs i := by
  have hok : ItOk (BitSetIter.new bs) := by
    refine ⟨Nat.zero_le _, ?_⟩
    cases h : bs.buf <;> simp [BitSetIter.new, h]
  have hr : remaining (BitSetIter.new bs) = wordsFrom 0 bs.buf := by
    cases h : bs.buf <;> simp [BitSetIter.new, remaining, h, wordsFrom]
  refine ⟨_, yields_remaining _ hok, ?_, ?_⟩
  · rw [hr]; exact sorted_wordsFrom 0 bs.buf
  · intro i
    rw [hr, mem_wordsFrom]
    constructor
    · rintro ⟨j, rfl, h⟩
      simpa [BitMem] using h
    · intro h
      exact ⟨i, by omega, h⟩

/-- C02: the result of the iteration is unique (draining is deterministic), so the list of
`bitSetIter_enumerates` is *the* list of yielded items. -/
theorem bitSetIter_deterministic (it : BitSetIter) (l l' : List Nat)
    (h : Yields it l) (h' : Yields it l') : l = l' := by
  induction h generalizing l' with
  | done h1 => cases h' with
    | done _ => rfl
    | item h2 _ => rw [h1] at h2; cases h2
  | item h1 _ ih => cases h' with
    | done h2 => rw [h1] at h2; cases h2
    | item h2 h3 =>
      rw [h1] at h2
      cases h2
      rw [ih _ h3]

/-- C03: `cmp` returns `Less` exactly for the lexicographic order on bits from bit 0. -/
theorem lexBitSet_lt_iff (a b : BitSet) : LexBitSet.cmp a b = .lt ↔ LexLt a b := by
  constructor
  · intro h
    rcases cmp_spec a b with ⟨i, h1, h2, h3⟩ | ⟨-, h2⟩
    · have hb : bit b.buf i = true := by
        cases hb : bit b.buf i
        · rw [hb] at h3; rw [h] at h3; cases h3
        · rfl
      refine ⟨i, fun j hj => (iff_bits a b j).mpr (h1 j hj), ?_, (bitMem_iff b i).mpr hb⟩
      rw [bitMem_iff]; intro ha; exact h2 (ha.trans hb.symm)
    · rw [h] at h2; cases h2
  · rintro ⟨i, h1, h2, h3⟩
    rw [bitMem_iff] at h2 h3
    rcases cmp_spec a b with ⟨k, g1, g2, g3⟩ | ⟨g1, -⟩
    · have hik : i = k := by
        rcases Nat.lt_trichotomy i k with h | h | h
        · exact absurd ((g1 i h).trans h3) h2
        · exact h
        · exact absurd ((iff_bits a b k).mp (h1 k h)) g2
      subst hik
      rw [g3, h3]; rfl
    · exact absurd ((g1 i).trans h3) h2

/-- C03: `cmp` returns `Equal` exactly if the two sets have the same members. -/
theorem lexBitSet_eq_iff (a b : BitSet) : LexBitSet.cmp a b = .eq ↔ SameMembers a b := by
  constructor
  · intro h
    rcases cmp_spec a b with ⟨i, h1, h2, h3⟩ | ⟨h1, -⟩
    · rw [h] at h3; split at h3 <;> cases h3
    · exact fun i => (iff_bits a b i).mpr (h1 i)
  · intro h
    rcases cmp_spec a b with ⟨i, -, h2, -⟩ | ⟨-, h2⟩
    · exact absurd ((iff_bits a b i).mp (h i)) h2
    · exact h2

/-- C03: `cmp` returns `Greater` exactly for the converse of the lexicographic order. -/
theorem lexBitSet_gt_iff (a b : BitSet) : LexBitSet.cmp a b = .gt ↔ LexLt b a := by
  constructor
  · intro h
    rcases cmp_spec a b with ⟨i, h1, h2, h3⟩ | ⟨-, h2⟩
    · have hb : bit b.buf i = false := by
        cases hb : bit b.buf i
        · rfl
        · rw [hb] at h3; rw [h] at h3; cases h3
      refine ⟨i, fun j hj => ((iff_bits a b j).mpr (h1 j hj)).symm, ?_, ?_⟩
      · rw [bitMem_iff, hb]; simp
      · rw [bitMem_iff]
        cases ha : bit a.buf i
        · exact absurd (ha.trans hb.symm) h2
        · rfl
    · rw [h] at h2; cases h2
  · rintro ⟨i, h1, h2, h3⟩
    rw [bitMem_iff] at h2 h3
    have hb : bit b.buf i = false := by simpa using h2
    rcases cmp_spec a b with ⟨k, g1, g2, g3⟩ | ⟨g1, -⟩
    · have hik : i = k := by
        rcases Nat.lt_trichotomy i k with h | h | h
        · exact absurd ((g1 i h).symm.trans h3) h2
        · exact h
        · exact absurd ((iff_bits b a k).mp (h1 k h)).symm g2
      subst hik
      rw [g3, hb]; rfl
    · exact absurd ((g1 i).symm.trans h3) h2

/-- C03: antisymmetry, in the form required by Rust's `Ord`. -/
theorem lexBitSet_swap (a b : BitSet) : LexBitSet.cmp b a = (LexBitSet.cmp a b).swap := by
  cases h : LexBitSet.cmp a b with
  | lt => exact (lexBitSet_gt_iff b a).mpr ((lexBitSet_lt_iff a b).mp h)
  | gt => exact (lexBitSet_lt_iff b a).mpr ((lexBitSet_gt_iff a b).mp h)
  | eq => exact (lexBitSet_eq_iff b a).mpr fun i => ((lexBitSet_eq_iff a b).mp h i).symm

/-- C03: transitivity of `<`. -/
theorem lexBitSet_lt_trans (a b c : BitSet) (hab : LexBitSet.cmp a b = .lt)
    (hbc : LexBitSet.cmp b c = .lt) : LexBitSet.cmp a c = .lt := by
  rw [lexBitSet_lt_iff] at *
  obtain ⟨i, h1, h2, h3⟩ := hab
  obtain ⟨k, g1, g2, g3⟩ := hbc
  rcases Nat.lt_trichotomy i k with h | h | h
  · exact ⟨i, fun j hj => (h1 j hj).trans (g1 j (by omega)), h2, (g1 i h).mp h3⟩
  · subst h; exact absurd h3 g2
  · exact ⟨k, fun j hj => (h1 j (by omega)).trans (g1 j hj), fun hh => g2 ((h1 k h).mp hh), g3⟩

/-- C03: sets that compare `Equal` are interchangeable in every comparison. -/
theorem lexBitSet_eq_congr (a b c : BitSet) (hab : LexBitSet.cmp a b = .eq) :
    LexBitSet.cmp a c = LexBitSet.cmp b c := by
  have h := (lexBitSet_eq_iff a b).mp hab
  cases hc : LexBitSet.cmp b c with
  | lt =>
    obtain ⟨i, h1, h2, h3⟩ := (lexBitSet_lt_iff b c).mp hc
    exact (lexBitSet_lt_iff a c).mpr ⟨i, fun j hj => (h j).trans (h1 j hj), fun x => h2 ((h i).mp x), h3⟩
  | gt =>
    obtain ⟨i, h1, h2, h3⟩ := (lexBitSet_gt_iff b c).mp hc
    exact (lexBitSet_gt_iff a c).mpr ⟨i, fun j hj => (h1 j hj).trans (h j).symm, h2, (h i).mpr h3⟩
  | eq =>
    exact (lexBitSet_eq_iff a c).mpr fun i => (h i).trans ((lexBitSet_eq_iff b c).mp hc i)

/-- C03: `==` agrees with `cmp`, and `partial_cmp` is `Some(cmp)`. -/
theorem lexBitSet_eq_agrees (a b : BitSet) :
    (LexBitSet.eq a b = true ↔ LexBitSet.cmp a b = .eq) ∧
      LexBitSet.partialCmp a b = some (LexBitSet.cmp a b) := by
  refine ⟨?_, rfl⟩
  simp only [LexBitSet.eq, Bool.or_eq_true, decide_eq_true_eq]
  constructor
  · rintro (rfl | h)
    · exact (lexBitSet_eq_iff a a).mpr fun _ => Iff.rfl
    · exact h
  · exact Or.inr

-- non-vacuity: two bit sets of different length, first difference in bit 3, order decided there
-- although `a` has a later bit on (the example of the documentation of `LexBitSet`).
example : LexBitSet.cmp ⟨5, [0b10100#64]⟩ ⟨5, [0b01100#64]⟩ = .lt := by decide
example : LexBitSet.cmp ⟨70, [1#64, 1#64]⟩ ⟨5, [1#64]⟩ = .gt := by decide
example : BitMem ⟨70, [1#64, 2#64]⟩ 65 := ⟨2#64, by decide, by decide⟩

end Verif.Props
