import Verif.Spec.BitSet
/-! Helper lemmas about the bit set model. -/
set_option autoImplicit false

namespace Verif.Proofs
open Verif Spec

theorem mask_and_eq_zero (w : Word) (k : Nat) (hk : k < 64) :
    w &&& (1#64 <<< k) = 0 ↔ w.getLsbD k = false := by
  constructor
  · intro h
    have := congrArg (fun x => x.getLsbD k) h
    simpa [BitVec.getLsbD_and, hk] using this
  · intro h
    apply BitVec.eq_of_getLsbD_eq
    intro j hj
    simp only [BitVec.getLsbD_and, BitVec.getLsbD_shiftLeft, hj, decide_true, Bool.true_and]
    by_cases hjk : j = k
    · subst hjk; simp [h]
    · rcases Nat.lt_or_gt_of_ne hjk with h1 | h1
      · simp [h1]
      · have : j - k ≠ 0 := by omega
        simp [BitVec.getLsbD_one, this]

theorem shift_succ (k : Nat) : (1#64 <<< k) <<< 1 = 1#64 <<< (k + 1) := by
  rw [← BitVec.shiftLeft_add]

/-- The members of one word from a given offset on. -/
def bitsFrom (w : Word) (offset : Nat) : List Nat :=
  (List.range' offset (64 - offset)).filter (fun i => w.getLsbD i)

theorem bitsFrom_ge (w : Word) (o : Nat) (h : 64 ≤ o) : bitsFrom w o = [] := by
  have : 64 - o = 0 := by omega
  simp [bitsFrom, this]

theorem bitsFrom_lt (w : Word) (o : Nat) (h : o < 64) :
    bitsFrom w o = if w.getLsbD o then o :: bitsFrom w (o + 1) else bitsFrom w (o + 1) := by
  have : 64 - o = (64 - (o + 1)) + 1 := by omega
  simp only [bitsFrom, this, List.range'_succ, List.filter_cons]

theorem bitsFrom_zero (o : Nat) : bitsFrom 0 o = [] := by
  simp [bitsFrom]

theorem scan_spec (w : Word) (o : Nat) (h : o ≤ 64) :
    let s := BitSetIter.scan w (1#64 <<< o) o
    s ≤ 64 ∧ bitsFrom w o = if s < 64 then s :: bitsFrom w (s + 1) else [] := by
  generalize hm : (1#64 <<< o) = mask
  fun_induction BitSetIter.scan w mask o with
  | case1 mask o hc ih =>
    obtain ⟨h1, h2⟩ := hc
    subst hm
    have hb := (mask_and_eq_zero w o h2).mp h1
    rw [bitsFrom_lt w o h2, hb]
    exact ih (by omega) (shift_succ o).symm
  | case2 mask o hc =>
    subst hm
    by_cases ho : o < 64
    · have : w.getLsbD o = true := by
        by_cases hb : w.getLsbD o = false
        · exact absurd ⟨(mask_and_eq_zero w o ho).mpr hb, ho⟩ hc
        · simpa using hb
      rw [bitsFrom_lt w o ho]
      simp [this, ho]; omega
    · have ho' : o = 64 := by omega
      subst ho'
      exact ⟨Nat.le_refl _, by simpa using bitsFrom_ge w 64 (Nat.le_refl _)⟩

/-- The members of a list of words, the first of which starts at `base`. -/
def wordsFrom : Nat → List Word → List Nat
  | _, [] => []
  | base, w :: rest => (bitsFrom w 0).map (base + ·) ++ wordsFrom (base + 64) rest

/-- What remains to be yielded by an iterator state. -/
def remaining (it : BitSetIter) : List Nat :=
  match it.word with
  | none => []
  | some w => (bitsFrom w it.offset).map (it.base + ·) ++ wordsFrom (it.base + 64) it.iter

/-- Iterator states met in practice: an exhausted iterator has no words left. -/
def ItOk (it : BitSetIter) : Prop := it.offset ≤ 64 ∧ (it.word = none → it.iter = [])

theorem remaining_advance (it : BitSetIter) (b : Nat) :
    remaining { iter := it.iter.tail, word := it.iter.head?, base := b, offset := 0 } =
      wordsFrom b it.iter := by
  cases h : it.iter <;> simp [remaining, wordsFrom]

theorem next_spec (it : BitSetIter) (hok : ItOk it) :
    match remaining it with
    | [] => it.next = none
    | x :: l => ∃ it', it.next = some (x, it') ∧ remaining it' = l ∧ ItOk it' := by
  fun_induction BitSetIter.next it with
  | case1 it h => simp [remaining, h]
  | case2 it w h hc ih =>
    have hr : remaining it = wordsFrom (it.base + 64) it.iter := by
      simp only [remaining, h]
      rcases hc with hc | hc
      · have h0 := bitsFrom_zero it.offset
        subst hc; rw [h0]; rfl
      · simp [bitsFrom_ge w it.offset hc]
    rw [remaining_advance] at ih
    rw [hr]
    apply ih
    refine ⟨Nat.zero_le _, ?_⟩
    cases it.iter <;> simp
  | case3 it w h hc off hlt =>
    have hs := scan_spec w it.offset hok.1
    simp only [remaining, h]
    have hlt' : BitSetIter.scan w (1#64 <<< it.offset) it.offset < 64 := hlt
    rw [hs.2, if_pos hlt']
    simp only [List.map_cons, List.cons_append]
    exact ⟨_, rfl, by simp [off], ⟨by simp only; omega, by simp [h]⟩⟩
  | case4 it w h hc off hlt ih =>
    have hs := scan_spec w it.offset hok.1
    have hlt' : ¬ BitSetIter.scan w (1#64 <<< it.offset) it.offset < 64 := hlt
    have h64 : off = 64 := by
      have h1 := hs.1
      have h2 : off = BitSetIter.scan w (1#64 <<< it.offset) it.offset := rfl
      omega
    have hr : remaining it = remaining { it with offset := off } := by
      simp only [remaining, h]
      rw [hs.2, if_neg hlt', bitsFrom_ge w off (by omega)]
    rw [hr]
    apply ih
    exact ⟨by simp only; omega, by simp [h]⟩

theorem yields_remaining (it : BitSetIter) (hok : ItOk it) : Yields it (remaining it) := by
  generalize hl : remaining it = l
  induction l generalizing it with
  | nil =>
    have := next_spec it hok
    rw [hl] at this
    exact .done this
  | cons x l ih =>
    have := next_spec it hok
    rw [hl] at this
    obtain ⟨it', h1, h2, h3⟩ := this
    exact .item h1 (ih it' h3 h2)

theorem mem_wordsFrom (base : Nat) (ws : List Word) (x : Nat) :
    x ∈ wordsFrom base ws ↔ ∃ i, x = base + i ∧ ∃ w, ws[i / 64]? = some w ∧ w.getLsbD (i % 64) = true := by
  induction ws generalizing base with
  | nil => simp [wordsFrom]
  | cons w ws ih =>
    simp only [wordsFrom, List.mem_append, List.mem_map, ih, bitsFrom, List.mem_filter,
      List.mem_range']
    constructor
    · rintro (⟨a, ⟨⟨i, hi, rfl⟩, hb⟩, rfl⟩ | ⟨i, rfl, v, h1, h2⟩)
      · refine ⟨0 + 1 * i, rfl, w, ?_, ?_⟩
        · have : (0 + 1 * i) / 64 = 0 := by omega
          rw [this]; rfl
        · have : (0 + 1 * i) % 64 = 0 + 1 * i := by omega
          rw [this]; exact hb
      · refine ⟨64 + i, by omega, v, ?_, ?_⟩
        · have : (64 + i) / 64 = i / 64 + 1 := by omega
          rw [this]; simpa using h1
        · have : (64 + i) % 64 = i % 64 := by omega
          rw [this]; exact h2
    · rintro ⟨i, rfl, v, h1, h2⟩
      by_cases hi : i < 64
      · left
        have hd : i / 64 = 0 := by omega
        have hm : i % 64 = i := by omega
        rw [hd] at h1; rw [hm] at h2
        simp at h1; subst h1
        exact ⟨i, ⟨⟨i, by omega, by omega⟩, h2⟩, rfl⟩
      · right
        refine ⟨i - 64, by omega, v, ?_, ?_⟩
        · have : i / 64 = (i - 64) / 64 + 1 := by omega
          rw [this] at h1; simpa using h1
        · have : (i - 64) % 64 = i % 64 := by omega
          rw [this]; exact h2

theorem sorted_wordsFrom (base : Nat) (ws : List Word) :
    (wordsFrom base ws).Pairwise (· < ·) := by
  induction ws generalizing base with
  | nil => simp [wordsFrom]
  | cons w ws ih =>
    simp only [wordsFrom, List.pairwise_append]
    refine ⟨?_, ih _, ?_⟩
    · rw [List.pairwise_map]
      have : (bitsFrom w 0).Pairwise (· < ·) :=
        List.Pairwise.filter _ (List.pairwise_lt_range' ..)
      exact this.imp (by intros; omega)
    · intro a ha b hb
      simp only [List.mem_map, bitsFrom, List.mem_filter, List.mem_range'] at ha
      obtain ⟨c, ⟨⟨i, hi, rfl⟩, -⟩, rfl⟩ := ha
      rw [mem_wordsFrom] at hb
      obtain ⟨j, rfl, -⟩ := hb
      omega

/-! ### `LexBitSet` -/

theorem mask_and_ne (x y : Word) (k : Nat) (hk : k < 64) :
    (x &&& (1#64 <<< k) ≠ y &&& (1#64 <<< k)) ↔ x.getLsbD k ≠ y.getLsbD k := by
  apply not_congr
  constructor
  · intro h
    have := congrArg (fun x => x.getLsbD k) h
    simpa [BitVec.getLsbD_and, hk] using this
  · intro h
    apply BitVec.eq_of_getLsbD_eq
    intro j hj
    simp only [BitVec.getLsbD_and, BitVec.getLsbD_shiftLeft, hj, decide_true, Bool.true_and]
    by_cases hjk : j = k
    · subst hjk; rw [h]
    · rcases Nat.lt_or_gt_of_ne hjk with h1 | h1
      · simp [h1]
      · have : j - k ≠ 0 := by omega
        simp [BitVec.getLsbD_one, this]

theorem compare_masked (x y : Word) (k : Nat) (hk : k < 64) (hne : x.getLsbD k ≠ y.getLsbD k) :
    compare (x &&& (1#64 <<< k)).toNat (y &&& (1#64 <<< k)).toNat =
      if y.getLsbD k then .lt else .gt := by
  cases hx : x.getLsbD k <;> cases hy : y.getLsbD k
  · simp [hx, hy] at hne
  · have h0 := (mask_and_eq_zero x k hk).mpr hx
    have h1 : y &&& (1#64 <<< k) ≠ 0 := by
      intro h; rw [(mask_and_eq_zero y k hk).mp h] at hy; cases hy
    rw [h0]
    have : (y &&& (1#64 <<< k)).toNat ≠ 0 := fun h => h1 (BitVec.eq_of_toNat_eq (by simpa using h))
    rw [Nat.compare_eq_lt.mpr (by simpa using Nat.pos_of_ne_zero this)]; rfl
  · have h0 := (mask_and_eq_zero y k hk).mpr hy
    have h1 : x &&& (1#64 <<< k) ≠ 0 := by
      intro h; rw [(mask_and_eq_zero x k hk).mp h] at hx; cases hx
    rw [h0]
    have : (x &&& (1#64 <<< k)).toNat ≠ 0 := fun h => h1 (BitVec.eq_of_toNat_eq (by simpa using h))
    rw [Nat.compare_eq_gt.mpr (by simpa using Nat.pos_of_ne_zero this)]; rfl
  · simp [hx, hy] at hne

theorem cmpBits_spec (n k : Nat) (x y : Word) (hn : n + k = 64) :
    (∃ i, k ≤ i ∧ i < 64 ∧ (∀ j, k ≤ j → j < i → x.getLsbD j = y.getLsbD j) ∧
        x.getLsbD i ≠ y.getLsbD i ∧
        LexBitSet.cmpBits n (1#64 <<< k) x y = some (if y.getLsbD i then .lt else .gt)) ∨
      ((∀ j, k ≤ j → j < 64 → x.getLsbD j = y.getLsbD j) ∧
        LexBitSet.cmpBits n (1#64 <<< k) x y = none) := by
  induction n generalizing k with
  | zero => right; exact ⟨by intros; omega, rfl⟩
  | succ n ih =>
    have hk : k < 64 := by omega
    by_cases hne : x.getLsbD k = y.getLsbD k
    · have : ¬ (x &&& (1#64 <<< k) ≠ y &&& (1#64 <<< k)) := by
        rw [mask_and_ne x y k hk]; simp [hne]
      simp only [LexBitSet.cmpBits, this, if_false, shift_succ]
      rcases ih (k + 1) (by omega) with ⟨i, h1, h2, h3, h4, h5⟩ | ⟨h1, h2⟩
      · left
        refine ⟨i, by omega, h2, ?_, h4, h5⟩
        intro j hj hji
        by_cases hjk : j = k
        · subst hjk; exact hne
        · exact h3 j (by omega) hji
      · right
        refine ⟨?_, h2⟩
        intro j hj hji
        by_cases hjk : j = k
        · subst hjk; exact hne
        · exact h1 j (by omega) hji
    · left
      refine ⟨k, Nat.le_refl _, hk, by intros; omega, hne, ?_⟩
      have h' := (mask_and_ne x y k hk).mpr hne
      simp only [LexBitSet.cmpBits, h', if_true, ne_eq, not_false_eq_true, compare_masked x y k hk hne]

/-- Bit `i` of a list of words, zero beyond the end. -/
def bit (ws : List Word) (i : Nat) : Bool := (ws[i / 64]?.getD 0).getLsbD (i % 64)

theorem bitMem_iff (bs : BitSet) (i : Nat) : BitMem bs i ↔ bit bs.buf i = true := by
  unfold BitMem bit
  cases h : bs.buf[i / 64]? <;> simp

theorem bit_small (ws : List Word) (i : Nat) (h : i < 64) : bit ws i = (ws.head?.getD 0).getLsbD i := by
  have h1 : i / 64 = 0 := by omega
  have h2 : i % 64 = i := by omega
  cases ws <;> simp [bit, h1, h2]

theorem bit_shift (ws : List Word) (i : Nat) : bit ws (i + 64) = bit ws.tail i := by
  have h1 : (i + 64) / 64 = i / 64 + 1 := by omega
  have h2 : (i + 64) % 64 = i % 64 := by omega
  cases ws <;> simp [bit, h1, h2]

theorem bit_nil (i : Nat) : bit [] i = false := by simp [bit]

theorem cmpWords_spec (n : Nat) (x y : List Word) (hx : x.length ≤ n) (hy : y.length ≤ n) :
    (∃ i, (∀ j, j < i → bit x j = bit y j) ∧ bit x i ≠ bit y i ∧
        LexBitSet.cmpWords n x y = if bit y i then .lt else .gt) ∨
      ((∀ i, bit x i = bit y i) ∧ LexBitSet.cmpWords n x y = .eq) := by
  induction n generalizing x y with
  | zero =>
    right
    have hx' : x = [] := List.length_eq_zero_iff.mp (by omega)
    have hy' : y = [] := List.length_eq_zero_iff.mp (by omega)
    subst hx'; subst hy'
    exact ⟨fun _ => rfl, rfl⟩
  | succ n ih =>
    have hstep : (∀ j, j < 64 → (x.head?.getD 0).getLsbD j = (y.head?.getD 0).getLsbD j) →
        LexBitSet.cmpWords (n + 1) x y = LexBitSet.cmpWords n x.tail y.tail →
        (∃ i, (∀ j, j < i → bit x j = bit y j) ∧ bit x i ≠ bit y i ∧
          LexBitSet.cmpWords (n + 1) x y = if bit y i then .lt else .gt) ∨
        ((∀ i, bit x i = bit y i) ∧ LexBitSet.cmpWords (n + 1) x y = .eq) := by
      intro hw heq
      rw [heq]
      rcases ih x.tail y.tail (by simp; omega) (by simp; omega) with ⟨i, h1, h2, h3⟩ | ⟨h1, h2⟩
      · left
        refine ⟨i + 64, ?_, by simpa [bit_shift] using h2, by simpa [bit_shift] using h3⟩
        intro j hj
        by_cases hj64 : j < 64
        · rw [bit_small _ _ hj64, bit_small _ _ hj64]; exact hw j hj64
        · have := h1 (j - 64) (by omega)
          rw [← bit_shift, ← bit_shift] at this
          have e : j - 64 + 64 = j := by omega
          rwa [e] at this
      · right
        refine ⟨?_, h2⟩
        intro j
        by_cases hj64 : j < 64
        · rw [bit_small _ _ hj64, bit_small _ _ hj64]; exact hw j hj64
        · have := h1 (j - 64)
          rw [← bit_shift, ← bit_shift] at this
          have e : j - 64 + 64 = j := by omega
          rwa [e] at this
    by_cases hne : x.head?.getD 0 = y.head?.getD 0
    · apply hstep (fun j _ => by rw [hne])
      simp only [LexBitSet.cmpWords, hne, ne_eq, not_true_eq_false, if_false]
    · have h1 : (1 : Word) = 1#64 <<< 0 := by decide
      rcases cmpBits_spec 64 0 (x.head?.getD 0) (y.head?.getD 0) (by omega) with
        ⟨i, -, h64, heq, hd, hc⟩ | ⟨heq, hc⟩
      · left
        refine ⟨i, ?_, ?_, ?_⟩
        · intro j hj
          rw [bit_small _ _ (by omega), bit_small _ _ (by omega)]
          exact heq j (Nat.zero_le _) hj
        · rw [bit_small _ _ h64, bit_small _ _ h64]; exact hd
        · rw [bit_small _ _ h64]
          rw [← h1] at hc
          simp only [LexBitSet.cmpWords, ne_eq, hne, not_false_eq_true, if_true, hc]
      · exact absurd (BitVec.eq_of_getLsbD_eq fun j hj => heq j (Nat.zero_le _) hj) hne

theorem cmp_spec (a b : BitSet) :
    (∃ i, (∀ j, j < i → bit a.buf j = bit b.buf j) ∧ bit a.buf i ≠ bit b.buf i ∧
        LexBitSet.cmp a b = if bit b.buf i then .lt else .gt) ∨
      ((∀ i, bit a.buf i = bit b.buf i) ∧ LexBitSet.cmp a b = .eq) :=
  cmpWords_spec _ _ _ (Nat.le_max_left ..) (Nat.le_max_right ..)

theorem iff_bits (a b : BitSet) (j : Nat) :
    (BitMem a j ↔ BitMem b j) ↔ bit a.buf j = bit b.buf j := by
  rw [bitMem_iff, bitMem_iff]; exact Bool.eq_iff_iff.symm

end Verif.Proofs
