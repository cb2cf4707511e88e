import Verif.Spec.Text
/-! What the reading functions make of lines that are written as they should be. -/
set_option autoImplicit false

namespace Verif.Text

/-! ### Words -/

theorem split_ne_nil (p : Char → Bool) (l : List Char) : split p l ≠ [] := by
  cases l with
  | nil => simp [split]
  | cons c l =>
    unfold split
    split
    · simp
    · split <;> simp

theorem words_nil (p : Char → Bool) : words p [] = [] := rfl

theorem words_sep {p : Char → Bool} {c : Char} (h : p c = true) (l : List Char) : words p (c :: l) = words p l := by
  unfold words
  rw [split, if_pos h]
  rfl

theorem words_gap {p : Char → Bool} {g : List Char} (h : ∀ c ∈ g, p c = true) (l : List Char) : words p (g ++ l) = words p l := by
  induction g with
  | nil => rfl
  | cons c g ih =>
    rw [List.cons_append, words_sep (h c (by simp))]
    exact ih fun c hc => h c (by simp [hc])

theorem split_token {p : Char → Bool} {t : List Char} (h : ∀ c ∈ t, p c = false) (l : List Char) :
    ∃ w ws, split p l = w :: ws ∧ split p (t ++ l) = (t ++ w) :: ws := by
  obtain ⟨w, ws, hw⟩ := List.exists_cons_of_ne_nil (split_ne_nil p l)
  refine ⟨w, ws, hw, ?_⟩
  induction t with
  | nil => simpa using hw
  | cons c t ih =>
    have := ih fun c hc => h c (by simp [hc])
    rw [List.cons_append, split, if_neg (by simp [h c (by simp)]), this]
    rfl

theorem words_token {p : Char → Bool} {t : List Char} (ht : t ≠ []) (h : ∀ c ∈ t, p c = false) {l : List Char} (hl : l = [] ∨ ∃ c m, l = c :: m ∧ p c = true) :
    words p (t ++ l) = t :: words p l := by
  obtain ⟨w, ws, h1, h2⟩ := split_token h l
  have hw : w = [] := by
    rcases hl with rfl | ⟨c, m, rfl, hc⟩
    · simp [split] at h1; exact h1.1
    · rw [split, if_pos hc] at h1
      simp at h1; exact h1.1
  subst hw
  unfold words
  rw [h1, h2, List.append_nil]
  cases t with
  | nil => exact absurd rfl ht
  | cons c t => rfl

theorem words_of {p : Char → Bool} {l : List Char} {ts : List (List Char)} (h : Words p l ts) : words p l = ts := by
  induction h with
  | nil hg =>
    have := words_gap hg []
    rw [List.append_nil] at this
    exact this
  | cons hg ht hc hl _ ih =>
    rw [List.append_assoc, words_gap hg, words_token ht (fun c h => (hc c h).1) hl, ih]

/-- Every character of white space in a line of words is a separator. -/
theorem Words.ws_sep {p : Char → Bool} {l : List Char} {ts : List (List Char)} (h : Words p l ts) : ∀ c ∈ l, isWs c = true → p c = true := by
  induction h with
  | nil hg => exact fun c hc _ => hg c hc
  | cons hg ht hc hl _ ih =>
    intro c h1 h2
    simp only [List.mem_append] at h1
    rcases h1 with (h1 | h1) | h1
    · exact hg c h1
    · rw [(hc c h1).2] at h2; cases h2
    · exact ih c h1 h2

/-! ### Trimming -/

theorem dropWhile_all {p : Char → Bool} {a : List Char} (h : ∀ c ∈ a, p c = true) (l : List Char) : (a ++ l).dropWhile p = l.dropWhile p := by
  induction a with
  | nil => rfl
  | cons c a ih =>
    rw [List.cons_append, List.dropWhile_cons, if_pos (h c (by simp))]
    exact ih fun c hc => h c (by simp [hc])

theorem dropWhile_back {p : Char → Bool} (m : List Char) {b : List Char} (h : ∀ c ∈ b, p c = true) :
    (m ++ b).dropWhile p = [] ∨ (m ++ b).dropWhile p = m.dropWhile p ++ b := by
  induction m with
  | nil =>
    left
    have := dropWhile_all h []
    simpa using this
  | cons c m ih =>
    rw [List.cons_append, List.dropWhile_cons, List.dropWhile_cons]
    split
    · exact ih
    · right; rfl

theorem mem_dropWhile {p : Char → Bool} {l : List Char} {c : Char} (h : c ∈ l.dropWhile p) : c ∈ l :=
  (List.dropWhile_suffix p).subset h

/-- Trimming removes the white space around. -/
theorem trim_mem {a m b : List Char} (ha : ∀ c ∈ a, isWs c = true) (hb : ∀ c ∈ b, isWs c = true) {c : Char} (h : c ∈ trim (a ++ m ++ b)) : c ∈ m := by
  unfold trim at h
  rw [List.append_assoc, dropWhile_all ha] at h
  rw [List.mem_reverse] at h
  rcases dropWhile_back m hb with e | e
  · rw [e] at h; simp at h
  · rw [e, List.reverse_append, dropWhile_all (fun c hc => hb c (by simpa using hc))] at h
    have := mem_dropWhile h
    rw [List.mem_reverse] at this
    exact mem_dropWhile this

theorem words_dropWhile {p q : Char → Bool} (hq : ∀ c, q c = true → p c = true) (l : List Char) : words p (l.dropWhile q) = words p l := by
  induction l with
  | nil => rfl
  | cons c l ih =>
    rw [List.dropWhile_cons]
    split
    · rename_i h; rw [ih, words_sep (hq c h)]
    · rfl

theorem words_append_gap {p : Char → Bool} (m : List Char) {g : List Char} (h : ∀ c ∈ g, p c = true) : words p (m ++ g) = words p m := by
  have key : ∀ m : List Char, ∃ w ws us, split p m = w :: ws ∧ split p (m ++ g) = w :: (ws ++ us) ∧ ∀ u ∈ us, u = [] := by
    intro m
    induction m with
    | nil =>
      cases g with
      | nil => exact ⟨[], [], [], rfl, rfl, by simp⟩
      | cons c g =>
        refine ⟨[], [], split p g, rfl, ?_, ?_⟩
        · rw [List.nil_append, split, if_pos (h c (by simp))]; rfl
        · have h' : ∀ c ∈ g, p c = true := fun c hc => h c (by simp [hc])
          clear h
          induction g with
          | nil => simp [split]
          | cons d g ih =>
            rw [split, if_pos (h' d (by simp))]
            intro u hu
            simp only [List.mem_cons] at hu
            rcases hu with hu | hu
            · exact hu
            · exact ih (fun c hc => h' c (by simp [hc])) u hu
    | cons c m ih =>
      obtain ⟨w, ws, us, h1, h2, h3⟩ := ih
      by_cases hc : p c = true
      · refine ⟨[], w :: ws, us, ?_, ?_, h3⟩
        · rw [split, if_pos hc, h1]
        · rw [List.cons_append, split, if_pos hc, h2]; rfl
      · refine ⟨c :: w, ws, us, ?_, ?_, h3⟩
        · rw [split, if_neg hc, h1]
        · rw [List.cons_append, split, if_neg hc, h2]
  obtain ⟨w, ws, us, h1, h2, h3⟩ := key m
  unfold words
  rw [h1, h2, ← List.cons_append, List.filter_append]
  have : us.filter (fun w => !w.isEmpty) = [] := by
    rw [List.filter_eq_nil_iff]
    intro u hu
    rw [h3 u hu]; simp
  rw [this, List.append_nil]

theorem words_trim {p : Char → Bool} (hp : ∀ c, isWs c = true → p c = true) (l : List Char) : words p (trim l) = words p l := by
  have h1 := words_dropWhile hp l
  unfold trim
  generalize l.dropWhile isWs = m at *
  rw [← h1]
  have e : m = (m.reverse.dropWhile isWs).reverse ++ (m.reverse.takeWhile isWs).reverse := by
    rw [← List.reverse_append, List.takeWhile_append_dropWhile, List.reverse_reverse]
  conv => rhs; rw [e]
  rw [words_append_gap]
  intro c hc
  rw [List.mem_reverse] at hc
  exact hp c (List.all_eq_true.1 List.all_takeWhile c hc)

theorem words_congr {p q : Char → Bool} {l : List Char} (h : ∀ c ∈ l, p c = q c) : words p l = words q l := by
  have : split p l = split q l := by
    induction l with
    | nil => rfl
    | cons c l ih =>
      rw [split, split, h c (by simp), ih fun c hc => h c (by simp [hc])]
  unfold words; rw [this]

/-- The words of a trimmed line -/
theorem line_words {p : Char → Bool} {l : List Char} {ts : List (List Char)} (h : Line p l ts) : words p (trim l) = ts := by
  obtain ⟨a, m, b, rfl, ha, hb, hm⟩ := h
  rw [← words_of hm]
  have h1 : words p (trim (a ++ m ++ b)) = words (fun c => p c || isWs c) (trim (a ++ m ++ b)) := by
    apply words_congr
    intro c hc
    have := hm.ws_sep c (trim_mem ha hb hc)
    cases hw : isWs c with
    | false => simp
    | true => simp [this hw]
  have h2 : words p m = words (fun c => p c || isWs c) m := by
    apply words_congr
    intro c hc
    have := hm.ws_sep c hc
    cases hw : isWs c with
    | false => simp
    | true => simp [this hw]
  rw [h1, h2, words_trim (fun c hc => by simp [hc]), List.append_assoc, words_gap (fun c hc => by simp [ha c hc]), words_append_gap _ (fun c hc => by simp [hb c hc])]

theorem trim_blank {l : List Char} (h : Blank l) : trim l = [] := by
  have := dropWhile_all h []
  rw [List.append_nil] at this
  unfold trim
  rw [this]; rfl

/-- A line with words is not blank. -/
theorem trim_line {p : Char → Bool} {l : List Char} {t : List Char} {ts : List (List Char)} (h : Line p l (t :: ts)) : trim l ≠ [] := by
  intro e
  have := line_words h
  rw [e, words_nil] at this
  cases this

/-! ### Numbers -/

theorem digit_of {d : Nat} (h : d < 10) : digit (Char.ofNat (48 + d)) = some d := by
  have : ∀ d : Fin 10, digit (Char.ofNat (48 + d.1)) = some d.1 := by decide
  exact this ⟨d, h⟩

theorem digits_append (n : Nat) (w v : List Char) : digits n (w ++ v) = (digits n w).bind fun m => digits m v := by
  induction w generalizing n with
  | nil => rfl
  | cons c w ih =>
    rw [List.cons_append, digits, digits]
    cases digit c with
    | none => rfl
    | some d => exact ih _

theorem digits_of {w : List Char} {n : Nat} (h : Digits w n) : digits 0 w = some n := by
  induction h with
  | one d h => simp [digits, digit_of h]
  | snoc d h _ ih => rw [digits_append, ih]; simp [digits, digit_of h]

theorem Digits.ne_nil {w : List Char} {n : Nat} (h : Digits w n) : w ≠ [] := by cases h <;> simp

theorem Digits.digit {w : List Char} {n : Nat} (h : Digits w n) : ∀ c ∈ w, ∃ d, d < 10 ∧ c = Char.ofNat (48 + d) := by
  induction h with
  | one d h => intro c hc; simp at hc; exact ⟨d, h, hc⟩
  | snoc d h _ ih =>
    intro c hc
    simp only [List.mem_append, List.mem_singleton] at hc
    rcases hc with hc | hc
    · exact ih c hc
    · exact ⟨d, h, hc⟩

theorem Digits.not {w : List Char} {n : Nat} (h : Digits w n) {x : Char} (hx : ∀ d : Fin 10, x ≠ Char.ofNat (48 + d.1)) : x ∉ w := by
  intro hw
  obtain ⟨d, hd, e⟩ := h.digit x hw
  exact hx ⟨d, hd⟩ e

theorem magnitude_of {w : List Char} {n max : Nat} (h : Digits w n) (hm : n ≤ max) : magnitude max w = some n := by
  unfold magnitude
  rw [if_neg (by simp [h.ne_nil]), digits_of h]
  simp [hm]

theorem unplus_id {w : List Char} (h : '+' ∉ w) : unplus w = w := by
  unfold unplus
  split
  · exact absurd List.mem_cons_self h
  · rfl

theorem parseNat_of {w : List Char} {n max : Nat} (h : Unsigned w n) (hm : n ≤ max) : parseNat max w = some n := by
  unfold parseNat
  rcases h with h | ⟨v, rfl, h⟩
  · rw [unplus_id (h.not (x := '+') (by decide))]
    exact magnitude_of h hm
  · exact magnitude_of h hm

theorem parseInt_of {w : List Char} {z : Int} (h : Signed w z) (h1 : -2 ^ 63 ≤ z) (h2 : z < 2 ^ 63) : parseInt w = some z := by
  have key : ∀ n : Nat, (n : Int) < 2 ^ 63 → n ≤ 2 ^ 63 - 1 := by intro n; omega
  rcases h with ⟨n, rfl, h⟩ | ⟨v, n, rfl, h, rfl⟩
  · have hn := parseNat_of h (key n h2)
    unfold parseInt
    split
    · rcases h with h | ⟨v, h, _⟩
      · exact absurd List.mem_cons_self (h.not (x := '-') (by decide))
      · simp at h
    · unfold parseNat at hn
      rw [hn]; rfl
  · have hn : n ≤ 2 ^ 63 := by omega
    simp only [parseInt, magnitude_of h hn, Option.map_some]

theorem takeWhile_ne {w : List Char} (h : '.' ∉ w) (b : List Char) : (w ++ '.' :: b).takeWhile (fun c => c != '.') = w ∧ (w ++ '.' :: b).dropWhile (fun c => c != '.') = '.' :: b := by
  induction w with
  | nil => simp
  | cons c w ih =>
    simp only [List.mem_cons, not_or] at h
    have hc : (c != '.') = true := by simp; exact fun e => h.1 e.symm
    obtain ⟨h1, h2⟩ := ih h.2
    simp only [List.cons_append, List.takeWhile_cons, List.dropWhile_cons, hc, if_true]
    exact ⟨by rw [h1], h2⟩

theorem takeWhile_ne' {w : List Char} (h : '.' ∉ w) : w.takeWhile (fun c => c != '.') = w ∧ w.dropWhile (fun c => c != '.') = [] := by
  induction w with
  | nil => simp
  | cons c w ih =>
    simp only [List.mem_cons, not_or] at h
    have hc : (c != '.') = true := by simp; exact fun e => h.1 e.symm
    obtain ⟨h1, h2⟩ := ih h.2
    simp only [List.takeWhile_cons, List.dropWhile_cons, hc, if_true]
    exact ⟨by rw [h1], h2⟩

theorem parseDecimal_of {w : List Char} {n k : Nat} (h : Decimal w n k) : parseDecimal w = some (n, k) := by
  rcases h with ⟨h, rfl⟩ | ⟨a, b, rfl, h, rfl⟩
  · obtain ⟨h1, h2⟩ := takeWhile_ne' (h.not (x := '.') (by decide))
    unfold parseDecimal
    simp only [h1, h2]
    rw [if_neg (by simp [h.ne_nil])]
    simp [digits_of h]
  · have hd := h.not (x := '.') (by decide)
    simp only [List.mem_append, not_or] at hd
    obtain ⟨h1, h2⟩ := takeWhile_ne hd.1 b
    unfold parseDecimal
    simp only [h1, h2, List.drop_one, List.tail_cons]
    rw [if_neg]
    · simp [digits_of h]
    · have := h.ne_nil
      simp only [Bool.and_eq_true, List.isEmpty_iff]
      rintro ⟨rfl, rfl⟩
      exact this rfl

/-! ### What is read is written that way -/

theorem digit_inv {c : Char} {d : Nat} (h : digit c = some d) : d < 10 ∧ c = Char.ofNat (48 + d) := by
  unfold digit at h
  split at h
  · simp only [Option.some.injEq] at h
    refine ⟨by omega, ?_⟩
    rw [show 48 + d = c.toNat by omega, Char.ofNat_toNat]
  · cases h

theorem digits_inv (w : List Char) : ∀ {n : Nat}, digits 0 w.reverse = some n → w ≠ [] → Digits w.reverse n := by
  induction w with
  | nil => intro n _ h; exact absurd rfl h
  | cons c w ih =>
    intro n h _
    rw [List.reverse_cons] at h ⊢
    rw [digits_append] at h
    cases hm : digits 0 w.reverse with
    | none => rw [hm] at h; cases h
    | some m =>
      rw [hm] at h
      simp only [Option.bind_some, digits] at h
      cases hd : digit c with
      | none => rw [hd] at h; cases h
      | some d =>
        rw [hd] at h
        simp only [Option.some.injEq] at h
        obtain ⟨h1, rfl⟩ := digit_inv hd
        subst h
        by_cases hw : w = []
        · subst hw
          simp [digits] at hm
          subst hm
          simpa using Digits.one d h1
        · exact Digits.snoc d h1 (ih hm hw)

theorem digits_iff {w : List Char} {n : Nat} : Digits w n ↔ w ≠ [] ∧ digits 0 w = some n := by
  refine ⟨fun h => ⟨h.ne_nil, digits_of h⟩, fun ⟨h1, h2⟩ => ?_⟩
  have := digits_inv w.reverse (n := n) (by rwa [List.reverse_reverse]) (by simpa using h1)
  rwa [List.reverse_reverse] at this

theorem magnitude_iff {w : List Char} {n max : Nat} : magnitude max w = some n ↔ Digits w n ∧ n ≤ max := by
  refine ⟨fun h => ?_, fun h => magnitude_of h.1 h.2⟩
  unfold magnitude at h
  split at h
  · cases h
  · rename_i hw
    split at h
    · rename_i m hm
      split at h
      · rename_i hmax
        simp only [Option.some.injEq] at h
        subst h
        exact ⟨digits_iff.2 ⟨by simpa using hw, hm⟩, hmax⟩
      · cases h
    · cases h

theorem parseNat_iff {w : List Char} {n max : Nat} : parseNat max w = some n ↔ Unsigned w n ∧ n ≤ max := by
  refine ⟨fun h => ?_, fun h => parseNat_of h.1 h.2⟩
  unfold parseNat at h
  obtain ⟨h1, h2⟩ := magnitude_iff.1 h
  refine ⟨?_, h2⟩
  unfold unplus at h1
  split at h1
  · exact .inr ⟨_, rfl, h1⟩
  · exact .inl h1

theorem parseInt_iff {w : List Char} {z : Int} : parseInt w = some z ↔ Signed w z ∧ -2 ^ 63 ≤ z ∧ z < 2 ^ 63 := by
  refine ⟨fun h => ?_, fun h => parseInt_of h.1 h.2.1 h.2.2⟩
  unfold parseInt at h
  split at h
  · rename_i v
    rw [Option.map_eq_some_iff] at h
    obtain ⟨n, hn, rfl⟩ := h
    obtain ⟨h1, h2⟩ := magnitude_iff.1 hn
    exact ⟨.inr ⟨v, n, rfl, h1, rfl⟩, by omega, by omega⟩
  · rw [Option.map_eq_some_iff] at h
    obtain ⟨n, hn, rfl⟩ := h
    obtain ⟨h1, h2⟩ := parseNat_iff.1 hn
    exact ⟨.inl ⟨n, rfl, h1⟩, by omega, by omega⟩

theorem parseDecimal_iff {w : List Char} {n k : Nat} : parseDecimal w = some (n, k) ↔ Decimal w n k := by
  refine ⟨fun h => ?_, parseDecimal_of⟩
  unfold parseDecimal at h
  simp only at h
  split at h
  · cases h
  · rename_i hne
    rw [Option.map_eq_some_iff] at h
    obtain ⟨m, hm, he⟩ := h
    simp only [Prod.mk.injEq] at he
    obtain ⟨rfl, rfl⟩ := he
    have hsplit := List.takeWhile_append_dropWhile (p := fun c : Char => c != '.') (l := w)
    cases hd : w.dropWhile (fun c => c != '.') with
    | nil =>
      rw [hd] at hm hne hsplit
      simp only [List.drop_nil, List.append_nil, List.isEmpty_nil, Bool.and_true] at hm hne hsplit
      rw [hsplit] at hm hne
      exact .inl ⟨digits_iff.2 ⟨by simpa using hne, hm⟩, rfl⟩
    | cons c b =>
      have hc : c = '.' := by
        have := List.head?_dropWhile_not (fun c : Char => c != '.') w
        rw [hd] at this
        simpa using this
      subst hc
      rw [hd] at hm hne hsplit
      simp only [List.drop_one, List.tail_cons] at hm hne
      refine .inr ⟨_, b, hsplit.symm, digits_iff.2 ⟨?_, hm⟩, by simp⟩
      intro hh
      apply hne
      rw [List.append_eq_nil_iff] at hh
      simp [hh.1, hh.2]

theorem Decimal.mem {w : List Char} {n k : Nat} (h : Decimal w n k) : ∀ c ∈ w, c = '.' ∨ ∃ d, d < 10 ∧ c = Char.ofNat (48 + d) := by
  rcases h with ⟨h, _⟩ | ⟨a, b, rfl, h, _⟩
  · exact fun c hc => .inr (h.digit c hc)
  · intro c hc
    simp only [List.mem_append, List.mem_cons] at hc
    rcases hc with hc | hc | hc
    · exact .inr (h.digit c (by simp [hc]))
    · exact .inl hc
    · exact .inr (h.digit c (by simp [hc]))

theorem Decimal.not {w : List Char} {n k : Nat} (h : Decimal w n k) {x : Char} (hp : x ≠ '.') (hx : ∀ d : Fin 10, x ≠ Char.ofNat (48 + d.1)) : x ∉ w := by
  intro hw
  rcases h.mem x hw with e | ⟨d, hd, e⟩
  · exact hp e
  · exact hx ⟨d, hd⟩ e

theorem Decimal.ne_nil {w : List Char} {n k : Nat} (h : Decimal w n k) : w ≠ [] := by
  rcases h with ⟨h, _⟩ | ⟨a, b, rfl, h, _⟩
  · exact h.ne_nil
  · simp

/-! Exponents -/

theorem digits_ge {w : List Char} : ∀ {n m : Nat}, digits n w = some m → n ≤ m := by
  induction w with
  | nil => intro n m h; cases h; exact Nat.le_refl _
  | cons c w ih =>
    intro n m h
    rw [digits] at h
    cases hd : digit c with
    | none => rw [hd] at h; cases h
    | some d =>
      rw [hd] at h
      have := ih h
      omega

theorem exponentDigits_isSome (w : List Char) : ∀ n m : Nat, (exponentDigits n w).isSome = (digits m w).isSome := by
  induction w with
  | nil => intro n m; rfl
  | cons c w ih =>
    intro n m
    rw [exponentDigits, digits]
    cases digit c with
    | none => rfl
    | some d => exact ih _ _

theorem exponentDigits_of {w : List Char} : ∀ {n m : Nat}, digits n w = some m → m < 655360 → exponentDigits n w = some m := by
  induction w with
  | nil => intro n m h _; exact h
  | cons c w ih =>
    intro n m h hm
    rw [digits] at h
    rw [exponentDigits]
    cases hd : digit c with
    | none => rw [hd] at h; cases h
    | some d =>
      rw [hd] at h
      have hge := digits_ge h
      simp only
      rw [if_pos (by omega)]
      exact ih h hm

theorem exponentDigits_sat {w : List Char} : ∀ {n m : Nat}, digits n w = some m → 65536 ≤ n → exponentDigits n w = some n := by
  induction w with
  | nil => intro n m _ _; rfl
  | cons c w ih =>
    intro n m h hn
    rw [digits] at h
    rw [exponentDigits]
    cases hd : digit c with
    | none => rw [hd] at h; cases h
    | some d =>
      rw [hd] at h
      simp only
      rw [if_neg (by omega)]
      have key : ∀ (w : List Char) (x y z : Nat), digits x w = some y → ∃ y', digits z w = some y' := by
        intro w x y z h
        have := exponentDigits_isSome w 0 x
        rw [h, exponentDigits_isSome w 0 z] at this
        exact Option.isSome_iff_exists.1 this
      obtain ⟨y, hy⟩ := key w _ _ n h
      exact ih hy hn

theorem digit_lt {c : Char} {d : Nat} (h : digit c = some d) : d < 10 := by
  unfold digit at h
  split at h
  · rename_i hc; cases h; omega
  · cases h

/-- The digits are counted until their value is 65536 or more. -/
theorem exponentDigits_spec {w : List Char} : ∀ {n m : Nat}, digits n w = some m → n < 655360 →
    ∃ a b x, w = a ++ b ∧ digits n a = some x ∧ exponentDigits n w = some x ∧ x < 655360 ∧ (b = [] ∨ 65536 ≤ x) := by
  induction w with
  | nil => intro n m h hn; exact ⟨[], [], n, rfl, rfl, rfl, hn, .inl rfl⟩
  | cons c w ih =>
    intro n m h hn
    by_cases hs : n < 65536
    · have h0 := h
      rw [digits] at h
      cases hd : digit c with
      | none => rw [hd] at h; cases h
      | some d =>
        rw [hd] at h
        have := digit_lt hd
        obtain ⟨a, b, x, h1, h2, h3, h4, h5⟩ := ih h (by omega)
        refine ⟨c :: a, b, x, by rw [h1]; rfl, ?_, ?_, h4, h5⟩
        · rw [digits, hd]; exact h2
        · rw [exponentDigits, hd]; simp only; rw [if_pos hs]; exact h3
    · exact ⟨[], c :: w, n, rfl, rfl, exponentDigits_sat h (by omega), hn, .inr (by omega)⟩

theorem parseExponent_isSome {w : List Char} : (parseExponent w).isSome = true ↔ ∃ e, Signed w e := by
  have key : ∀ v : List Char, v ≠ [] → ((exponentDigits 0 v).isSome = true ↔ ∃ n, Digits v n) := by
    intro v hv
    rw [exponentDigits_isSome v 0 0, Option.isSome_iff_exists]
    exact ⟨fun ⟨n, h⟩ => ⟨n, digits_iff.2 ⟨hv, h⟩⟩, fun ⟨n, h⟩ => ⟨n, digits_of h⟩⟩
  constructor
  · intro h
    unfold parseExponent at h
    split at h
    · rename_i v
      split at h
      · cases h
      · rename_i hv
        rw [Option.isSome_map] at h
        obtain ⟨n, hn⟩ := (key v (by simpa using hv)).1 h
        exact ⟨_, .inr ⟨v, n, rfl, hn, rfl⟩⟩
    · split at h
      · cases h
      · rename_i hv
        rw [Option.isSome_map] at h
        obtain ⟨n, hn⟩ := (key _ (by simpa using hv)).1 h
        refine ⟨n, .inl ⟨n, rfl, ?_⟩⟩
        unfold unplus at hn
        split at hn
        · exact .inr ⟨_, rfl, hn⟩
        · exact .inl hn
  · rintro ⟨e, ⟨n, rfl, h⟩ | ⟨v, n, rfl, h, rfl⟩⟩
    · have hu : Digits (unplus w) n := by
        rcases h with h | ⟨v, rfl, h⟩
        · rwa [unplus_id (h.not (x := '+') (by decide))]
        · exact h
      unfold parseExponent
      split
      · rcases h with h | ⟨v, h, _⟩
        · exact absurd List.mem_cons_self (h.not (x := '-') (by decide))
        · simp at h
      · rw [if_neg (by simpa using hu.ne_nil), Option.isSome_map]
        exact (key _ hu.ne_nil).2 ⟨n, hu⟩
    · simp only [parseExponent]
      rw [if_neg (by simpa using h.ne_nil), Option.isSome_map]
      exact (key _ h.ne_nil).2 ⟨n, h⟩

theorem parseExponent_of {w : List Char} {e : Int} (h : Signed w e) (he : e.natAbs < 655360) : parseExponent w = some e := by
  rcases h with ⟨n, rfl, h⟩ | ⟨v, n, rfl, h, rfl⟩
  · have hu : Digits (unplus w) n := by
      rcases h with h | ⟨v, rfl, h⟩
      · rwa [unplus_id (h.not (x := '+') (by decide))]
      · exact h
    unfold parseExponent
    split
    · rcases h with h | ⟨v, h, _⟩
      · exact absurd List.mem_cons_self (h.not (x := '-') (by decide))
      · simp at h
    · rw [if_neg (by simpa using hu.ne_nil), exponentDigits_of (digits_of hu) (by omega)]; rfl
  · simp only [parseExponent]
    rw [if_neg (by simpa using h.ne_nil), exponentDigits_of (digits_of h) (by omega)]; rfl

theorem span_e {a : List Char} (h : 'e' ∉ a ∧ 'E' ∉ a) {c : Char} (hc : c = 'e' ∨ c = 'E') (b : List Char) :
    (a ++ c :: b).takeWhile (fun c => c != 'e' && c != 'E') = a ∧ (a ++ c :: b).dropWhile (fun c => c != 'e' && c != 'E') = c :: b := by
  induction a with
  | nil => rcases hc with rfl | rfl <;> simp
  | cons d a ih =>
    simp only [List.mem_cons, not_or] at h
    have hd : (d != 'e' && d != 'E') = true := by simp; exact ⟨fun e => h.1.1 e.symm, fun e => h.2.1 e.symm⟩
    obtain ⟨h1, h2⟩ := ih ⟨h.1.2, h.2.2⟩
    simp only [List.cons_append, List.takeWhile_cons, List.dropWhile_cons, hd, if_true]
    exact ⟨by rw [h1], h2⟩

theorem span_no_e {a : List Char} (h : 'e' ∉ a ∧ 'E' ∉ a) : a.dropWhile (fun c => c != 'e' && c != 'E') = [] := by
  induction a with
  | nil => rfl
  | cons d a ih =>
    simp only [List.mem_cons, not_or] at h
    have hd : (d != 'e' && d != 'E') = true := by simp; exact ⟨fun e => h.1.1 e.symm, fun e => h.2.1 e.symm⟩
    rw [List.dropWhile_cons, if_pos hd]
    exact ih ⟨h.1.2, h.2.2⟩

theorem Decimal.no_e {w : List Char} {n k : Nat} (h : Decimal w n k) : 'e' ∉ w ∧ 'E' ∉ w := ⟨h.not (by decide) (by decide), h.not (by decide) (by decide)⟩

theorem parseNumber_of {w : List Char} {n k : Nat} {e : Int} (h : Scientific w n k e) (he : e.natAbs < 655360) : parseNumber w = some (n, e - k) := by
  unfold parseNumber
  rcases h with ⟨h, rfl⟩ | ⟨a, c, b, rfl, hc, h, hb⟩
  · rw [span_no_e h.no_e, parseDecimal_of h]
    simp
  · obtain ⟨h1, h2⟩ := span_e h.no_e hc b
    rw [h1, h2, parseDecimal_of h]
    simp [parseExponent_of hb he]

theorem parseNumber_isSome {w : List Char} : (parseNumber w).isSome = true ↔ ∃ n k e, Scientific w n k e := by
  constructor
  · intro h
    unfold parseNumber at h
    split at h
    · rename_i hd
      rw [Option.isSome_map, Option.isSome_iff_exists] at h
      obtain ⟨⟨n, k⟩, hx⟩ := h
      exact ⟨n, k, 0, .inl ⟨parseDecimal_iff.1 hx, rfl⟩⟩
    · rename_i c b hd
      have hc : c = 'e' ∨ c = 'E' := by
        have := List.head?_dropWhile_not (fun c : Char => c != 'e' && c != 'E') w
        rw [hd] at this
        simp only [List.head?_cons, Bool.and_eq_false_iff, bne_eq_false_iff_eq] at this
        exact this
      have hsplit := List.takeWhile_append_dropWhile (p := fun c : Char => c != 'e' && c != 'E') (l := w)
      rw [hd] at hsplit
      cases hx : parseDecimal (w.takeWhile fun c => c != 'e' && c != 'E') with
      | none => rw [hx] at h; cases h
      | some x =>
        rw [hx, Option.bind_some, Option.isSome_map] at h
        obtain ⟨e, he⟩ := parseExponent_isSome.1 h
        exact ⟨x.1, x.2, e, .inr ⟨_, c, b, hsplit.symm, hc, parseDecimal_iff.1 hx, he⟩⟩
  · rintro ⟨n, k, e, ⟨h, rfl⟩ | ⟨a, c, b, rfl, hc, h, hb⟩⟩
    · rw [parseNumber_of (.inl ⟨h, rfl⟩) (by decide)]; rfl
    · unfold parseNumber
      obtain ⟨h1, h2⟩ := span_e h.no_e hc b
      rw [h1, h2, parseDecimal_of h]
      simp only [Option.bind_some, Option.isSome_map]
      exact parseExponent_isSome.2 ⟨e, hb⟩

theorem Scientific.head {w : List Char} {n k : Nat} {e : Int} (h : Scientific w n k e) : ∃ c v, w = c :: v ∧ c ≠ '-' ∧ c ≠ '+' ∧ c ≠ 'n' ∧ c ≠ 'N' ∧ c ≠ 'i' ∧ c ≠ 'I' := by
  have key : ∀ {a : List Char}, Decimal a n k → ∃ c v, a = c :: v ∧ c ≠ '-' ∧ c ≠ '+' ∧ c ≠ 'n' ∧ c ≠ 'N' ∧ c ≠ 'i' ∧ c ≠ 'I' := by
    intro a h
    cases a with
    | nil => exact absurd rfl h.ne_nil
    | cons c v =>
      have hx : ∀ {x : Char}, x ≠ '.' → (∀ d : Fin 10, x ≠ Char.ofNat (48 + d.1)) → c ≠ x := fun h1 h2 e => h.not h1 h2 (by simp [e])
      exact ⟨c, v, rfl, hx (by decide) (by decide), hx (by decide) (by decide), hx (by decide) (by decide), hx (by decide) (by decide), hx (by decide) (by decide), hx (by decide) (by decide)⟩
  rcases h with ⟨h, _⟩ | ⟨a, d, b, rfl, _, h, _⟩
  · exact key h
  · obtain ⟨c, v, rfl, h1⟩ := key h
    exact ⟨c, v ++ d :: b, rfl, h1⟩

theorem parseMagnitude_of {w : List Char} {n k : Nat} {e : Int} (h : Scientific w n k e) (he : e.natAbs < 655360) : parseMagnitude w = some (.dec n (e - k)) := by
  unfold parseMagnitude
  rw [parseNumber_of h he]

theorem parseFloat_plain {w : List Char} (h : ∃ c v, w = c :: v ∧ c ≠ '-' ∧ c ≠ '+') : parseFloat w = (parseMagnitude w).map fun x => (false, x) := by
  obtain ⟨c, v, rfl, h1, h2⟩ := h
  have hu : unplus (c :: v) = c :: v := by
    unfold unplus
    split
    · rename_i heq; cases heq; exact absurd rfl h2
    · rfl
  unfold parseFloat
  split
  · rename_i heq; cases heq; exact absurd rfl h1
  · rw [hu]

theorem parseFloat_plus (v : List Char) : parseFloat ('+' :: v) = (parseMagnitude v).map fun x => (false, x) := by
  unfold parseFloat
  split
  · rename_i heq; injection heq with h _; exact absurd h (by decide)
  · rfl

theorem parseMagnitude_isSome {w : List Char} : (parseMagnitude w).isSome = true ↔ (∃ n k e, Scientific w n k e) ∨ w.map Char.toLower ∈ special := by
  rw [← parseNumber_isSome]
  unfold parseMagnitude
  have hs : special = [['n', 'a', 'n'], ['i', 'n', 'f'], ['i', 'n', 'f', 'i', 'n', 'i', 't', 'y']] := by decide +kernel
  rw [hs]
  cases parseNumber w with
  | some x => simp
  | none =>
    simp only [Option.isSome_none, Bool.false_eq_true, false_or, List.mem_cons, List.not_mem_nil, or_false]
    split
    · simp [*]
    · split
      · simp [*]
      · simp [*]

theorem isWs_iff {c : Char} : isWs c = true ↔ c.toNat ∈ whiteSpace := by
  simp only [isWs, whiteSpace, Bool.or_eq_true, Bool.and_eq_true, decide_eq_true_eq, beq_iff_eq, List.mem_cons, List.not_mem_nil, or_false]
  omega

theorem split_span {p : Char → Bool} (l : List Char) : ∃ t r, l = t ++ r ∧ (∀ c ∈ t, p c = false) ∧ (r = [] ∨ ∃ c m, r = c :: m ∧ p c = true) := by
  induction l with
  | nil => exact ⟨[], [], rfl, by simp, .inl rfl⟩
  | cons c l ih =>
    by_cases hc : p c = true
    · exact ⟨[], c :: l, rfl, by simp, .inr ⟨c, l, rfl, hc⟩⟩
    · obtain ⟨t, r, rfl, h1, h2⟩ := ih
      refine ⟨c :: t, r, rfl, ?_, h2⟩
      intro d hd
      simp only [List.mem_cons] at hd
      rcases hd with rfl | hd
      · simpa using hc
      · exact h1 d hd

theorem Words.sep {p : Char → Bool} {c : Char} (hc : p c = true) {l : List Char} {ts : List (List Char)} (h : Words p l ts) : Words p (c :: l) ts := by
  cases h with
  | nil hg => exact .nil (by intro d hd; simp only [List.mem_cons] at hd; rcases hd with rfl | hd; exact hc; exact hg d hd)
  | @cons g t l ts hg ht h1 h2 h3 =>
    exact Words.cons (g := c :: g) (by intro d hd; simp only [List.mem_cons] at hd; rcases hd with rfl | hd; exact hc; exact hg d hd) ht h1 h2 h3

/-- A line in which all white space separates consists of its words. -/
theorem words_self {p : Char → Bool} : ∀ (k : Nat) (l : List Char), l.length ≤ k → (∀ c ∈ l, isWs c = true → p c = true) → Words p l (words p l)
  | _, [], _, _ => .nil (by simp)
  | 0, c :: l, h, _ => by simp at h
  | k + 1, c :: l, h, hw => by
    by_cases hc : p c = true
    · rw [words_sep hc]
      exact (words_self k l (by simpa using h) fun d hd => hw d (by simp [hd])).sep hc
    · obtain ⟨t, r, e, h1, h2⟩ := split_span (p := p) (c :: l)
      have ht : t ≠ [] := by
        rintro rfl
        rcases h2 with rfl | ⟨d, m, rfl, hd⟩
        · simp at e
        · simp only [List.nil_append, List.cons.injEq] at e
          rw [← e.1] at hd
          exact hc hd
      have hlen : t.length + r.length = l.length + 1 := by
        have := congrArg List.length e
        simp at this; omega
      have htl : 0 < t.length := List.length_pos_iff.2 ht
      rw [e] at hw ⊢
      rw [words_token ht h1 h2]
      have := Words.cons (sep := p) (g := []) (by simp) ht (fun d hd => ⟨h1 d hd, ?_⟩) h2 (words_self k r (by simp at h; omega) fun d hd => hw d (by simp [hd]))
      · simpa using this
      · cases hd' : isWs d with
        | false => rfl
        | true =>
          have := hw d (by simp [hd]) hd'
          rw [h1 d hd] at this
          cases this

theorem words_iff {p : Char → Bool} {l : List Char} {ts : List (List Char)} (h : ∀ c ∈ l, isWs c = true → p c = true) : Words p l ts ↔ words p l = ts :=
  ⟨words_of, fun e => e ▸ words_self l.length l (Nat.le_refl _) h⟩

theorem line_self {p : Char → Bool} {l : List Char} (h : ∀ c ∈ l, isWs c = true → p c = true) : Line p l (words p l) :=
  ⟨[], l, [], by simp, by simp, by simp, words_self l.length l (Nat.le_refl _) h⟩

end Verif.Text
