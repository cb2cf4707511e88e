import Verif.Model.Bytes
import Verif.Spec.Bytes
import Verif.Proofs.Readers
/-! UTF-8 and the lines of a file of bytes. -/
set_option autoImplicit false

namespace Verif.Bytes
open Verif Spec

theorem ofNat_u8 {n : Nat} (h : n < 256) : (UInt8.ofNat n).toNat = n := by
  rw [UInt8.toNat_ofNat']; exact Nat.mod_eq_of_lt h

theorem char_range (c : Char) : c.toNat < 0xD800 ∨ (0xDFFF < c.toNat ∧ c.toNat < 0x110000) := c.valid

theorem enc1 {c : Char} (h : c.toNat ≤ 127) : String.utf8EncodeChar c = [UInt8.ofNat c.toNat] := by
  unfold String.utf8EncodeChar; exact if_pos h
theorem enc2 {c : Char} (h : ¬ c.toNat ≤ 127) (h2 : c.toNat ≤ 2047) : String.utf8EncodeChar c = [UInt8.ofNat (c.toNat / 64 % 32 + 192), UInt8.ofNat (c.toNat % 64 + 128)] := by
  unfold String.utf8EncodeChar; exact (if_neg h).trans (if_pos h2)
theorem enc3 {c : Char} (h : ¬ c.toNat ≤ 127) (h2 : ¬ c.toNat ≤ 2047) (h3 : c.toNat ≤ 65535) : String.utf8EncodeChar c =
    [UInt8.ofNat (c.toNat / 4096 % 16 + 224), UInt8.ofNat (c.toNat / 64 % 64 + 128), UInt8.ofNat (c.toNat % 64 + 128)] := by
  unfold String.utf8EncodeChar; exact (if_neg h).trans ((if_neg h2).trans (if_pos h3))
theorem enc4 {c : Char} (h : ¬ c.toNat ≤ 127) (h2 : ¬ c.toNat ≤ 2047) (h3 : ¬ c.toNat ≤ 65535) : String.utf8EncodeChar c =
    [UInt8.ofNat (c.toNat / 262144 % 8 + 240), UInt8.ofNat (c.toNat / 4096 % 64 + 128), UInt8.ofNat (c.toNat / 64 % 64 + 128), UInt8.ofNat (c.toNat % 64 + 128)] := by
  unfold String.utf8EncodeChar; exact (if_neg h).trans ((if_neg h2).trans (if_neg h3))

theorem width_one {a : Nat} : width a = 1 ↔ a < 0x80 := by
  unfold width; repeat' split
  all_goals omega
theorem width_two {a : Nat} : width a = 2 ↔ 0xC2 ≤ a ∧ a ≤ 0xDF := by
  unfold width; repeat' split
  all_goals omega
theorem width_three {a : Nat} : width a = 3 ↔ 0xE0 ≤ a ∧ a ≤ 0xEF := by
  unfold width; repeat' split
  all_goals omega
theorem width_four {a : Nat} : width a = 4 ↔ 0xF0 ≤ a ∧ a ≤ 0xF4 := by
  unfold width; repeat' split
  all_goals omega

theorem cont_iff {b : Nat} : cont b = true ↔ 0x80 ≤ b ∧ b ≤ 0xBF := by unfold cont; simp
theorem second3_iff {a b : Nat} : second3 a b = true ↔ 0xE0 ≤ a ∧ a ≤ 0xEF ∧ 0x80 ≤ b ∧ b ≤ 0xBF ∧ (a = 0xE0 → 0xA0 ≤ b) ∧ (a = 0xED → b ≤ 0x9F) := by
  unfold second3 cont; simp; omega
theorem second4_iff {a b : Nat} : second4 a b = true ↔ 0xF0 ≤ a ∧ a ≤ 0xF4 ∧ 0x80 ≤ b ∧ b ≤ 0xBF ∧ (a = 0xF0 → 0x90 ≤ b) ∧ (a = 0xF4 → b ≤ 0x8F) := by
  unfold second4 cont; simp; omega

theorem next_one {a : UInt8} (l : List UInt8) (h : a.toNat < 0x80) : next (a :: l) = some (Char.ofNat a.toNat, l) := by
  unfold next; simp only [width_one.2 h, if_true]

theorem next_two {a b : UInt8} (l : List UInt8) (ha : 0xC2 ≤ a.toNat ∧ a.toNat ≤ 0xDF) (hb : cont b.toNat = true) :
    next (a :: b :: l) = some (Char.ofNat (a.toNat % 32 * 64 + b.toNat % 64), l) := by
  have h2 := width_two.2 ha
  unfold next; simp [h2, hb]

theorem next_three {a b c : UInt8} (l : List UInt8) (h : second3 a.toNat b.toNat = true) (hc : cont c.toNat = true) :
    next (a :: b :: c :: l) = some (Char.ofNat (a.toNat % 32 * 4096 + b.toNat % 64 * 64 + c.toNat % 64), l) := by
  have h' := second3_iff.1 h
  have h2 := width_three.2 ⟨h'.1, h'.2.1⟩
  unfold next; simp [h2, h, hc]

theorem next_four {a b c d : UInt8} (l : List UInt8) (h : second4 a.toNat b.toNat = true) (hc : cont c.toNat = true) (hd : cont d.toNat = true) :
    next (a :: b :: c :: d :: l) = some (Char.ofNat (a.toNat % 8 * 262144 + b.toNat % 64 * 4096 + c.toNat % 64 * 64 + d.toNat % 64), l) := by
  have h' := second4_iff.1 h
  have h2 := width_four.2 ⟨h'.1, h'.2.1⟩
  unfold next; simp [h2, h, hc, hd]

theorem ofNat_eq {c : Char} {n : Nat} (h : n = c.toNat) : Char.ofNat n = c := by rw [h]; exact Char.ofNat_toNat c

/-- A character that is encoded is decoded. -/
theorem next_encode (c : Char) (l : List UInt8) : next (String.utf8EncodeChar c ++ l) = some (c, l) := by
  have hr := char_range c
  by_cases h1 : c.toNat ≤ 127
  · rw [enc1 h1, List.singleton_append, next_one _ (by rw [ofNat_u8 (by omega)]; omega), ofNat_eq (ofNat_u8 (by omega))]
  by_cases h2 : c.toNat ≤ 2047
  · rw [enc2 h1 h2]
    have a1 := ofNat_u8 (n := c.toNat / 64 % 32 + 192) (by omega)
    have a2 := ofNat_u8 (n := c.toNat % 64 + 128) (by omega)
    show next (_ :: _ :: l) = _
    rw [next_two _ (by rw [a1]; omega) (by rw [a2, cont_iff]; omega), ofNat_eq (c := c) (by rw [a1, a2]; omega)]
  by_cases h3 : c.toNat ≤ 65535
  · rw [enc3 h1 h2 h3]
    have a1 := ofNat_u8 (n := c.toNat / 4096 % 16 + 224) (by omega)
    have a2 := ofNat_u8 (n := c.toNat / 64 % 64 + 128) (by omega)
    have a3 := ofNat_u8 (n := c.toNat % 64 + 128) (by omega)
    show next (_ :: _ :: _ :: l) = _
    rw [next_three _ (by rw [a1, a2, second3_iff]; omega) (by rw [a3, cont_iff]; omega), ofNat_eq (c := c) (by rw [a1, a2, a3]; omega)]
  · rw [enc4 h1 h2 h3]
    have a1 := ofNat_u8 (n := c.toNat / 262144 % 8 + 240) (by omega)
    have a2 := ofNat_u8 (n := c.toNat / 4096 % 64 + 128) (by omega)
    have a3 := ofNat_u8 (n := c.toNat / 64 % 64 + 128) (by omega)
    have a4 := ofNat_u8 (n := c.toNat % 64 + 128) (by omega)
    show next (_ :: _ :: _ :: _ :: l) = _
    rw [next_four _ (by rw [a1, a2, second4_iff]; omega) (by rw [a3, cont_iff]; omega) (by rw [a4, cont_iff]; omega), ofNat_eq (c := c) (by rw [a1, a2, a3, a4]; omega)]

theorem toNat_char {n : Nat} (h : n < 0xD800 ∨ (0xDFFF < n ∧ n < 0x110000)) : (Char.ofNat n).toNat = n := by
  have : n.isValidChar := h
  simp [Char.ofNat, this, Char.toNat, Char.ofNatAux]

theorem u8_eq {a : UInt8} {n : Nat} (h : n = a.toNat) : UInt8.ofNat n = a := by rw [h]; exact UInt8.ofNat_toNat

/-- What is decoded is the encoding of a character. -/
theorem next_some {l r : List UInt8} {c : Char} (h : next l = some (c, r)) : l = String.utf8EncodeChar c ++ r := by
  cases l with
  | nil => cases h
  | cons a l =>
    have ha := a.toNat_lt
    unfold next at h
    simp only at h
    split at h
    · rename_i hw
      rw [width_one] at hw
      cases h
      have e : (Char.ofNat a.toNat).toNat = a.toNat := toNat_char (by omega)
      rw [enc1 (by omega), e, UInt8.ofNat_toNat]; rfl
    split at h
    · rename_i hw
      rw [width_two] at hw
      split at h
      · rename_i b l
        split at h
        · rename_i hb
          rw [cont_iff] at hb
          cases h
          have e := toNat_char (n := a.toNat % 32 * 64 + b.toNat % 64) (by omega)
          rw [enc2 (by omega) (by omega), e, u8_eq (a := a) (by omega), u8_eq (a := b) (by omega)]; rfl
        · cases h
      · cases h
    split at h
    · rename_i hw
      split at h
      · rename_i b c l
        split at h
        · rename_i hb
          rw [Bool.and_eq_true, second3_iff, cont_iff] at hb
          cases h
          have e := toNat_char (n := a.toNat % 32 * 4096 + b.toNat % 64 * 64 + c.toNat % 64) (by omega)
          rw [enc3 (by omega) (by omega) (by omega), e, u8_eq (a := a) (by omega), u8_eq (a := b) (by omega), u8_eq (a := c) (by omega)]; rfl
        · cases h
      · cases h
    split at h
    · rename_i hw
      split at h
      · rename_i b c d l
        split at h
        · rename_i hb
          rw [Bool.and_eq_true, Bool.and_eq_true, second4_iff, cont_iff, cont_iff] at hb
          cases h
          have e := toNat_char (n := a.toNat % 8 * 262144 + b.toNat % 64 * 4096 + c.toNat % 64 * 64 + d.toNat % 64) (by omega)
          rw [enc4 (by omega) (by omega) (by omega), e, u8_eq (a := a) (by omega), u8_eq (a := b) (by omega), u8_eq (a := c) (by omega), u8_eq (a := d) (by omega)]; rfl
        · cases h
      · cases h
    · cases h

theorem enc_pos (c : Char) : 1 ≤ (String.utf8EncodeChar c).length := by
  by_cases h1 : c.toNat ≤ 127
  · rw [enc1 h1]; simp
  by_cases h2 : c.toNat ≤ 2047
  · rw [enc2 h1 h2]; simp
  by_cases h3 : c.toNat ≤ 65535
  · rw [enc3 h1 h2 h3]; simp
  · rw [enc4 h1 h2 h3]; simp

theorem encode_cons (c : Char) (t : List Char) : encode (c :: t) = String.utf8EncodeChar c ++ encode t := rfl
theorem encode_append (s t : List Char) : encode (s ++ t) = encode s ++ encode t := by simp [encode]

theorem decodeFrom_encode : ∀ (t : List Char) (k : Nat), (encode t).length ≤ k → decodeFrom k (encode t) = some t
  | [], k, _ => by cases k <;> rfl
  | c :: t, k, h => by
    have h1 := enc_pos c
    rw [encode_cons, List.length_append] at h
    cases k with
    | zero => omega
    | succ k =>
      have e : encode (c :: t) ≠ [] := by
        intro e
        have : (encode (c :: t)).length = 0 := by rw [e]; rfl
        rw [encode_cons, List.length_append] at this
        omega
      unfold decodeFrom
      split
      · rename_i h2; exact absurd h2 e
      · rename_i h2 _; cases h2
      · rename_i h2 _
        cases h2
        rw [encode_cons, next_encode]
        simp only
        rw [decodeFrom_encode t _ (by omega)]; rfl

theorem decodeFrom_some : ∀ (k : Nat) (l : List UInt8) (t : List Char), decodeFrom k l = some t → encode t = l
  | 0, [], t, h => by cases h; rfl
  | 0, _ :: _, t, h => by cases h
  | k + 1, [], t, h => by cases h; rfl
  | k + 1, a :: l, t, h => by
    unfold decodeFrom at h
    split at h
    · cases h
    · rename_i c r hn
      cases hd : decodeFrom k r with
      | none => rw [hd] at h; cases h
      | some t' =>
        rw [hd] at h; cases h
        rw [encode_cons, decodeFrom_some k r t' hd, ← next_some hn]

theorem decode_iff {l : List UInt8} {t : List Char} : decode l = some t ↔ encode t = l :=
  ⟨decodeFrom_some _ _ _, fun h => by subst h; exact decodeFrom_encode t _ (Nat.le_refl _)⟩

theorem decode_encode (t : List Char) : decode (encode t) = some t := decode_iff.2 rfl

/-! ### Lines -/

theorem enc_newline : String.utf8EncodeChar '\n' = [10] := by decide

theorem enc_no_newline {c : Char} (h : c ≠ '\n') : (10 : UInt8) ∉ String.utf8EncodeChar c := by
  have hc : c.toNat ≠ 10 := fun e => h (by rw [← Char.ofNat_toNat c, e])
  have key : ∀ n, n < 256 → n ≠ 10 → (10 : UInt8) ≠ UInt8.ofNat n := by
    intro n h1 h2 e
    have := congrArg UInt8.toNat e
    rw [ofNat_u8 h1] at this
    exact h2 this.symm
  by_cases h1 : c.toNat ≤ 127
  · rw [enc1 h1]; simp only [List.mem_singleton]; exact key _ (by omega) hc
  by_cases h2 : c.toNat ≤ 2047
  · rw [enc2 h1 h2]; simp only [List.mem_cons, List.not_mem_nil, or_false, not_or]
    exact ⟨key _ (by omega) (by omega), key _ (by omega) (by omega)⟩
  by_cases h3 : c.toNat ≤ 65535
  · rw [enc3 h1 h2 h3]; simp only [List.mem_cons, List.not_mem_nil, or_false, not_or]
    exact ⟨key _ (by omega) (by omega), key _ (by omega) (by omega), key _ (by omega) (by omega)⟩
  · rw [enc4 h1 h2 h3]; simp only [List.mem_cons, List.not_mem_nil, or_false, not_or]
    exact ⟨key _ (by omega) (by omega), key _ (by omega) (by omega), key _ (by omega) (by omega), key _ (by omega) (by omega)⟩

theorem chunks_skip : ∀ (xs acc l : List UInt8), (10 : UInt8) ∉ xs → chunks acc (xs ++ l) = chunks (xs.reverse ++ acc) l
  | [], _, _, _ => rfl
  | x :: xs, acc, l, h => by
    rw [List.mem_cons, not_or] at h
    rw [List.cons_append, chunks, if_neg (fun e => h.1 e.symm), chunks_skip xs _ _ h.2, List.reverse_cons, List.append_assoc]; rfl

theorem endLine_plain {t : List Char} (h : '\n' ∉ t) : endLine t = t := by
  unfold endLine
  split
  · rename_i r e
    exact absurd (List.mem_reverse.1 (by rw [e]; simp)) h
  · rfl

theorem endLine_newline (t : List Char) : endLine (t.reverse ++ ['\n']) = (Text.chomp t).reverse := by
  unfold endLine
  rw [List.reverse_append, List.reverse_reverse]; rfl

theorem encode_nil {t : List Char} : encode t = [] ↔ t = [] := by
  cases t with
  | nil => simp [encode]
  | cons c t =>
    have := enc_pos c
    rw [encode_cons]
    constructor
    · intro h
      have : (String.utf8EncodeChar c ++ encode t).length = 0 := by rw [h]; rfl
      rw [List.length_append] at this; omega
    · intro h; cases h

theorem lines_encode_from : ∀ (t acc : List Char), '\n' ∉ acc →
    (chunks (encode acc.reverse).reverse (encode t)).map (fun c => (decode c).map endLine) = (Text.linesFrom acc t).map some
  | [], acc, h => by
    unfold Text.linesFrom
    show (chunks _ []).map _ = _
    unfold chunks
    cases acc with
    | nil => rfl
    | cons a acc =>
      have e : encode (a :: acc).reverse ≠ [] := by rw [Ne, encode_nil]; simp
      rw [if_neg (by simpa using e), if_neg (by simp), List.map_singleton, List.reverse_reverse, decode_encode, List.map_singleton, Option.map_some,
        endLine_plain (by rw [List.mem_reverse]; exact h)]
  | c :: t, acc, h => by
    unfold Text.linesFrom
    by_cases hc : c = '\n'
    · subst hc
      rw [if_pos rfl, encode_cons, enc_newline, List.singleton_append, chunks, if_pos rfl, List.map_cons, List.map_cons]
      have e : ((10 : UInt8) :: (encode acc.reverse).reverse).reverse = encode (acc.reverse ++ ['\n']) := by
        rw [encode_append, List.reverse_cons, List.reverse_reverse]; rfl
      rw [e, decode_encode, Option.map_some, endLine_newline]
      exact congrArg (_ :: ·) (lines_encode_from t [] (by simp))
    · rw [if_neg hc, encode_cons, chunks_skip _ _ _ (enc_no_newline hc)]
      have e : (String.utf8EncodeChar c).reverse ++ (encode acc.reverse).reverse = (encode (c :: acc).reverse).reverse := by
        rw [← List.reverse_append, List.reverse_cons, encode_append]; simp [encode]
      rw [e]
      exact lines_encode_from t (c :: acc) (by rw [List.mem_cons, not_or]; exact ⟨fun e => hc e.symm, h⟩)

/-- The lines of a text that is encoded are those of the text. -/
theorem lines_encode (t : List Char) : lines (encode t) = (Text.lines t).map some := lines_encode_from t [] (by simp)

theorem chunks_flatten : ∀ (l acc : List UInt8), (chunks acc l).flatten = acc.reverse ++ l
  | [], acc => by
    unfold chunks
    cases acc <;> simp
  | b :: l, acc => by
    unfold chunks
    split
    · rw [List.flatten_cons, chunks_flatten l []]; simp
    · rw [chunks_flatten l (b :: acc)]; simp

theorem decode_all : ∀ cs : List (List UInt8), (∀ c ∈ cs, ∃ t, decode c = some t) → ∃ t, encode t = cs.flatten
  | [], _ => ⟨[], rfl⟩
  | c :: cs, h => by
    obtain ⟨t, ht⟩ := h c (by simp)
    obtain ⟨u, hu⟩ := decode_all cs fun c hc => h c (by simp [hc])
    exact ⟨t ++ u, by rw [encode_append, decode_iff.1 ht, hu]; rfl⟩

/-- If all lines can be decoded, so can the whole file. -/
theorem decode_of_lines {l : List UInt8} (h : none ∉ lines l) : ∃ t, decode l = some t := by
  have h1 : ∀ c ∈ chunks [] l, ∃ t, decode c = some t := by
    intro c hc
    cases hd : decode c with
    | none => exact absurd (List.mem_map.2 ⟨c, hc, by rw [hd]; rfl⟩) h
    | some t => exact ⟨t, rfl⟩
  obtain ⟨t, ht⟩ := decode_all _ h1
  rw [chunks_flatten] at ht
  exact ⟨t, decode_iff.2 ht⟩

/-! ### Readers -/

theorem srflpLoop_some : ∀ (ls : List (List Char)) (s : Read.Srflp), srflpLoop s (ls.map some) = s.loop ls
  | [], _ => rfl
  | l :: ls, s => by
    rw [List.map_cons, srflpLoop, Read.Srflp.loop]
    cases s.step l with
    | none => rfl
    | some s => exact srflpLoop_some ls s

theorem srflpLoop_none : ∀ (ls : List (Option (List Char))) (s : Read.Srflp), none ∈ ls → srflpLoop s ls = none
  | none :: ls, s, _ => rfl
  | some l :: ls, s, h => by
    rw [srflpLoop]
    cases s.step l with
    | none => rfl
    | some s => exact srflpLoop_none ls s (by simpa using h)

theorem tsptwLoop_some : ∀ (ls : List (List Char)) (s : Read.Tsptw), tsptwLoop s (ls.map some) = s.loop ls
  | [], _ => rfl
  | l :: ls, s => by
    rw [List.map_cons, tsptwLoop, Read.Tsptw.loop]
    cases s.step l with
    | none => rfl
    | some s => exact tsptwLoop_some ls s

theorem tsptwLoop_none : ∀ (ls : List (Option (List Char))) (s : Read.Tsptw), none ∈ ls → tsptwLoop s ls = none
  | none :: ls, s, _ => rfl
  | some l :: ls, s, h => by
    rw [tsptwLoop]
    cases s.step l with
    | none => rfl
    | some s => exact tsptwLoop_none ls s (by simpa using h)

theorem pspSection_some : ∀ ls : List (List Char), pspSection (ls.map some) = some ((Read.section_ ls).1, (Read.section_ ls).2.map some)
  | [] => rfl
  | l :: ls => by
    rw [List.map_cons, pspSection, Read.section_]
    split
    · rfl
    · rw [pspSection_some ls]; rfl

theorem pspOptimum_some (ls : List (List Char)) : pspOptimum (ls.map some) = Read.knownOptimum ls := by
  unfold pspOptimum Read.knownOptimum
  rw [← List.map_drop]
  cases ls.drop 1 <;> rfl

theorem pspLines_some (ls : List (List Char)) : pspLines (ls.map some) = Read.psp ls := by
  rcases ls with _ | ⟨l1, _ | ⟨l2, _ | ⟨l3, ls⟩⟩⟩
  · rfl
  · rfl
  · rfl
  · simp only [List.map_cons, pspLines, Read.psp, ← List.map_drop, pspSection_some, Option.bind_some]
    cases Text.parseNat Text.usizeMax l1 with
    | none => rfl
    | some periods =>
    cases Text.parseNat Text.usizeMax l2 with
    | none => rfl
    | some items =>
    cases Text.parseNat Text.usizeMax l3 with
    | none => rfl
    | some orders =>
    simp only [Option.bind_some]
    cases Read.changeoverRows items 0 (fun _ _ => 0) (Read.section_ (ls.drop 1)).1 with
    | none => rfl
    | some changeover =>
    simp only [Option.bind_some]
    cases (Read.section_ (ls.drop 1)).2 with
    | nil => rfl
    | cons line ls' =>
      simp only [List.map_cons, ← List.map_drop, pspSection_some, Option.bind_some, pspOptimum_some]

theorem pspSection_getD : ∀ (ls : List (Option (List Char))) (r : List (List Char) × List (Option (List Char))), pspSection ls = some r →
    Read.section_ (ls.map fun o => o.getD []) = (r.1, r.2.map fun o => o.getD [])
  | [], r, h => by cases h; rfl
  | none :: _, r, h => by cases h
  | some l :: ls, r, h => by
    rw [pspSection] at h
    rw [List.map_cons, Read.section_, Option.getD_some]
    split at h
    · rename_i hl
      cases h
      rw [if_pos hl]
    · rename_i hl
      rw [if_neg hl]
      cases hs : pspSection ls with
      | none => rw [hs] at h; cases h
      | some r' =>
        rw [hs] at h; cases h
        rw [pspSection_getD ls r' hs]

theorem pspOptimum_getD (ls : List (Option (List Char))) {o : Option Nat} (h : pspOptimum ls = some o) : Read.knownOptimum (ls.map fun o => o.getD []) = some o := by
  unfold pspOptimum at h
  unfold Read.knownOptimum
  rw [← List.map_drop]
  cases hd : ls.drop 1 with
  | nil => rw [hd] at h; exact h
  | cons a l =>
    rw [hd] at h
    cases a with
    | none => cases h
    | some a => exact h

theorem pspLines_getD (ls : List (Option (List Char))) {P : Read.Psp} (h : pspLines ls = some P) : Read.psp (ls.map fun o => o.getD []) = some P := by
  unfold pspLines at h
  split at h
  · rename_i l1 l2 l3 ls
    simp only [Option.bind_eq_some_iff] at h
    obtain ⟨periods, h1, items, h2, orders, h3, r, h4, changeover, h5, h6⟩ := h
    split at h6
    · rename_i line ls' e
      simp only [Option.bind_eq_some_iff, Option.map_eq_some_iff] at h6
      obtain ⟨stocking, h7, r', h8, t, h9, optimum, h10, rfl⟩ := h6
      have g1 := pspSection_getD _ _ h4
      have g2 := pspSection_getD _ _ h8
      simp only [List.map_cons, Option.getD_some, Read.psp, h1, h2, h3, Option.bind_some, ← List.map_drop, g1, h5, e, h7, g2, h9, pspOptimum_getD _ h10, Option.map_some]
    · cases h6
  · cases h

/-! ### The byte order mark -/

theorem linesFrom_head {c : Char} (hc : c ≠ '\r') : ∀ (t a : List Char), ∃ l ls, Text.linesFrom (a ++ [c]) t = (c :: l) :: ls
  | [], a => by
    unfold Text.linesFrom
    rw [if_neg (by simp), List.reverse_append]
    exact ⟨_, _, rfl⟩
  | x :: t, a => by
    unfold Text.linesFrom
    split
    · have : ∃ b, Text.chomp (a ++ [c]) = b ++ [c] := by
        unfold Text.chomp
        split
        · rename_i l e
          cases a with
          | nil => injection e with e1; exact absurd e1 hc
          | cons y a =>
            injection e with _ e2
            exact ⟨a, e2.symm⟩
        · exact ⟨a, rfl⟩
      obtain ⟨b, hb⟩ := this
      rw [hb, List.reverse_append]
      exact ⟨_, _, rfl⟩
    · exact linesFrom_head hc t (x :: a)

theorem lines_head {c : Char} (hc : c ≠ '\r') (hn : c ≠ '\n') (t : List Char) : ∃ l ls, Text.lines (c :: t) = (c :: l) :: ls := by
  unfold Text.lines Text.linesFrom
  rw [if_neg hn]
  exact linesFrom_head hc t []

theorem parseNat_bom (max : Nat) (w : List Char) : Text.parseNat max (bom :: w) = none := by
  have h : Text.digit bom = none := by decide
  have e : Text.unplus (bom :: w) = bom :: w := by
    unfold Text.unplus
    split
    · rename_i e; injection e with e1; exact absurd e1 (by decide)
    · rfl
  rw [Text.parseNat, e, Text.magnitude, if_neg (by simp), Text.digits, h]

theorem trim_bom (l : List Char) : ∃ r, Text.trim (bom :: l) = bom :: r := by
  have := Read.trim_comment (a := []) (m := l) (c := bom) (by intro c hc; cases hc) (by decide)
  rw [List.nil_append] at this
  cases h : Text.trim (bom :: l) with
  | nil => rw [h] at this; cases this
  | cons x r => rw [h] at this; cases this; exact ⟨r, rfl⟩

theorem srflp_bom (t : List Char) : Read.srflp (Text.lines (bom :: t)) = none := by
  obtain ⟨l, ls, h⟩ := lines_head (c := bom) (by decide) (by decide) t
  obtain ⟨r, hr⟩ := trim_bom l
  obtain ⟨w, ws, hw⟩ := Read.head_words (p := Read.comma) (c := bom) (by decide) r
  rw [h]
  simp [Read.srflp, Read.Srflp.loop, Read.Srflp.step, hr, hw, parseNat_bom]

theorem tsptw_bom (t : List Char) : Read.tsptw (Text.lines (bom :: t)) = none := by
  obtain ⟨l, ls, h⟩ := lines_head (c := bom) (by decide) (by decide) t
  obtain ⟨r, hr⟩ := trim_bom l
  obtain ⟨w, ws, hw⟩ := Read.head_words (p := Text.isWs) (c := bom) (by decide) r
  have hb : bom ≠ '#' := by decide
  rw [h]
  simp [Read.tsptw, Read.Tsptw.loop, Read.Tsptw.step, Read.Tsptw.content, hr, hw, parseNat_bom, hb]

theorem psp_bom (t : List Char) : Read.psp (Text.lines (bom :: t)) = none := by
  obtain ⟨l, ls, h⟩ := lines_head (c := bom) (by decide) (by decide) t
  rw [h]
  rcases ls with _ | ⟨l2, _ | ⟨l3, ls⟩⟩
  · rfl
  · rfl
  · simp [Read.psp, parseNat_bom]

end Verif.Bytes
