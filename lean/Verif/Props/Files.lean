import Verif.Proofs.ReadersPsp
import Verif.Proofs.Decimal
import Verif.Props.Psp
import Verif.Props.Srflp
import Verif.Props.Tsptw
/-! C76-C79: reading instance files. -/
set_option autoImplicit false

namespace Verif.Props
open Verif Spec Text Files

/-! ### C76: words and numbers -/

/-- **C76.** The words of a line are found, whatever separates them and whatever white space is around them... -/
theorem text_line {sep : Char → Bool} {l : List Char} {ts : List (List Char)} (h : Line sep l ts) : words sep (trim l) = ts := line_words h

/-- **C76.** ...and every line in which all white space separates has exactly one reading as words. -/
theorem text_words {sep : Char → Bool} {l : List Char} {ts : List (List Char)} (h : ∀ c ∈ l, isWs c = true → sep c = true) : Words sep l ts ↔ words sep l = ts := words_iff h

/-- **C76.** Exactly the decimal notations of the numbers that fit are accepted, and each is read as its number... -/
theorem text_unsigned {w : List Char} {n max : Nat} : parseNat max w = some n ↔ Unsigned w n ∧ n ≤ max := parseNat_iff

/-- **C76.** ...with a sign too. -/
theorem text_signed {w : List Char} {z : Int} : parseInt w = some z ↔ Signed w z ∧ -2 ^ 63 ≤ z ∧ z < 2 ^ 63 := parseInt_iff

/-- **C76.** Exactly the decimal fractions are split into their digits and the number of those after the point... -/
theorem text_decimal {w : List Char} {n k : Nat} : parseDecimal w = some (n, k) ↔ Decimal w n k := parseDecimal_iff

/-- **C76.** ...and they may have a sign and an exponent, or be one of the words for infinity and for what is not a number, in upper or lower case. -/
theorem text_float_accepted {w : List Char} : (parseFloat w).isSome = true ↔ ∃ v, (w = v ∨ w = '+' :: v ∨ w = '-' :: v) ∧ ((∃ n k e, Scientific v n k e) ∨ v.map Char.toLower ∈ special) := by
  constructor
  · intro h
    unfold parseFloat at h
    split at h
    · rename_i v
      rw [Option.isSome_map] at h
      exact ⟨v, .inr (.inr rfl), parseMagnitude_isSome.1 h⟩
    · rw [Option.isSome_map] at h
      refine ⟨unplus w, ?_, parseMagnitude_isSome.1 h⟩
      unfold unplus
      split
      · exact .inr (.inl rfl)
      · exact .inl rfl
  · rintro ⟨v, hw, h⟩
    have hm := parseMagnitude_isSome.2 h
    rcases hw with rfl | rfl | rfl
    · rw [parseFloat_plain, Option.isSome_map]
      · exact hm
      · rcases h with ⟨n, k, e, h⟩ | h
        · obtain ⟨c, u, e, h1, h2, _⟩ := h.head
          exact ⟨c, u, e, h1, h2⟩
        · cases w with
          | nil => exact absurd h (by decide +kernel)
          | cons c u =>
            refine ⟨c, u, rfl, ?_, ?_⟩ <;> rintro rfl
            · have hh : (List.map Char.toLower ('-' :: u)).head? = some '-' := rfl
              exact absurd hh ((by decide +kernel : ∀ x ∈ special, x.head? ≠ some '-') _ h)
            · have hh : (List.map Char.toLower ('+' :: u)).head? = some '+' := rfl
              exact absurd hh ((by decide +kernel : ∀ x ∈ special, x.head? ≠ some '+') _ h)
    · rw [parseFloat_plus, Option.isSome_map]
      exact hm
    · simp only [parseFloat, Option.isSome_map]
      exact hm

/-- **C76.** A number with an exponent (of at most 655359) is read as what it stands for. -/
theorem text_float {v : List Char} {n k : Nat} {e : Int} (h : Scientific v n k e) (he : e.natAbs < 655360) :
    parseFloat v = some (false, .dec n (e - k)) ∧ parseFloat ('+' :: v) = some (false, .dec n (e - k)) ∧ parseFloat ('-' :: v) = some (true, .dec n (e - k)) := by
  obtain ⟨c, u, hv, h1, h2, _⟩ := h.head
  refine ⟨?_, ?_, ?_⟩
  · rw [parseFloat_plain ⟨c, u, hv, h1, h2⟩, parseMagnitude_of h he]; rfl
  · rw [parseFloat_plus, parseMagnitude_of h he]; rfl
  · simp only [parseFloat, parseMagnitude_of h he, Option.map_some]

/-- **C76.** White space is what Unicode says it is. -/
theorem text_white_space {c : Char} : isWs c = true ↔ c.toNat ∈ whiteSpace := isWs_iff

example : words Read.comma (trim "\t 3,,4\t05 ".toList) = ["3".toList, "4".toList, "05".toList] := by decide +kernel
example : Unsigned "+0042".toList 42 ∧ Signed "-7".toList (-7) := ⟨(parseNat_iff (max := 50)).1 (by decide +kernel) |>.1, (parseInt_iff.1 (by decide +kernel)).1⟩
example : parseNat 65535 "65536".toList = none ∧ parseNat 65535 "65535".toList = some 65535 ∧ parseNat 9 "-1".toList = none ∧ parseNat 9 "+".toList = none ∧ parseInt "- 1".toList = none := by decide +kernel
example : Decimal "40.3113".toList 403113 4 := .inr ⟨"40".toList, "3113".toList, by decide +kernel, digits_iff.2 ⟨by decide, by decide +kernel⟩, by decide⟩

example : parseFloat "2.5e-3".toList = some (false, .dec 25 (-4)) ∧ parseFloat "-1E2".toList = some (true, .dec 1 2) ∧ parseFloat "+NaN".toList = some (false, .nan) ∧ parseFloat "-Infinity".toList = some (true, .inf) ∧
    parseFloat "1e".toList = none ∧ parseFloat "e5".toList = none ∧ parseFloat "+-1".toList = none ∧ parseFloat "infinit".toList = none ∧ parseFloat "1e5.0".toList = none ∧ parseFloat "".toList = none := by decide +kernel
example : Scientific "2.5e-3".toList 25 1 (-3) :=
  .inr ⟨"2.5".toList, 'e', "-3".toList, by decide +kernel, .inl rfl, parseDecimal_iff.1 (by decide +kernel), (parseInt_iff.1 (by decide +kernel)).1⟩

/-! Files can be checked by computation. -/

theorem rows_row {sep : Char → Bool} {mark : Option Char} {l t : List Char} {ts : List (List Char)} {ls : List (List Char)} {rs : List (List (List Char))} (h1 : words sep l = t :: ts)
    (h2 : ∀ c ∈ l, isWs c = true → sep c = true) (h3 : ∀ c ∈ mark, t.head? ≠ some c) (h : Rows sep mark ls rs) : Rows sep mark (l :: ls) ((t :: ts) :: rs) :=
  .row (h1 ▸ line_self h2) (fun c hc => h3 c (by simp [hc])) h

theorem parseAll_inv {α : Type} {f : List Char → Option α} {R : List Char → α → Prop} (hf : ∀ w a, f w = some a → R w a) {ws : List (List Char)} : ∀ {as : List α}, Read.parseAll f ws = some as → List.Forall₂ R ws as := by
  induction ws with
  | nil => intro as h; cases h; exact .nil
  | cons w ws ih =>
    intro as h
    rw [Read.parseAll] at h
    split at h
    · rename_i a as' h1 h2
      cases h
      exact .cons (hf _ _ h1) (ih h2)
    · cases h

/-- **C76.** A row of words is read exactly if every word is, word by word; one word that is not a number spoils the row. -/
theorem text_row {α : Type} {f : List Char → Option α} {ws : List (List Char)} {as : List α} : Read.parseAll f ws = some as ↔ List.Forall₂ (fun w a => f w = some a) ws as :=
  ⟨parseAll_inv fun _ _ h => h, fun h => by simpa using Read.parseAll_of (g := id) (ok := fun _ => True) (fun _ _ h _ => h) h (fun _ _ => trivial)⟩

example : Read.parseAll parseInt ["1".toList, "x".toList, "2".toList] = none ∧ Read.parseAll parseInt ["1".toList, "2".toList] = some [1, 2] := by decide +kernel

theorem signed_row {ws : List (List Char)} {vs : List Int} (h : Read.parseAll parseInt ws = some vs) : List.Forall₂ Signed ws vs := parseAll_inv (fun _ _ h => (parseInt_iff.1 h).1) h

theorem unsigned_row {ws : List (List Char)} {vs : List Nat} (h : Read.parseAll (parseNat usizeMax) ws = some vs) : List.Forall₂ Unsigned ws vs := parseAll_inv (fun _ _ h => (parseNat_iff.1 h).1) h

theorem block_line {l t : List Char} {ts : List (List Char)} {ns : List Nat} {ls : List (List Char)} {rs : List (List Nat)} (h1 : words isWs l = t :: ts) (h2 : Read.parseAll (parseNat usizeMax) (t :: ts) = some ns)
    (h3 : ∀ n ∈ ns, n < 2 ^ 64) (h : Block ls rs) : Block (l :: ls) (ns :: rs) :=
  .cons (h1 ▸ line_self fun _ _ h => h) (unsigned_row h2) h3 h

/-! ### C77: files of the example `srflp` -/

/-- **C77.** A well-formed file is read: the lengths as they are written, the flows as in C68. -/
theorem srflp_file {lines : List (List Char)} {lens : List Int} {flows : List (List Int)} (h : SrflpFile lines lens flows) :
    ∃ I, Read.srflp lines = some I ∧ I.n = lens.length ∧ (∀ i, I.len i = lens.getD i 0) ∧
      ∀ i j, i < I.n → j < I.n → I.flow i j = if entry flows i j ≠ entry flows j i then entry flows i j + entry flows j i else entry flows i j :=
  ⟨_, Read.srflp_of h, rfl, fun _ => rfl, fun _ _ hi hj => srflp_symmetrise _ hi hj⟩

theorem entry_mem {α : Type} [Inhabited α] {rows : List (List α)} {n i j : Nat} (h1 : rows.length = n) (h2 : ∀ r ∈ rows, r.length = n) (hi : i < n) (hj : j < n) : ∃ r ∈ rows, entry rows i j ∈ r := by
  have h3 : i < rows.length := by omega
  refine ⟨rows[i], List.getElem_mem h3, ?_⟩
  have h4 : j < rows[i].length := by rw [h2 _ (List.getElem_mem h3)]; exact hj
  unfold entry
  simp [List.getD, h3, h4]

/-- The instance that is read meets the conditions of C72. -/
theorem srflp_file_conditions {lines : List (List Char)} {lens : List Int} {flows : List (List Int)} (h : SrflpFile lines lens flows) {F L : Nat} (hlen : ∀ z ∈ lens, 0 ≤ z ∧ z ≤ L)
    (hflow : ∀ r ∈ flows, ∀ z ∈ r, 0 ≤ z ∧ z ≤ F) (hsmall : 4 * (lens.length + 2) * (lens.length * lens.length * (2 * F) * (L + 1)) ≤ 2 ^ 63 - 1) (hprec : lens.length * (2 * F) * L < 2 ^ 23) :
    ∃ I, Read.srflp lines = some I ∧ I.n = lens.length ∧ Srflp.Bounded I (2 * F) L ∧ Srflp.Symmetric I ∧ Srflp.Flows I ∧ Srflp.Lengths I ∧ Srflp.Precise I (2 * F) L := by
  have hread := Read.srflp_of h
  obtain ⟨⟨_, _, tl, _, _, hr, _, hl, _⟩, ⟨h1, h2⟩, _⟩ := h
  have hent : ∀ i j, i < lens.length → j < lens.length → 0 ≤ entry flows i j ∧ entry flows i j ≤ F := by
    intro i j hi hj
    obtain ⟨r, hr, hz⟩ := entry_mem h1 h2 hi hj
    exact hflow r hr _ hz
  have hlen' : ∀ i, i < lens.length → 0 ≤ lens.getD i 0 ∧ lens.getD i 0 ≤ L := by
    intro i hi
    have : lens.getD i 0 = lens[i] := by simp [List.getD, hi]
    rw [this]
    exact hlen _ (List.getElem_mem hi)
  have hsym : ∀ i j, i < lens.length → j < lens.length → 0 ≤ Srflp.symmetrise lens.length (entry flows) i j ∧ Srflp.symmetrise lens.length (entry flows) i j ≤ 2 * F := by
    intro i j hi hj
    rw [srflp_symmetrise _ hi hj]
    have := hent i j hi hj
    have := hent j i hj hi
    split <;> omega
  refine ⟨_, hread, rfl, ⟨?_, ?_, hsmall⟩, srflp_symmetric _ _ _, ?_, ?_, hprec⟩
  · intro i j hi hj
    have := hsym i j hi hj
    push_cast
    exact ⟨by omega, this.2⟩
  · intro i hi
    have := hlen' i hi
    exact ⟨by simp only; omega, this.2⟩
  · intro i j hi hj
    exact (hsym i j hi hj).1
  · intro i hi
    exact (hlen' i hi).1

/-- **C77 (partial).** From the file to the result: if no number is negative, flows are at most `F` and lengths at most `L`, and these are small enough, then the program finds a cheapest layout, with any number of
threads and the cutset `LastExactLayer`. -/
theorem srflp_file_optimal_partial {lines : List (List Char)} {lens : List Int} {flows : List (List Int)} (h : SrflpFile lines lens flows) {F L : Nat} (hlen : ∀ z ∈ lens, 0 ≤ z ∧ z ≤ L)
    (hflow : ∀ r ∈ flows, ∀ z ∈ r, 0 ≤ z ∧ z ≤ F) (hsmall : 4 * (lens.length + 2) * (lens.length * lens.length * (2 * F) * (L + 1)) ≤ 2 ^ 63 - 1) (hprec : lens.length * (2 * F) * L < 2 ^ 23) :
    ∃ I, Read.srflp lines = some I ∧ ∀ {w : Nat}, lens.length * w % 2 ^ 64 ≠ 0 → ∀ {n : Nat}, 1 ≤ n → ∀ {s : Sys Srflp.State (Srflp.cfgOf I w n .lastExactLayer).fr.F}, ReachableMax (Srflp.cfgOf I w n .lastExactLayer) s → Finished s →
      ∀ {C : Int}, Srflp.Cheapest2 I C → ∃ v, Par.bestValue (Srflp.cfgOf I w n .lastExactLayer) s.crit = some v ∧ 2 * v = Srflp.fixed2 I - C := by
  obtain ⟨I, h1, h2, h3, h4, h5, h6, h7⟩ := srflp_file_conditions h hlen hflow hsmall hprec
  exact ⟨I, h1, fun hw _ hn _ hr hf _ hC => srflp_optimal_partial h3 h4 h5 h6 h7 (by rw [h2]; exact hw) hn hr hf hC⟩

/-- A file with commas, tabulators, a blank line, and a line that is not read -/
def srflpText : List (List Char) := ["3 departments".toList, "".toList, "1, 2,\t3 ".toList, " 0 1 2".toList, "1 0 3".toList, "\t2\t4\t0".toList, "end".toList]

theorem srflpText_file : SrflpFile srflpText [1, 2, 3] [[0, 1, 2], [1, 0, 3], [2, 4, 0]] where
  rows := ⟨"3".toList, ["departments".toList], ["1".toList, "2".toList, "3".toList], [["0".toList, "1".toList, "2".toList], ["1".toList, "0".toList, "3".toList], ["2".toList, "4".toList, "0".toList]], [["end".toList]],
    rows_row (by decide +kernel) (by decide +kernel) (by simp) (.blank (by unfold Blank; decide +kernel) (rows_row (by decide +kernel) (by decide +kernel) (by simp) (rows_row (by decide +kernel) (by decide +kernel) (by simp)
      (rows_row (by decide +kernel) (by decide +kernel) (by simp) (rows_row (by decide +kernel) (by decide +kernel) (by simp) (rows_row (by decide +kernel) (by decide +kernel) (by simp) .nil)))))),
    (parseNat_iff (max := 3)).1 (by decide +kernel) |>.1, signed_row (by decide +kernel), .cons (signed_row (by decide +kernel)) (.cons (signed_row (by decide +kernel)) (.cons (signed_row (by decide +kernel)) .nil))⟩
  square := by decide
  fits := ⟨by unfold Fits; decide, by unfold Fits; decide, by decide⟩

example : ∃ I, Read.srflp srflpText = some I ∧ ∀ {s : Sys Srflp.State (Srflp.cfgOf I 1 2 .lastExactLayer).fr.F}, ReachableMax (Srflp.cfgOf I 1 2 .lastExactLayer) s → Finished s →
    ∀ {C : Int}, Srflp.Cheapest2 I C → ∃ v, Par.bestValue (Srflp.cfgOf I 1 2 .lastExactLayer) s.crit = some v ∧ 2 * v = Srflp.fixed2 I - C := by
  obtain ⟨I, h1, h2⟩ := srflp_file_optimal_partial srflpText_file (F := 4) (L := 3) (by decide) (by decide) (by decide) (by decide)
  exact ⟨I, h1, h2 (by decide) (by decide)⟩

/-- Nothing checks that the file is complete: with a missing row, the flows of the last department are 0 where they cannot be taken from the other rows. -/
theorem srflp_missing_row : ∃ I, Read.srflp ["3".toList, "1 2 3".toList, "0 1 2".toList, "1 0 3".toList] = some I ∧ I.n = 3 ∧ I.flow 2 1 = 3 ∧ I.flow 1 2 = 3 ∧ I.flow 0 1 = 1 :=
  ⟨_, rfl, by decide +kernel, by decide +kernel, by decide +kernel, by decide +kernel⟩

/-! ### C78: files of the example `psp` -/

/-- The instance that a file describes -/
def pspInst (periods : Nat) (changeover : List (List Nat)) (stocking : List Nat) (demand : List (List Nat)) : Psp.Inst :=
  { periods := periods, items := stocking.length, changeover := entry changeover, stocking := fun i => stocking.getD i 0, demand := entry demand }

/-- **C78.** A well-formed file is read as it is written, and the two tables of demands are those of C60. -/
theorem psp_file {lines : List (List Char)} {periods orders : Nat} {changeover : List (List Nat)} {stocking : List Nat} {demand : List (List Nat)} {optimum : Option Nat}
    (h : PspFile lines periods orders changeover stocking demand optimum) :
    ∃ P, Read.psp lines = some P ∧ P.periods = periods ∧ P.items = stocking.length ∧ P.orders = orders ∧ P.optimum = optimum ∧ P.changeover = entry changeover ∧ P.stocking = stocking ∧
      ∀ i, i < P.items → ∀ p, P.prev i p = Psp.prevDemand (pspInst periods changeover stocking demand) i p ∧ P.rem i p = Psp.remDemand (pspInst periods changeover stocking demand) i p := by
  refine ⟨_, Read.psp_of h, rfl, rfl, rfl, rfl, rfl, rfl, fun i hi p => ?_⟩
  have hi' : i < demand.length := by rw [h.table.1]; exact hi
  exact ⟨by simp only [Read.prevTable, if_pos hi']; rfl, by simp only [Read.remTable, if_pos hi']; rfl⟩

/-- **C78.** In terms of the file: before the last deadline that `prev` gives there is a positive number, and between it and `p` there are only zeros; `rem` counts the positive numbers up to `p`. -/
theorem psp_file_tables {lines : List (List Char)} {periods orders : Nat} {changeover : List (List Nat)} {stocking : List Nat} {demand : List (List Nat)} {optimum : Option Nat}
    (h : PspFile lines periods orders changeover stocking demand optimum) :
    ∃ P, Read.psp lines = some P ∧ ∀ i, i < P.items →
      (∀ p, p ≤ periods → (P.prev i p = -1 ∧ ∀ q, q < p → entry demand i q = 0) ∨
        ∃ d : Nat, P.prev i p = d ∧ d < p ∧ 0 < entry demand i d ∧ ∀ q, d < q → q < p → entry demand i q = 0) ∧
      ∀ p, p < periods → P.rem i p = ((List.range (p + 1)).countP fun q => 0 < entry demand i q : Nat) := by
  obtain ⟨P, h1, h2, h3, _, _, _, _, h4⟩ := psp_file h
  refine ⟨P, h1, fun i hi => ⟨fun p hp => ?_, fun p hp => ?_⟩⟩
  · rw [(h4 i hi p).1]
    exact psp_prev_demand (I := pspInst periods changeover stocking demand) h.positive i hp
  · rw [(h4 i hi p).2]
    exact psp_rem_demand (I := pspInst periods changeover stocking demand) h.positive i hp

/-- The instance that is read meets the conditions of C65. -/
theorem psp_file_conditions {lines : List (List Char)} {periods orders : Nat} {changeover : List (List Nat)} {stocking : List Nat} {demand : List (List Nat)} {optimum : Option Nat}
    (h : PspFile lines periods orders changeover stocking demand optimum) (hunit : ∀ r ∈ demand, ∀ d ∈ r, d ≤ 1)
    (htri : ∀ a b c, a < stocking.length → b < stocking.length → c < stocking.length → entry changeover a c ≤ entry changeover a b + entry changeover b c) {X Y : Nat}
    (hX : ∀ r ∈ changeover, ∀ x ∈ r, x ≤ X) (hY : ∀ y ∈ stocking, y ≤ Y) (hsmall : 4 * (periods + 2) * (X + Y * periods) ≤ 2 ^ 63 - 1) :
    1 ≤ (pspInst periods changeover stocking demand).periods ∧ Psp.Bounded (pspInst periods changeover stocking demand) (X + Y * periods) ∧
      Psp.Triangle (pspInst periods changeover stocking demand) ∧ Psp.UnitDemand (pspInst periods changeover stocking demand) := by
  refine ⟨h.positive, ⟨?_, hsmall⟩, htri, ?_⟩
  · intro i j hi hj
    have hi : i < stocking.length := hi
    obtain ⟨r, hr, hx⟩ := entry_mem h.square.1 h.square.2 hi hj
    have g1 : entry changeover i j ≤ X := hX r hr _ hx
    have g2 : stocking.getD i 0 ≤ Y := by
      have e : stocking.getD i 0 = stocking[i] := by simp [List.getD, hi]
      rw [e]; exact hY _ (List.getElem_mem hi)
    exact Nat.add_le_add g1 (Nat.mul_le_mul_right _ g2)
  · intro i t hi ht
    have hi' : i < demand.length := by rw [h.table.1]; exact hi
    have ht' : t < demand[i].length := by rw [h.table.2 _ (List.getElem_mem hi')]; exact ht
    have e : entry demand i t = demand[i][t] := by simp [entry, List.getD, hi', ht']
    show entry demand i t ≤ 1
    rw [e]
    exact hunit _ (List.getElem_mem hi') _ (List.getElem_mem ht')

/-- **C78 (partial).** From the file to the result: if all demands are 0 or 1 and the costs satisfy the triangle inequality and are small enough, the program returns the cost of a cheapest plan, with any number of
threads and the cutset `LastExactLayer`. -/
theorem psp_file_optimal_partial {lines : List (List Char)} {periods orders : Nat} {changeover : List (List Nat)} {stocking : List Nat} {demand : List (List Nat)} {optimum : Option Nat}
    (h : PspFile lines periods orders changeover stocking demand optimum) (hunit : ∀ r ∈ demand, ∀ d ∈ r, d ≤ 1)
    (htri : ∀ a b c, a < stocking.length → b < stocking.length → c < stocking.length → entry changeover a c ≤ entry changeover a b + entry changeover b c) {X Y : Nat}
    (hX : ∀ r ∈ changeover, ∀ x ∈ r, x ≤ X) (hY : ∀ y ∈ stocking, y ≤ Y) (hsmall : 4 * (periods + 2) * (X + Y * periods) ≤ 2 ^ 63 - 1) :
    ∃ P, Read.psp lines = some P ∧ ∃ I : Psp.Inst, I.periods = P.periods ∧ I.items = P.items ∧ I.changeover = P.changeover ∧ (∀ i, I.stocking i = P.stocking.getD i 0) ∧ I.demand = entry demand ∧
      (∀ i, i < P.items → ∀ p, Psp.prevDemand I i p = P.prev i p ∧ Psp.remDemand I i p = P.rem i p) ∧
      ∀ {σ : List Psp.Edge → List Psp.Edge} {w : Nat}, periods * w % 2 ^ 64 ≠ 0 → ∀ {n : Nat}, 1 ≤ n → ∀ {s : Sys Psp.State (Psp.cfgOf I σ w n .lastExactLayer).fr.F}, ReachableMax (Psp.cfgOf I σ w n .lastExactLayer) s → Finished s →
        ∀ {C : Nat}, Psp.Cheapest I C → Par.bestValue (Psp.cfgOf I σ w n .lastExactLayer) s.crit = some (-(C : Int)) := by
  obtain ⟨P, h1, h2, h3, _, _, h4, h5, h6⟩ := psp_file h
  refine ⟨P, h1, pspInst periods changeover stocking demand, h2.symm, h3.symm, h4.symm, fun i => by rw [h5]; rfl, rfl, fun i hi p => ⟨(h6 i hi p).1.symm, (h6 i hi p).2.symm⟩, ?_⟩
  obtain ⟨g1, g2, g3, g4⟩ := psp_file_conditions h hunit htri hX hY hsmall
  exact fun hw _ hn _ hs hf _ hC => psp_optimal_partial g1 g2 g3 g4 hw hn hs hf hC

/-- Three periods, two items, and the cost of a best plan -/
def pspText : List (List Char) := ["3".toList, "2".toList, "3".toList, "".toList, "0 5".toList, "4 0 ".toList, "".toList, " 1 2".toList, "".toList, "0 1 0".toList, "0 1 1".toList, "".toList, "".toList, "7 ".toList]

theorem pspText_file : PspFile pspText 3 3 [[0, 5], [4, 0]] [1, 2] [[0, 1, 0], [0, 1, 1]] (some 7) where
  parts := ⟨"3".toList, "2".toList, "3".toList, [], [], " 1 2".toList, [], ["0 5".toList, "4 0 ".toList], ["0 1 0".toList, "0 1 1".toList], ["".toList, "".toList, "7 ".toList], ["1".toList, "2".toList], by decide +kernel,
    ((parseNat_iff (max := 9)).1 (by decide +kernel)).1, ((parseNat_iff (max := 9)).1 (by decide +kernel)).1, ((parseNat_iff (max := 9)).1 (by decide +kernel)).1,
    block_line (t := "0".toList) (ts := ["5".toList]) (by decide +kernel) (by decide +kernel) (by decide +kernel) (block_line (t := "4".toList) (ts := ["0".toList]) (by decide +kernel) (by decide +kernel) (by decide +kernel) .nil),
    by unfold Blank; decide, (words_iff (by decide +kernel)).2 (by decide +kernel), unsigned_row (by decide +kernel),
    block_line (t := "0".toList) (ts := ["1".toList, "0".toList]) (by decide +kernel) (by decide +kernel) (by decide +kernel)
      (block_line (t := "0".toList) (ts := ["1".toList, "1".toList]) (by decide +kernel) (by decide +kernel) (by decide +kernel) .nil),
    .known (w := "7".toList) (by unfold Blank; decide +kernel) ⟨[], " ".toList, by decide +kernel, by unfold Blank; decide, by unfold Blank; decide +kernel⟩ ((parseNat_iff (max := 9)).1 (by decide +kernel)).1 (by decide)⟩
  square := by decide
  table := by decide
  fits := by decide
  positive := by decide

example : ∃ P, Read.psp pspText = some P ∧ P.optimum = some 7 ∧ P.prev 1 3 = 2 ∧ P.prev 1 2 = 1 ∧ P.prev 1 1 = -1 ∧ P.rem 1 2 = 2 :=
  ⟨_, Read.psp_of pspText_file, rfl, by decide +kernel, by decide +kernel, by decide +kernel, by decide +kernel⟩

example : ∃ P, Read.psp pspText = some P ∧ ∃ I : Psp.Inst, I.items = P.items ∧
    ∀ {σ : List Psp.Edge → List Psp.Edge} {s : Sys Psp.State (Psp.cfgOf I σ 1 2 .lastExactLayer).fr.F}, ReachableMax (Psp.cfgOf I σ 1 2 .lastExactLayer) s → Finished s →
      ∀ {C : Nat}, Psp.Cheapest I C → Par.bestValue (Psp.cfgOf I σ 1 2 .lastExactLayer) s.crit = some (-(C : Int)) := by
  obtain ⟨P, h1, I, _, h2, _, _, _, _, h3⟩ := psp_file_optimal_partial pspText_file (X := 5) (Y := 2) (by decide) (fun a b c ha hb hc =>
    (by decide : ∀ a : Fin 2, ∀ b : Fin 2, ∀ c : Fin 2, entry [[0, 5], [4, 0]] a.1 c.1 ≤ entry [[0, 5], [4, 0]] a.1 b.1 + entry [[0, 5], [4, 0]] b.1 c.1) ⟨a, ha⟩ ⟨b, hb⟩ ⟨c, hc⟩) (by decide) (by decide) (by decide)
  exact ⟨P, h1, I, h2, h3 (by decide) (by decide)⟩

/-- **C78 is false for files that are cut off**: if the line of an item is missing or too short, the table says that the item is due in period 0, although nothing of it is wanted.  There is no error. -/
theorem psp_missing_line_due : ∃ P, Read.psp ["2".toList, "2".toList, "1".toList, "".toList, "0 5".toList, "4 0".toList, "".toList, "1 2".toList, "".toList, "0 1".toList] = some P ∧
    P.periods = 2 ∧ P.items = 2 ∧ P.prev 0 2 = 1 ∧ P.prev 1 2 = 0 :=
  ⟨_, rfl, by decide +kernel, by decide +kernel, by decide +kernel, by decide +kernel⟩

/-! ### C79: files of the example `tsptw` -/

/-- Ten thousand times the fraction `n / 10 ^ k`, if there are at most four digits after the point -/
def exactly (x : Nat × Nat) : Nat := x.1 * 10 ^ (4 - x.2)

theorem exactly_eq {x : Nat × Nat} (h : x.2 ≤ 4) : exactly x * 10 ^ x.2 = x.1 * 10000 := by
  unfold exactly
  rw [Nat.mul_assoc, ← Nat.pow_add, Nat.sub_add_cancel h]

/-- **C79 (partial).** A number with at most four digits after the point and below 838.8608 is read as its ten thousandfold, or as one less... -/
theorem tsptw_number_partial {w : List Char} {x : Nat × Nat} (h : IsDecimal w x) (hk : x.2 ≤ 4) (hlt : exactly x < 2 ^ 23) : ∃ N, Read.number w = some N ∧ (N = exactly x ∨ N + 1 = exactly x) :=
  ⟨_, Read.number_of h, Read.tenThousandths_close (by omega) (exactly_eq hk) hlt⟩

/-- **C79 (partial).** ...any number below 2 ^ 48 with a relative error of at most 2 ^ (-22), and possibly one less... -/
theorem tsptw_number_error {w : List Char} {x : Nat × Nat} (h : IsDecimal w x) (hk : x.2 ≤ 31) (hlt : x.1 < 2 ^ 48 * 10 ^ x.2) :
    ∃ N, Read.number w = some N ∧ |(N : ℚ) - x.1 * 10000 / 10 ^ x.2| ≤ x.1 * 10000 / 10 ^ x.2 / 2 ^ 22 + 1 :=
  ⟨_, Read.number_of h, Read.tenThousandths_error hk hlt⟩

/-- **C79 (partial).** ...and integers up to 26843 exactly. -/
theorem tsptw_number_integer {w : List Char} {n : Nat} (h : Digits w n) (hn : n ≤ 26843) : Read.number w = some (10000 * n) := by
  rw [Read.number_of (x := (n, 0)) (.inl ⟨h, rfl⟩)]
  exact congrArg some (Read.tenThousandths_integer (by omega))

/-- **C79.** A larger number is never read as a smaller one, so that no time window becomes empty. -/
theorem tsptw_number_order {w w' : List Char} {x x' : Nat × Nat} (h : IsDecimal w x) (h' : IsDecimal w' x') (hk : x.2 ≤ 31) (hk' : x'.2 ≤ 31) (hle : (x.1 : ℚ) / 10 ^ x.2 ≤ x'.1 / 10 ^ x'.2) :
    ∃ N N', Read.number w = some N ∧ Read.number w' = some N' ∧ N ≤ N' := by
  refine ⟨_, _, Read.number_of h, Read.number_of h', Read.tenThousandths_mono hk hk' ?_⟩
  rw [div_le_div_iff₀ (by positivity) (by positivity)] at hle
  exact_mod_cast hle

/-- **C79.** A negative number is accepted and read as 0... -/
theorem tsptw_number_negative {v : List Char} {n k : Nat} {e : Int} (h : Scientific v n k e) : Read.number ('-' :: v) = some 0 := by
  have := parseMagnitude_isSome.2 (.inl ⟨n, k, e, h⟩)
  rw [Option.isSome_iff_exists] at this
  obtain ⟨x, hx⟩ := this
  simp [Read.number, parseFloat, hx, Read.toUsize]

/-- **C79.** ...and so is `nan`; `inf` is read as the largest number. -/
theorem tsptw_number_special {w : List Char} : (w.map Char.toLower = "nan".toList → Read.number w = some 0) ∧ (w.map Char.toLower = "inf".toList ∨ w.map Char.toLower = "infinity".toList → Read.number w = some (2 ^ 64 - 1)) := by
  have key : ∀ {c : Char}, w.map Char.toLower ∈ special → (w.map Char.toLower).head? = some c → parseNumber w = none ∧ parseFloat w = (parseMagnitude w).map fun x => (false, x) := by
    intro c hs hc
    cases w with
    | nil => cases hc
    | cons d u =>
      have hd : d.toLower = 'n' ∨ d.toLower = 'i' := by
        have := (by decide +kernel : ∀ x ∈ special, x.head? = some 'n' ∨ x.head? = some 'i') _ hs
        simpa using this
      refine ⟨?_, parseFloat_plain ⟨d, u, rfl, ?_, ?_⟩⟩
      · cases hp : parseNumber (d :: u) with
        | none => rfl
        | some x =>
          obtain ⟨n, k, e, h⟩ := parseNumber_isSome.1 (by rw [hp]; rfl)
          have hdig : d = '.' ∨ ∃ x : Fin 10, d = Char.ofNat (48 + x.1) := by
            have key : ∀ {a : List Char}, Decimal a n k → a.head? = some d → d = '.' ∨ ∃ x : Fin 10, d = Char.ofNat (48 + x.1) := by
              intro a ha hh
              rcases ha.mem d (List.mem_of_mem_head? hh) with e | ⟨x, hx, e⟩
              · exact .inl e
              · exact .inr ⟨⟨x, hx⟩, e⟩
            rcases h with ⟨h, _⟩ | ⟨a, c, b, e, _, h, _⟩
            · exact key h rfl
            · refine key h ?_
              cases a with
              | nil => exact absurd rfl h.ne_nil
              | cons _ _ => simp at e; simp [e.1]
          have hlow : d.toLower = d := by
            rcases hdig with rfl | ⟨x, rfl⟩
            · decide +kernel
            · exact (by decide +kernel : ∀ x : Fin 10, (Char.ofNat (48 + x.1)).toLower = Char.ofNat (48 + x.1)) x
          rw [hlow] at hd
          rcases hdig with rfl | ⟨x, rfl⟩
          · exact absurd hd (by decide)
          · exact absurd hd ((by decide +kernel : ∀ x : Fin 10, ¬ (Char.ofNat (48 + x.1) = 'n' ∨ Char.ofNat (48 + x.1) = 'i')) x)
      · rintro rfl; exact absurd hd (by decide +kernel)
      · rintro rfl; exact absurd hd (by decide +kernel)
  constructor
  · intro h
    obtain ⟨h1, h2⟩ := key (c := 'n') (by rw [h]; decide +kernel) (by rw [h]; decide +kernel)
    have h' : w.map Char.toLower = ['n', 'a', 'n'] := by rw [h]; decide +kernel
    simp [Read.number, h2, parseMagnitude, h1, h', Read.toUsize]
  · intro h
    obtain ⟨h1, h2⟩ := key (c := 'i') (by rcases h with h | h <;> (rw [h]; decide +kernel)) (by rcases h with h | h <;> (rw [h]; decide +kernel))
    have h' : w.map Char.toLower ≠ ['n', 'a', 'n'] ∧ (w.map Char.toLower = ['i', 'n', 'f'] ∨ w.map Char.toLower = ['i', 'n', 'f', 'i', 'n', 'i', 't', 'y']) := by
      rcases h with h | h <;> (rw [h]; decide +kernel)
    simp [Read.number, h2, parseMagnitude, h1, h'.1, h'.2, Read.toUsize, usizeMax]

/-- **C79.** It does not matter how a number is written: with an exponent, with more zeros, with the point elsewhere. -/
theorem tsptw_number_notation {w w' : List Char} {n k n' k' : Nat} {e e' : Int} (h : Scientific w n k e) (h' : Scientific w' n' k' e') (he : e.natAbs < 655360) (he' : e'.natAbs < 655360) (hk : k ≤ e + 31) (hk' : k' ≤ e' + 31)
    (heq : (n : ℚ) * 10 ^ (e - k) = n' * 10 ^ (e' - k')) : Read.number w = Read.number w' := by
  rw [Read.number_scientific h he, Read.number_scientific h' he']
  have key : ∀ (n k : Nat) (e : Int), (n : ℚ) * 10 ^ (e - k) = ((n * 10 ^ (e - k).toNat : Nat) : ℚ) / ((10 ^ (k - e).toNat : Nat) : ℚ) := by
    intro n k e
    rcases Int.le_total e k with hle | hle
    · have e1 : (e - k).toNat = 0 := by omega
      obtain ⟨m, hm⟩ : ∃ m : Nat, (k : Int) - e = m := ⟨(k - e).toNat, by omega⟩
      have e2 : ((k : Int) - e).toNat = m := by omega
      have e3 : e - k = -(m : Int) := by omega
      rw [e1, e2, e3, zpow_neg, zpow_natCast]
      push_cast
      ring
    · obtain ⟨m, hm⟩ : ∃ m : Nat, e - (k : Int) = m := ⟨(e - k).toNat, by omega⟩
      have e1 : ((k : Int) - e).toNat = 0 := by omega
      have e2 : (e - (k : Int)).toNat = m := by omega
      rw [e1, e2, hm, zpow_natCast]
      push_cast
      ring
  rw [key, key, div_eq_div_iff (by positivity) (by positivity)] at heq
  have heq' : n * 10 ^ (e - k).toNat * 10 ^ (k' - e').toNat = n' * 10 ^ (e' - k').toNat * 10 ^ (k - e).toNat := by exact_mod_cast heq
  exact congrArg some (Nat.le_antisymm (Read.tenThousandths_mono (by omega) (by omega) (by omega)) (Read.tenThousandths_mono (by omega) (by omega) (by omega)))

/-- **C79.** The digits of an exponent count until their value is 65536 or more: the rest is skipped. -/
theorem text_exponent {v : List Char} {n : Nat} (h : Digits v n) : ∃ a b m, v = a ++ b ∧ Digits a m ∧ parseExponent v = some (m : Int) ∧ parseExponent ('-' :: v) = some (-(m : Int)) ∧
    m < 655360 ∧ (b = [] ∨ 65536 ≤ m) := by
  obtain ⟨a, b, m, h1, h2, h3, h4, h5⟩ := exponentDigits_spec (digits_of h) (by decide)
  have hne : v.isEmpty = false := by simpa using h.ne_nil
  have hm : '-' ∉ v := h.not (x := '-') (by decide)
  have ha : a ≠ [] := by
    rintro rfl
    cases h2
    rcases h5 with rfl | h5
    · exact h.ne_nil h1
    · omega
  refine ⟨a, b, m, h1, digits_iff.2 ⟨ha, h2⟩, ?_, ?_, h4, h5⟩
  · unfold parseExponent
    split
    · exact absurd (List.mem_cons_self ..) hm
    · rw [unplus_id (h.not (x := '+') (by decide)), hne, h3]; rfl
  · simp [parseExponent, hne, h3]

example : parseExponent "655359".toList = some 655359 ∧ parseExponent "655360".toList = some 65536 ∧ parseExponent "-6553712".toList = some (-65537) := by decide +kernel

/-- **C79 is false**: 40.3113 (a number in the file `SolomonPesant/rc201.0`) is read as 403112, 54586 as 545859968, and 99999 as 999990016. -/
theorem tsptw_number_misread : Read.number "40.3113".toList = some 403112 ∧ Read.number "54586".toList = some 545859968 ∧ Read.number "99999".toList = some 999990016 := by decide +kernel

-- the smallest integer that is misread
example : Read.number "26844".toList = some 268440000 ∧ Read.number "26845".toList = some 268449984 := by decide +kernel
example : Read.number "-3.5".toList = some 0 ∧ Read.number ".5".toList = some 5000 ∧ Read.number "5.".toList = some 50000 ∧ Read.number ".".toList = none ∧ Read.number "5,3".toList = none := by decide +kernel
example : Read.number "2.5e-1".toList = some 2500 ∧ Read.number "1e30".toList = some (2 ^ 64 - 1) ∧ Read.number "-nan".toList = some 0 ∧ Read.number "INF".toList = some (2 ^ 64 - 1) ∧ Read.number "1e-99".toList = some 0 := by decide +kernel
example : Read.number "25e-2".toList = Read.number "0.250".toList :=
  tsptw_number_notation (n := 25) (k := 0) (e := -2) (n' := 250) (k' := 3) (e' := 0)
    (.inr ⟨"25".toList, 'e', "-2".toList, by decide +kernel, .inl rfl, parseDecimal_iff.1 (by decide +kernel), (parseInt_iff.1 (by decide +kernel)).1⟩) (.inl ⟨parseDecimal_iff.1 (by decide +kernel), rfl⟩)
    (by decide) (by decide) (by decide) (by decide) (by norm_num)
example : IsDecimal "5.25".toList (525, 2) ∧ Digits "123".toList 123 :=
  ⟨.inr ⟨"5".toList, "25".toList, by decide +kernel, digits_iff.2 ⟨by decide, by decide +kernel⟩, by decide⟩, digits_iff.2 ⟨by decide, by decide +kernel⟩⟩

/-- **C79.** A file with more than 65535 rows, or more cities, is not read: the limit in `TsptwFile` is that of the program. -/
theorem tsptw_limit {lines : List (List Char)} {rs : List (List (List Char))} {I : Tsptw.Inst} (h : Rows isWs (some '#') lines rs) (hI : Read.tsptw lines = some I) :
    rs.length < 2 ^ 16 ∧ I.n < 2 ^ 16 := Read.tsptw_limit h hI

example : Read.tsptw ["65536".toList] = none ∧ ((Read.tsptw ["65535".toList]).map (·.n)) = some 65535 := by
  constructor <;> rfl

/-- **C79 (partial).** A well-formed file is read: every number as above... -/
theorem tsptw_file_partial {lines : List (List Char)} {dist : List (List (Nat × Nat))} {windows : List ((Nat × Nat) × (Nat × Nat))} (h : TsptwFile lines dist windows)
    (hk : (∀ r ∈ dist, ∀ x ∈ r, x.2 ≤ 4 ∧ exactly x < 2 ^ 23) ∧ ∀ y ∈ windows, (y.1.2 ≤ 4 ∧ exactly y.1 < 2 ^ 23) ∧ (y.2.2 ≤ 4 ∧ exactly y.2 < 2 ^ 23)) :
    ∃ I, Read.tsptw lines = some I ∧ I.n = dist.length ∧ (∀ i j, i < I.n → j < I.n → I.dist i j = exactly (entry dist i j) ∨ I.dist i j + 1 = exactly (entry dist i j)) ∧
      ∀ i, i < I.n → (I.earliest i = exactly (windows.getD i default).1 ∨ I.earliest i + 1 = exactly (windows.getD i default).1) ∧
        (I.latest i = exactly (windows.getD i default).2 ∨ I.latest i + 1 = exactly (windows.getD i default).2) := by
  have key : ∀ x : Nat × Nat, x.2 ≤ 4 ∧ exactly x < 2 ^ 23 → Read.read x = exactly x ∨ Read.read x + 1 = exactly x := fun x hx => Read.tenThousandths_close (by omega) (exactly_eq hx.1) hx.2
  have h2 := h.square
  have h3 := h.count
  refine ⟨_, Read.tsptw_of h, rfl, ?_, ?_⟩
  · intro i j hi hj
    have hi : i < dist.length := hi
    have hj' : j < dist[i].length := by rw [h2 _ (List.getElem_mem hi)]; exact hj
    have e1 : entry (dist.map (·.map Read.read)) i j = Read.read (dist[i][j]) := by simp [entry, List.getD, hi, hj']
    have e2 : entry dist i j = dist[i][j] := by simp [entry, List.getD, hi, hj']
    simp only [e1, e2]
    exact key _ (hk.1 _ (List.getElem_mem hi) _ (List.getElem_mem hj'))
  · intro i hi
    have hi : i < windows.length := by rw [h3]; exact hi
    have e1 : windows.getD i ((0, 0), (0, 0)) = windows[i] := by simp [List.getD, hi]
    have e2 : windows.getD i default = windows[i] := by simp [List.getD, hi]
    simp only [e1, e2]
    have := hk.2 _ (List.getElem_mem hi)
    exact ⟨key _ this.1, key _ this.2⟩

/-- **C79 (partial).** ...and a file of integers up to 26843 exactly. -/
theorem tsptw_integer_file_partial {lines : List (List Char)} {dist : List (List (Nat × Nat))} {windows : List ((Nat × Nat) × (Nat × Nat))} (h : TsptwFile lines dist windows)
    (hk : (∀ r ∈ dist, ∀ x ∈ r, x.2 = 0 ∧ x.1 ≤ 26843) ∧ ∀ y ∈ windows, (y.1.2 = 0 ∧ y.1.1 ≤ 26843) ∧ (y.2.2 = 0 ∧ y.2.1 ≤ 26843)) :
    ∃ I, Read.tsptw lines = some I ∧ I.n = dist.length ∧ (∀ i j, i < I.n → j < I.n → I.dist i j = 10000 * (entry dist i j).1) ∧
      ∀ i, i < I.n → I.earliest i = 10000 * (windows.getD i default).1.1 ∧ I.latest i = 10000 * (windows.getD i default).2.1 := by
  have key : ∀ x : Nat × Nat, x.2 = 0 ∧ x.1 ≤ 26843 → Read.read x = 10000 * x.1 := by
    rintro ⟨n, k⟩ ⟨rfl, hn⟩
    exact Read.tenThousandths_integer (by simp only at hn; omega)
  have h2 := h.square
  have h3 := h.count
  refine ⟨_, Read.tsptw_of h, rfl, ?_, ?_⟩
  · intro i j hi hj
    have hi : i < dist.length := hi
    have hj' : j < dist[i].length := by rw [h2 _ (List.getElem_mem hi)]; exact hj
    have e1 : entry (dist.map (·.map Read.read)) i j = Read.read (dist[i][j]) := by simp [entry, List.getD, hi, hj']
    have e2 : entry dist i j = dist[i][j] := by simp [entry, List.getD, hi, hj']
    simp only [e1, e2]
    exact key _ (hk.1 _ (List.getElem_mem hi) _ (List.getElem_mem hj'))
  · intro i hi
    have hi : i < windows.length := by rw [h3]; exact hi
    have e1 : windows.getD i ((0, 0), (0, 0)) = windows[i] := by simp [List.getD, hi]
    have e2 : windows.getD i default = windows[i] := by simp [List.getD, hi]
    simp only [e1, e2]
    have := hk.2 _ (List.getElem_mem hi)
    exact ⟨key _ this.1, key _ this.2⟩

theorem drive_scaled {I I' : Tsptw.Inst} {c : Nat} (hc : 0 < c) (hd : ∀ i j, i < I.n → j < I.n → I'.dist i j = c * I.dist i j) (hw : ∀ i, i < I.n → I'.earliest i = c * I.earliest i ∧ I'.latest i = c * I.latest i) :
    ∀ (l : List Nat) {t i : Nat}, i < I.n → (∀ j ∈ l, j < I.n) → ∀ {T' : Nat}, Tsptw.Drive I' (c * t) i l T' ↔ ∃ T, T' = c * T ∧ Tsptw.Drive I t i l T
  | [], t, i, _, _, T' => ⟨fun h => by cases h; exact ⟨t, rfl, .stop t i⟩, fun ⟨T, e, h⟩ => by cases h; subst e; exact .stop _ _⟩
  | j :: l, t, i, hi, hl, T' => by
    have hj := hl j (by simp)
    have e : Tsptw.leaveTime I' (c * t) i j = c * Tsptw.leaveTime I t i j := by
      unfold Tsptw.leaveTime
      rw [hd i j hi hj, (hw j hj).1, ← Nat.mul_add, Nat.mul_max_mul_left]
    have ih := fun {T'} => drive_scaled hc hd hw l (t := Tsptw.leaveTime I t i j) hj (fun k hk => hl k (by simp [hk])) (T' := T')
    constructor
    · rintro (_ | ⟨h, g⟩)
      rw [e] at g
      obtain ⟨T, e', g⟩ := ih.1 g
      refine ⟨T, e', .go ?_ g⟩
      rw [hd i j hi hj, (hw j hj).2, ← Nat.mul_add] at h
      exact Nat.le_of_mul_le_mul_left h hc
    · rintro ⟨T, e', _ | ⟨h, g⟩⟩
      refine .go ?_ ?_
      · rw [hd i j hi hj, (hw j hj).2, ← Nat.mul_add]
        exact Nat.mul_le_mul_left _ h
      · rw [e]; exact ih.2 ⟨T, e', g⟩

/-- **C79.** Multiplying all numbers by the same factor does not change the tours, and multiplies the duration of a shortest one. -/
theorem tsptw_scaled {I I' : Tsptw.Inst} {c : Nat} (hc : 0 < c) (hn : 0 < I.n) (hn' : I'.n = I.n) (hd : ∀ i j, i < I.n → j < I.n → I'.dist i j = c * I.dist i j)
    (hw : ∀ i, i < I.n → I'.earliest i = c * I.earliest i ∧ I'.latest i = c * I.latest i) (T' : Nat) : Tsptw.Shortest I' T' ↔ ∃ T, T' = c * T ∧ Tsptw.Shortest I T := by
  have key : ∀ l T', Tsptw.Tour I' l T' ↔ ∃ T, T' = c * T ∧ Tsptw.Tour I l T := by
    intro l T'
    unfold Tsptw.Tour
    rw [hn']
    constructor
    · rintro ⟨h1, h2⟩
      obtain ⟨T, e, h⟩ := (drive_scaled hc hd hw (l ++ [0]) (t := 0) hn (by
        intro j hj
        rcases List.mem_append.1 hj with h | h
        · have := h1.mem_iff.1 h
          simp only [List.mem_range'_1] at this
          omega
        · simp only [List.mem_singleton] at h; omega)).1 h2
      exact ⟨T, e, h1, h⟩
    · rintro ⟨T, e, h1, h2⟩
      refine ⟨h1, (drive_scaled hc hd hw (l ++ [0]) (t := 0) hn (by
        intro j hj
        rcases List.mem_append.1 hj with h | h
        · have := h1.mem_iff.1 h
          simp only [List.mem_range'_1] at this
          omega
        · simp only [List.mem_singleton] at h; omega)).2 ⟨T, e, h2⟩⟩
  constructor
  · rintro ⟨⟨l, h⟩, hb⟩
    obtain ⟨T, rfl, h₁⟩ := (key l _).1 h
    exact ⟨T, rfl, ⟨l, h₁⟩, fun l' T'' h' => Nat.le_of_mul_le_mul_left (hb l' _ ((key l' _).2 ⟨T'', rfl, h'⟩)) hc⟩
  · rintro ⟨T, rfl, ⟨l, h⟩, hb⟩
    refine ⟨⟨l, (key l _).2 ⟨T, rfl, h⟩⟩, fun l' T'' h' => ?_⟩
    obtain ⟨T₂, rfl, h₂⟩ := (key l' _).1 h'
    exact Nat.mul_le_mul_left _ (hb l' _ h₂)

/-- The instance of a file of integers, without the factor -/
def tsptwInst (dist : List (List (Nat × Nat))) (windows : List ((Nat × Nat) × (Nat × Nat))) : Tsptw.Inst where
  n := dist.length
  dist i j := (entry dist i j).1
  earliest i := (windows.getD i default).1.1
  latest i := (windows.getD i default).2.1

/-- **C79 (partial).** So a file of integers asks for a shortest tour in the sense of the file, in ten thousandths. -/
theorem tsptw_integer_shortest_partial {lines : List (List Char)} {dist : List (List (Nat × Nat))} {windows : List ((Nat × Nat) × (Nat × Nat))} (h : TsptwFile lines dist windows) (hn : 0 < dist.length)
    (hk : (∀ r ∈ dist, ∀ x ∈ r, x.2 = 0 ∧ x.1 ≤ 26843) ∧ ∀ y ∈ windows, (y.1.2 = 0 ∧ y.1.1 ≤ 26843) ∧ (y.2.2 = 0 ∧ y.2.1 ≤ 26843)) :
    ∃ I, Read.tsptw lines = some I ∧ (∀ T', Tsptw.Shortest I T' ↔ ∃ T, T' = 10000 * T ∧ Tsptw.Shortest (tsptwInst dist windows) T) ∧ (Tsptw.Triangle I ↔ Tsptw.Triangle (tsptwInst dist windows)) := by
  obtain ⟨I, h1, h2, h3, h4⟩ := tsptw_integer_file_partial h hk
  refine ⟨I, h1, tsptw_scaled (by decide) hn h2 (fun i j hi hj => h3 i j (h2 ▸ hi) (h2 ▸ hj)) (fun i hi => h4 i (h2 ▸ hi)), ?_⟩
  constructor
  · intro g i j k hi hj hk
    have hi : i < I.n := h2 ▸ hi
    have hj : j < I.n := h2 ▸ hj
    have hk : k < I.n := h2 ▸ hk
    have := g i j k hi hj hk
    rw [h3 i k hi hk, h3 i j hi hj, h3 j k hj hk] at this
    show (entry dist i k).1 ≤ (entry dist i j).1 + (entry dist j k).1
    omega
  · intro g i j k hi hj hk
    have := g i j k (Nat.lt_of_lt_of_eq hi h2) (Nat.lt_of_lt_of_eq hj h2) (Nat.lt_of_lt_of_eq hk h2)
    change (entry dist i k).1 ≤ (entry dist i j).1 + (entry dist j k).1 at this
    rw [h3 i k hi hk, h3 i j hi hj, h3 j k hj hk]
    omega

/-- Three cities on a line, with a comment -/
def tsptwText : List (List Char) := ["# three cities".toList, "3".toList, "0 40.3113 80.6226".toList, "40.3113 0 40.3113".toList, " 80.6226 40.3113 0".toList, "0 500".toList, "0 500".toList, "0 500".toList]

theorem isDecimal_int {w : List Char} {n : Nat} (h : w ≠ [] ∧ digits 0 w = some n) : IsDecimal w (n, 0) := .inl ⟨digits_iff.2 h, rfl⟩

theorem isDecimal_point {w a b : List Char} {n k : Nat} (hw : w = a ++ '.' :: b) (h : a ++ b ≠ [] ∧ digits 0 (a ++ b) = some n) (hk : k = b.length) : IsDecimal w (n, k) := .inr ⟨a, b, hw, digits_iff.2 h, hk⟩

theorem tsptwText_file : TsptwFile tsptwText [[(0, 0), (403113, 4), (806226, 4)], [(403113, 4), (0, 0), (403113, 4)], [(806226, 4), (403113, 4), (0, 0)]] [((0, 0), (500, 0)), ((0, 0), (500, 0)), ((0, 0), (500, 0))] where
  rows := by
    have d0 : IsDecimal "0".toList (0, 0) := isDecimal_int (by decide +kernel)
    have d5 : IsDecimal "500".toList (500, 0) := isDecimal_int (by decide +kernel)
    have d4 : IsDecimal "40.3113".toList (403113, 4) := isDecimal_point (a := "40".toList) (b := "3113".toList) (by decide +kernel) (by decide +kernel) (by decide)
    have d8 : IsDecimal "80.6226".toList (806226, 4) := isDecimal_point (a := "80".toList) (b := "6226".toList) (by decide +kernel) (by decide +kernel) (by decide)
    have r : ∀ {l t : List Char} {ts ls : List (List Char)} {rs : List (List (List Char))}, words isWs l = t :: ts → t.head? ≠ some '#' → Rows isWs (some '#') ls rs → Rows isWs (some '#') (l :: ls) ((t :: ts) :: rs) :=
      fun h1 h2 h => rows_row h1 (fun _ _ h => h) (by intro c hc; simp at hc; subst hc; exact h2) h
    exact ⟨"3".toList, [], [["0".toList, "40.3113".toList, "80.6226".toList], ["40.3113".toList, "0".toList, "40.3113".toList], ["80.6226".toList, "40.3113".toList, "0".toList]],
      [["0".toList, "500".toList], ["0".toList, "500".toList], ["0".toList, "500".toList]],
      .comment (a := []) (c := '#') (m := " three cities".toList) rfl (by unfold Blank; decide) (r (by decide +kernel) (by decide) (r (by decide +kernel) (by decide) (r (by decide +kernel) (by decide)
        (r (by decide +kernel) (by decide) (r (by decide +kernel) (by decide) (r (by decide +kernel) (by decide) (r (by decide +kernel) (by decide) .nil))))))),
      ((parseNat_iff (max := 9)).1 (by decide +kernel)).1,
      .cons (.cons d0 (.cons d4 (.cons d8 .nil))) (.cons (.cons d4 (.cons d0 (.cons d4 .nil))) (.cons (.cons d8 (.cons d4 (.cons d0 .nil))) .nil)),
      .cons ⟨_, _, _, rfl, d0, d5⟩ (.cons ⟨_, _, _, rfl, d0, d5⟩ (.cons ⟨_, _, _, rfl, d0, d5⟩ .nil))⟩
  square := by decide
  count := by decide
  small := by decide

/-- **C79 is false**: the distances in this file satisfy the triangle inequality, but those that the program works with do not (so that C53 does not apply to it). -/
theorem tsptw_triangle_lost : ∃ (lines : List (List Char)) (dist : List (List (Nat × Nat))) (windows : List ((Nat × Nat) × (Nat × Nat))) (I : Tsptw.Inst), TsptwFile lines dist windows ∧
    (∀ i j k, i < 3 → j < 3 → k < 3 → exactly (entry dist i k) ≤ exactly (entry dist i j) + exactly (entry dist j k)) ∧ Read.tsptw lines = some I ∧ ¬ Tsptw.Triangle I := by
  refine ⟨_, _, _, _, tsptwText_file, ?_, Read.tsptw_of tsptwText_file, fun h => ?_⟩
  · have : ∀ i : Fin 3, ∀ j : Fin 3, ∀ k : Fin 3, exactly (entry [[(0, 0), (403113, 4), (806226, 4)], [(403113, 4), (0, 0), (403113, 4)], [(806226, 4), (403113, 4), (0, 0)]] i.1 k.1) ≤
        exactly (entry [[(0, 0), (403113, 4), (806226, 4)], [(403113, 4), (0, 0), (403113, 4)], [(806226, 4), (403113, 4), (0, 0)]] i.1 j.1) +
        exactly (entry [[(0, 0), (403113, 4), (806226, 4)], [(403113, 4), (0, 0), (403113, 4)], [(806226, 4), (403113, 4), (0, 0)]] j.1 k.1) := by decide +kernel
    exact fun i j k hi hj hk => this ⟨i, hi⟩ ⟨j, hj⟩ ⟨k, hk⟩
  · exact absurd (h 0 1 2 (by decide) (by decide) (by decide)) (by decide +kernel)

example : ∃ I, Read.tsptw tsptwText = some I ∧ I.n = 3 ∧ I.dist 0 1 = 403112 ∧ I.dist 1 2 = 403112 ∧ I.dist 0 2 = 806225 ∧ I.latest 1 = 5000000 :=
  ⟨_, Read.tsptw_of tsptwText_file, rfl, by decide +kernel, by decide +kernel, by decide +kernel, by decide +kernel⟩

/-- Two cities, integers -/
def tsptwText₂ : List (List Char) := ["2".toList, "0 7".toList, "8 0".toList, "0 99".toList, "10 99".toList]

theorem tsptwText₂_file : TsptwFile tsptwText₂ [[(0, 0), (7, 0)], [(8, 0), (0, 0)]] [((0, 0), (99, 0)), ((10, 0), (99, 0))] where
  rows := by
    have d : ∀ {w : List Char} {n : Nat}, w ≠ [] ∧ digits 0 w = some n → IsDecimal w (n, 0) := isDecimal_int
    have r : ∀ {l t : List Char} {ts ls : List (List Char)} {rs : List (List (List Char))}, words isWs l = t :: ts → t.head? ≠ some '#' → Rows isWs (some '#') ls rs → Rows isWs (some '#') (l :: ls) ((t :: ts) :: rs) :=
      fun h1 h2 h => rows_row h1 (fun _ _ h => h) (by intro c hc; simp at hc; subst hc; exact h2) h
    exact ⟨"2".toList, [], [["0".toList, "7".toList], ["8".toList, "0".toList]], [["0".toList, "99".toList], ["10".toList, "99".toList]],
      r (by decide +kernel) (by decide) (r (by decide +kernel) (by decide) (r (by decide +kernel) (by decide) (r (by decide +kernel) (by decide) (r (by decide +kernel) (by decide) .nil)))),
      ((parseNat_iff (max := 9)).1 (by decide +kernel)).1,
      .cons (.cons (d (by decide +kernel)) (.cons (d (by decide +kernel)) .nil)) (.cons (.cons (d (by decide +kernel)) (.cons (d (by decide +kernel)) .nil)) .nil),
      .cons ⟨_, _, _, rfl, d (by decide +kernel), d (by decide +kernel)⟩ (.cons ⟨_, _, _, rfl, d (by decide +kernel), d (by decide +kernel)⟩ .nil)⟩
  square := by decide
  count := by decide
  small := by decide

example : ∃ I, Read.tsptw tsptwText₂ = some I ∧ ∀ T', Tsptw.Shortest I T' ↔ ∃ T, T' = 10000 * T ∧ Tsptw.Shortest (tsptwInst [[(0, 0), (7, 0)], [(8, 0), (0, 0)]] [((0, 0), (99, 0)), ((10, 0), (99, 0))]) T := by
  obtain ⟨I, h, g, _⟩ := tsptw_integer_shortest_partial tsptwText₂_file (by decide) (by decide)
  exact ⟨I, h, g⟩

end Verif.Props
