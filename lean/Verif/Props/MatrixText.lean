import Verif.Model.MatrixText
import Verif.Model.Text
import Verif.Proofs.Lines
import Verif.Proofs.Print
/-! C112: a printed matrix.  (`examples/psp/utils.rs:99-123`) -/
set_option autoImplicit false

namespace Verif.Props
open Verif Matrix Text
variable {T : Type}

/-- The text of the cells of a row. -/
private def rowText (sh : T → List Char) (r : List T) : List Char := r.flatMap fun v => ' ' :: Print.padLeft 5 (sh v)

private theorem cells_inner {m : Nat} {sh : T → List Char} (r rest : List T) : ∀ {i : Nat}, (∀ j, j < r.length → (i + j) % m ≠ 0) →
    cells m sh i (r ++ rest) = rowText sh r ++ cells m sh (i + r.length) rest := by
  induction r with
  | nil => intro i _; rfl
  | cons v r ih =>
    intro i h
    have h0 : i % m ≠ 0 := h 0 (by simp)
    rw [List.cons_append, cells, if_neg h0, ih (i := i + 1) (fun j hj => by
      have := h (j + 1) (by simp only [List.length_cons]; omega)
      rwa [← Nat.add_assoc, Nat.add_right_comm] at this)]
    simp only [rowText, List.flatMap_cons, List.length_cons, List.nil_append, List.cons_append, List.append_assoc]
    rw [Nat.add_right_comm, Nat.add_assoc]

private theorem cells_row {m : Nat} {sh : T → List Char} {r : List T} (rest : List T) (k : Nat) (hr : r.length = m) (hm : 0 < m) :
    cells m sh (m * k) (r ++ rest) = '\n' :: (rowText sh r ++ cells m sh (m * (k + 1)) rest) := by
  cases r with
  | nil => simp only [List.length_nil] at hr; omega
  | cons v r =>
    simp only [List.length_cons] at hr
    rw [List.cons_append, cells, if_pos (Nat.mul_mod_right m k), cells_inner r rest (fun j hj => by
      rw [Nat.add_assoc, Nat.mul_add_mod, Nat.mod_eq_of_lt (by omega)]; omega)]
    have e : m * k + 1 + r.length = m * (k + 1) := by rw [Nat.mul_add, Nat.mul_one]; omega
    rw [e]
    simp only [rowText, List.flatMap_cons, List.cons_append, List.append_assoc, List.nil_append]

private theorem rowText_clean {sh : T → List Char} {r : List T} (h : ∀ v ∈ r, ∀ c ∈ sh v, isWs c = false) : '\n' ∉ rowText sh r ∧ (rowText sh r).getLast? ≠ some '\r' := by
  have key : ∀ c ∈ rowText sh r, c = ' ' ∨ isWs c = false := by
    intro c hc
    obtain ⟨v, hv, hc⟩ := List.mem_flatMap.1 hc
    rcases List.mem_cons.1 hc with rfl | hc
    · exact Or.inl rfl
    · rcases List.mem_append.1 hc with hc | hc
      · exact Or.inl (List.eq_of_mem_replicate hc)
      · exact Or.inr (h v hv c hc)
  constructor
  · intro hc
    rcases key _ hc with e | e <;> revert e <;> decide
  · intro e
    rcases key _ (List.mem_of_getLast? e) with e | e <;> revert e <;> decide

private theorem rowText_words {sh : T → List Char} {r : List T} (h : ∀ v ∈ r, sh v ≠ [] ∧ ∀ c ∈ sh v, isWs c = false) : words isWs (rowText sh r) = r.map sh := by
  induction r with
  | nil => rfl
  | cons v r ih =>
    have hv := h v (by simp)
    have e : rowText sh (v :: r) = (' ' :: List.replicate (5 - (sh v).length) ' ') ++ (sh v ++ rowText sh r) := by
      simp only [rowText, List.flatMap_cons, Print.padLeft, List.cons_append, List.append_assoc]
    rw [e, words_gap (by
      intro c hc
      rcases List.mem_cons.1 hc with rfl | hc
      · decide
      · rw [List.eq_of_mem_replicate hc]; decide), words_token hv.1 hv.2 (by
        cases r with
        | nil => exact Or.inl rfl
        | cons w r => exact Or.inr ⟨' ', _, rfl, by decide⟩), ih fun w hw => h w (by simp [hw]), List.map_cons]

private theorem lines_end {l t : List Char} (h1 : '\n' ∉ l) (h2 : l.getLast? ≠ some '\r') : lines (l ++ '\n' :: t) = l :: lines t := by
  obtain ⟨ls, h⟩ := lines_exist _ t (Nat.le_refl _)
  rw [lines_of (.unix h1 h2 h), lines_of h]

private theorem cells_lines {m : Nat} {sh : T → List Char} (hm : 0 < m) (rs : List (List T)) : ∀ {k : Nat} {p : List Char}, '\n' ∉ p → p.getLast? ≠ some '\r' → (∀ r ∈ rs, r.length = m) →
    (∀ r ∈ rs, ∀ v ∈ r, ∀ c ∈ sh v, isWs c = false) → lines (p ++ cells m sh (m * k) rs.flatten) = p :: rs.map (rowText sh) := by
  induction rs with
  | nil =>
    intro k p h1 h2 _ _
    exact lines_end h1 h2
  | cons r rs ih =>
    intro k p h1 h2 hr hs
    have hc := rowText_clean (hs r (by simp))
    rw [List.flatten_cons, cells_row _ _ (hr r (by simp)) hm, lines_end h1 h2, ih hc.1 hc.2 (fun r' h => hr r' (by simp [h])) (fun r' h => hs r' (by simp [h])), List.map_cons]

private theorem rows_of {n m : Nat} : ∀ {l : List T}, l.length = n * m → ∃ rs : List (List T), l = rs.flatten ∧ rs.length = n ∧ ∀ r ∈ rs, r.length = m := by
  induction n with
  | zero => intro l h; exact ⟨[], by simpa using h, rfl, by simp⟩
  | succ n ih =>
    intro l h
    rw [Nat.succ_mul] at h
    obtain ⟨rs, h1, h2, h3⟩ := ih (l := l.drop m) (by rw [List.length_drop]; omega)
    refine ⟨l.take m :: rs, by rw [List.flatten_cons, ← h1, List.take_append_drop], by simp [h2], ?_⟩
    intro r hr
    rcases List.mem_cons.1 hr with rfl | hr
    · rw [List.length_take]; omega
    · exact h3 r hr

private theorem flatten_at {m : Nat} : ∀ {rs : List (List T)}, (∀ r ∈ rs, r.length = m) → ∀ {i j : Nat} {r : List T}, rs[i]? = some r → j < m → rs.flatten[m * i + j]? = r[j]?
  | [], _, i, j, r, h, _ => by simp at h
  | q :: rs, hl, 0, j, r, h, hj => by
    simp only [List.getElem?_cons_zero, Option.some.injEq] at h
    subst h
    rw [List.flatten_cons, Nat.mul_zero, Nat.zero_add, List.getElem?_append_left (by rw [hl q (by simp)]; exact hj)]
  | q :: rs, hl, i + 1, j, r, h, hj => by
    rw [List.getElem?_cons_succ] at h
    have hq := hl q (by simp)
    rw [List.flatten_cons, List.getElem?_append_right (by rw [hq, Nat.mul_succ]; omega), hq]
    have e : m * (i + 1) + j - m = m * i + j := by rw [Nat.mul_succ]; omega
    rw [e]
    exact flatten_at (fun r' h' => hl r' (by simp [h'])) h hj

/-- **C112.** A matrix of `n` rows and at least one column, whose cells are words, is printed as an empty line and then one line for each row; the words of such a line are the cells of the row. -/
theorem matrix_printed {a : Matrix T} {sh : T → List Char} (hm : 0 < a.m) (hl : a.data.length = a.n * a.m) (hs : ∀ v ∈ a.data, sh v ≠ [] ∧ ∀ c ∈ sh v, isWs c = false) :
    ∃ t l0 ls, fmt sh a = some t ∧ lines t = l0 :: ls ∧ l0 = [] ∧ ls.length = a.n ∧
      ∀ i, i < a.n → ∃ l, ls[i]? = some l ∧ (words isWs l).length = a.m ∧ ∀ j, j < a.m → ∃ v, a.index (i, j) = some v ∧ (words isWs l)[j]? = some (sh v) := by
  obtain ⟨rs, h1, h2, h3⟩ := rows_of hl
  have hmem : ∀ r ∈ rs, ∀ v ∈ r, sh v ≠ [] ∧ ∀ c ∈ sh v, isWs c = false := fun r hr v hv => hs v (by rw [h1]; exact List.mem_flatten.2 ⟨r, hr, hv⟩)
  have hlines := cells_lines (sh := sh) hm rs (k := 0) (p := []) (by simp) (by simp) h3 (fun r hr v hv => (hmem r hr v hv).2)
  rw [List.nil_append, Nat.mul_zero, ← h1] at hlines
  refine ⟨_, [], _, if_neg (fun h => by omega), hlines, rfl, by rw [List.length_map, h2], fun i hi => ?_⟩
  obtain ⟨r, hr⟩ : ∃ r, rs[i]? = some r := ⟨_, List.getElem?_eq_getElem (by omega)⟩
  have hrm := List.mem_of_getElem? hr
  have hw := rowText_words (hmem r hrm)
  refine ⟨rowText sh r, by rw [List.getElem?_map, hr]; rfl, by rw [hw, List.length_map]; exact h3 r hrm, fun j hj => ?_⟩
  obtain ⟨v, hv⟩ : ∃ v, r[j]? = some v := ⟨_, List.getElem?_eq_getElem (by rw [h3 r hrm]; exact hj)⟩
  refine ⟨v, ?_, by rw [hw, List.getElem?_map, hv]; rfl⟩
  show a.data[a.m * i + j]? = some v
  rw [h1, flatten_at h3 hr hj, hv]

/-- **C112.** If no cell is longer than five characters, the columns line up: every line has six characters for each column, the last ones of which are the cell. -/
theorem matrix_aligned {a : Matrix T} {sh : T → List Char} (hm : 0 < a.m) (hl : a.data.length = a.n * a.m) (hs : ∀ v ∈ a.data, (∀ c ∈ sh v, isWs c = false) ∧ (sh v).length ≤ 5) :
    ∃ t ls, fmt sh a = some t ∧ lines t = [] :: ls ∧ ∀ l ∈ ls, l.length = 6 * a.m := by
  obtain ⟨rs, h1, h2, h3⟩ := rows_of hl
  have hmem : ∀ r ∈ rs, ∀ v ∈ r, (∀ c ∈ sh v, isWs c = false) ∧ (sh v).length ≤ 5 := fun r hr v hv => hs v (by rw [h1]; exact List.mem_flatten.2 ⟨r, hr, hv⟩)
  have hlines := cells_lines (sh := sh) hm rs (k := 0) (p := []) (by simp) (by simp) h3 (fun r hr v hv => (hmem r hr v hv).1)
  rw [List.nil_append, Nat.mul_zero, ← h1] at hlines
  refine ⟨_, _, if_neg (fun h => by omega), hlines, fun l hl => ?_⟩
  obtain ⟨r, hr, rfl⟩ := List.mem_map.1 hl
  rw [← h3 r hr]
  have := hmem r hr
  clear hr hl
  induction r with
  | nil => rfl
  | cons v r ih =>
    have hv := (this v (by simp)).2
    have := ih fun w hw => this w (by simp [hw])
    simp only [rowText, List.flatMap_cons, List.length_append, List.length_cons, Print.padLeft, List.length_replicate] at this ⊢
    omega

/-- **C112.** Printing fails just if there are cells but no columns; a matrix made by `new` or `new_default` has no cells then. -/
theorem matrix_print_total {a : Matrix T} {sh : T → List Char} : (fmt sh a = none ↔ a.m = 0 ∧ a.data ≠ []) ∧ ∀ (n m : Nat) (v : T), fmt sh (newDefault m n v) ≠ none := by
  constructor
  · unfold fmt
    split
    · rename_i h; simp [h]
    · rename_i h; simp only [reduceCtorEq, false_iff]; exact h
  · intro n m v
    unfold fmt
    rw [if_neg]
    · simp
    · rintro ⟨h1, h2⟩
      simp only [newDefault] at h1 h2
      rw [h1] at h2
      simp at h2

/-- **C112.** Numbers are such words: the printed matrix of costs can be read back line by line. -/
theorem matrix_numbers {a : Matrix Int} (hm : 0 < a.m) (hl : a.data.length = a.n * a.m) (hb : ∀ v ∈ a.data, isizeMin ≤ v ∧ v ≤ isizeMax) :
    ∃ t ls, fmt Print.showInt a = some t ∧ lines t = [] :: ls ∧ ls.length = a.n ∧
      ∀ i, i < a.n → ∃ l, ls[i]? = some l ∧ ∀ j, j < a.m → ∃ w, (words isWs l)[j]? = some w ∧ a.index (i, j) = parseInt w := by
  have hw : ∀ z : Int, Print.showInt z ≠ [] ∧ ∀ c ∈ Print.showInt z, isWs c = false := by
    intro z
    unfold Print.showInt
    split
    · refine ⟨by simp, fun c hc => ?_⟩
      rcases List.mem_cons.1 hc with rfl | hc
      · decide
      · exact (Print.digits_plain (Print.showNat_digits _) c hc).2
    · exact ⟨(Print.showNat_digits _).ne_nil, fun c hc => (Print.digits_plain (Print.showNat_digits _) c hc).2⟩
  obtain ⟨t, l0, ls, h1, h2, rfl, h3, h4⟩ := matrix_printed hm hl fun v _ => hw v
  refine ⟨t, ls, h1, h2, h3, fun i hi => ?_⟩
  obtain ⟨l, k1, _, k2⟩ := h4 i hi
  refine ⟨l, k1, fun j hj => ?_⟩
  obtain ⟨v, e1, e2⟩ := k2 j hj
  refine ⟨_, e2, ?_⟩
  have hv := hb v (List.mem_of_getElem? e1)
  rw [e1, parseInt_of (Print.showInt_signed v)]
  · have := hv.1; unfold isizeMin at this; omega
  · have := hv.2; unfold isizeMax at this; omega

/-- Such a matrix, and one with a cell that is too long: it is set apart by a space all the same. -/
example : fmt Print.showInt ⟨2, 2, [1, -20, 300, 4]⟩ = some "\n     1   -20\n   300     4\n".toList := by decide +kernel

example : fmt Print.showInt ⟨2, 2, [1, -20, 1234567, 4]⟩ = some "\n     1   -20\n 1234567     4\n".toList := by decide +kernel
example : fmt Print.showInt ⟨1, 0, [1]⟩ = none ∧ fmt Print.showInt (newDefault 0 3 7) = some ['\n'] := by decide +kernel

end Verif.Props
