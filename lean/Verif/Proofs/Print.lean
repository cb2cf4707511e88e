import Verif.Model.Print
import Verif.Spec.Print
import Verif.Proofs.Text
import Verif.Proofs.F32
/-! Lemmas on printed numbers and tables. -/
set_option autoImplicit false

namespace Verif.Print
open Text F32

theorem showNat_digits (n : Nat) : Digits (showNat n) n := by
  induction n using Nat.strongRecOn with
  | _ n ih =>
    rw [showNat]
    split
    · rename_i h; exact Digits.one n h
    · rename_i h
      have := Digits.snoc (n % 10) (Nat.mod_lt _ (by omega)) (ih (n / 10) (by omega))
      rwa [Nat.div_add_mod] at this

theorem showInt_signed (z : Int) : Signed (showInt z) z := by
  unfold showInt
  split
  · exact Or.inr ⟨_, _, rfl, showNat_digits _, by omega⟩
  · exact Or.inl ⟨z.natAbs, by omega, Or.inl (showNat_digits _)⟩

theorem digits_append_of {w v : List Char} {n m : Nat} (hw : Digits w n) (hv : Digits v m) : Digits (w ++ v) (n * 10 ^ v.length + m) := by
  induction hv with
  | one d h =>
    have := Digits.snoc d h hw
    simpa [Nat.mul_comm] using this
  | @snoc v m d h _ ih =>
    have := Digits.snoc d h ih
    rw [List.append_assoc] at this
    have e : 10 * (n * 10 ^ v.length + m) + d = n * 10 ^ (v ++ [Char.ofNat (48 + d)]).length + (10 * m + d) := by
      rw [List.length_append, List.length_singleton, Nat.pow_succ]; ring
    rwa [e] at this

theorem digits_zeros {w : List Char} {n : Nat} (hw : Digits w n) (k : Nat) : Digits (List.replicate k '0' ++ w) n := by
  induction k with
  | zero => exact hw
  | succ k ih =>
    have := digits_append_of (Digits.one 0 (by omega)) ih
    rw [Nat.zero_mul, Nat.zero_add] at this
    simpa [List.replicate_succ] using this

theorem showNat_length {k n : Nat} (h : n < 10 ^ (k + 1)) : (showNat n).length ≤ k + 1 := by
  induction k generalizing n with
  | zero => rw [showNat, dif_pos (by omega)]; simp
  | succ k ih =>
    rw [showNat]
    split
    · simp
    · rw [List.length_append, List.length_singleton]
      have := ih (n := n / 10) (by rw [Nat.pow_succ] at h; omega)
      omega

theorem showFixed_decimal (k x y : Nat) : Decimal (showFixed (k + 1) x y) (roundDiv (x * 10 ^ (k + 1)) y) (k + 1) := by
  unfold showFixed
  generalize roundDiv (x * 10 ^ (k + 1)) y = q
  have hlt : q % 10 ^ (k + 1) < 10 ^ (k + 1) := Nat.mod_lt _ (Nat.pow_pos (by omega))
  have hlen := showNat_length hlt
  have hb : (List.replicate (k + 1 - (showNat (q % 10 ^ (k + 1))).length) '0' ++ showNat (q % 10 ^ (k + 1))).length = k + 1 := by
    rw [List.length_append, List.length_replicate]; omega
  refine Or.inr ⟨_, _, rfl, ?_, hb.symm⟩
  have := digits_append_of (showNat_digits (q / 10 ^ (k + 1))) (digits_zeros (showNat_digits (q % 10 ^ (k + 1))) (k + 1 - (showNat (q % 10 ^ (k + 1))).length))
  rw [hb, Nat.div_add_mod'] at this
  exact this

theorem showFixed_rounded (k x : Nat) {y : Nat} (hy : 0 < y) : Rounded (k + 1) (showFixed (k + 1) x y) ((x : ℚ) / y) := by
  refine ⟨_, showFixed_decimal k x y, ?_⟩
  obtain ⟨h1, h2⟩ := roundDiv_spec (x * 10 ^ (k + 1)) y hy
  generalize roundDiv (x * 10 ^ (k + 1)) y = q at h1 h2 ⊢
  have hy' : (0 : ℚ) < y := by exact_mod_cast hy
  have hp : (0 : ℚ) < 10 ^ (k + 1) := by positivity
  have h1' : 2 * ((q : ℚ) * y) ≤ 2 * (x * 10 ^ (k + 1)) + y := by exact_mod_cast h1
  have h2' : 2 * ((x : ℚ) * 10 ^ (k + 1)) ≤ 2 * (q * y) + y := by exact_mod_cast h2
  have e : (q : ℚ) / 10 ^ (k + 1) - x / y = (q * y - x * 10 ^ (k + 1)) / (10 ^ (k + 1) * y) := by field_simp
  rw [e, abs_div, abs_of_pos (mul_pos hp hy'), div_le_div_iff₀ (mul_pos hp hy') (by positivity)]
  have : |(q : ℚ) * y - x * 10 ^ (k + 1)| ≤ y / 2 := abs_le.2 ⟨by linarith, by linarith⟩
  calc |(q : ℚ) * y - x * 10 ^ (k + 1)| * (2 * 10 ^ (k + 1)) ≤ y / 2 * (2 * 10 ^ (k + 1)) := mul_le_mul_of_nonneg_right this (by positivity)
    _ = 1 * (10 ^ (k + 1) * y) := by ring

/-! ### Cells -/

theorem plain_cell {w : List Char} (h : ∀ c ∈ w, c ≠ '|' ∧ isWs c = false) : CellText w :=
  ⟨fun hm => (h _ hm).1 rfl, fun c hc => (h c (List.mem_of_mem_head? hc)).2, fun c hc => (h c (List.mem_of_getLast? hc)).2⟩

theorem digit_plain {d : Nat} (h : d < 10) : Char.ofNat (48 + d) ≠ '|' ∧ isWs (Char.ofNat (48 + d)) = false := by
  have : ∀ d : Fin 10, Char.ofNat (48 + d.1) ≠ '|' ∧ isWs (Char.ofNat (48 + d.1)) = false := by decide
  exact this ⟨d, h⟩

theorem digits_plain {w : List Char} {n : Nat} (h : Digits w n) : ∀ c ∈ w, c ≠ '|' ∧ isWs c = false := by
  intro c hc
  obtain ⟨d, hd, rfl⟩ := h.digit c hc
  exact digit_plain hd

theorem decimal_plain {w : List Char} {n k : Nat} (h : Decimal w n k) : ∀ c ∈ w, c ≠ '|' ∧ isWs c = false := by
  rcases h with ⟨h, _⟩ | ⟨a, b, rfl, h, _⟩
  · exact digits_plain h
  · intro c hc
    rw [List.mem_append, List.mem_cons] at hc
    rcases hc with hc | rfl | hc
    · exact digits_plain h c (List.mem_append_left _ hc)
    · decide
    · exact digits_plain h c (List.mem_append_right _ hc)

theorem showInt_cell (z : Int) : CellText (showInt z) := by
  refine plain_cell ?_
  unfold showInt
  split
  · intro c hc
    rcases List.mem_cons.1 hc with rfl | hc
    · decide
    · exact digits_plain (showNat_digits _) c hc
  · exact digits_plain (showNat_digits _)

theorem showNat_cell (n : Nat) : CellText (showNat n) := plain_cell (digits_plain (showNat_digits n))

theorem showFixed_cell (k x y : Nat) : CellText (showFixed (k + 1) x y) := plain_cell (decimal_plain (showFixed_decimal k x y))

theorem showBest_cell (b : Option Int) : CellText (showBest b) := by
  cases b with
  | none => exact ⟨by decide, by decide, by decide⟩
  | some v => exact showInt_cell v

theorem showStatus_cell (b : Bool) : CellText (showStatus b) := by
  cases b <;> exact plain_cell (by decide)

theorem solver_cell (s : SolverType) : CellText s.fmt.toList := by
  cases s <;> exact plain_cell (by decide)

theorem showGap_cell (g : Nat × Int) : CellText (showGap g) := by
  unfold showGap
  split
  · exact plain_cell (by decide)
  split
  · exact plain_cell (by decide)
  split
  · exact plain_cell (by decide)
  split
  · exact showFixed_cell 3 0 1
  split
  · refine plain_cell fun c hc => ?_
    rcases List.mem_cons.1 hc with rfl | hc
    · decide
    · exact decimal_plain (showFixed_decimal 3 _ _) c hc
  · exact showFixed_cell 3 _ _

theorem blank_replicate (n : Nat) : Blank (List.replicate n ' ') := by
  intro c hc
  rw [(List.mem_replicate.1 hc).2]; decide

theorem blank_cons {l : List Char} (h : Blank l) : Blank (' ' :: l) := by
  intro c hc
  rcases List.mem_cons.1 hc with rfl | hc
  · decide
  · exact h c hc

/-- The cell `c` is the text `w`, perhaps with spaces before it. -/
def Padded (c w : List Char) : Prop := CellText w ∧ ∃ n, c = List.replicate n ' ' ++ w

theorem padded_left {w : List Char} (h : CellText w) (n : Nat) : Padded (padLeft n w) w := ⟨h, _, rfl⟩

theorem padded_self {w : List Char} (h : CellText w) : Padded w w := ⟨h, 0, rfl⟩

theorem cells_space {l : List Char} {ws : List (List Char)} (h : Cells l ws) : Cells (' ' :: l) ws := by
  cases h with
  | last ha hw hb => exact Cells.last (blank_cons ha) hw hb
  | cons ha hw hb h => exact Cells.cons (blank_cons ha) hw hb h

theorem cells_join {cs ws : List (List Char)} (h : List.Forall₂ Padded cs ws) (hne : cs ≠ []) : Cells (joinCells cs) ws := by
  induction h with
  | nil => exact absurd rfl hne
  | @cons c w cs ws hc h ih =>
    obtain ⟨hw, n, rfl⟩ := hc
    cases h with
    | nil =>
      have := Cells.last (blank_replicate n) hw (b := []) (by intro c hc; cases hc)
      rwa [List.append_nil] at this
    | @cons c' w' cs' ws' hc' h' =>
      have := Cells.cons (blank_replicate n) hw (b := [' ']) (blank_cons (by intro c hc; cases hc)) (cells_space (ih (by simp)))
      simpa [joinCells] using this

theorem trim_cell {a w b : List Char} (ha : Blank a) (hw : CellText w) (hb : Blank b) : trim (a ++ w ++ b) = w := by
  rcases List.eq_nil_or_concat w with rfl | ⟨v, x, rfl⟩
  · refine trim_blank ?_
    rw [List.append_nil]
    intro c hc
    rcases List.mem_append.1 hc with h | h
    · exact ha c h
    · exact hb c h
  · unfold trim
    rw [List.append_assoc, dropWhile_all ha]
    have h1 : ((v.concat x) ++ b).dropWhile isWs = v.concat x ++ b := by
      obtain ⟨y, r, hy⟩ : ∃ y r, v.concat x = y :: r := by cases v <;> simp
      have := hw.first y (by rw [hy]; rfl)
      rw [hy, List.cons_append, List.dropWhile_cons, if_neg (by rw [this]; simp)]
    rw [h1, List.reverse_append, dropWhile_all (fun c hc => hb c (List.mem_reverse.1 hc))]
    have h2 := hw.last x (by simp)
    rw [List.concat_eq_append, List.reverse_append, List.reverse_singleton, List.singleton_append, List.dropWhile_cons, if_neg (by rw [h2]; simp)]
    simp

theorem blank_sep {a : List Char} (ha : Blank a) : '|' ∉ a := fun h => absurd (ha _ h) (by decide)

theorem cells_split {l : List Char} {ws : List (List Char)} (h : Cells l ws) : (split (fun c => c == '|') l).map trim = ws := by
  have key : ∀ {a w b : List Char}, Blank a → CellText w → Blank b → ∀ c ∈ a ++ w ++ b, (c == '|') = false := by
    intro a w b ha hw hb c hc
    rw [beq_eq_false_iff_ne]
    rintro rfl
    rcases List.mem_append.1 hc with hc | hc
    · rcases List.mem_append.1 hc with hc | hc
      · exact blank_sep ha hc
      · exact hw.sep hc
    · exact blank_sep hb hc
  induction h with
  | @last a w b ha hw hb =>
    obtain ⟨v, vs, e1, e2⟩ := split_token (p := fun c => c == '|') (key ha hw hb) []
    cases e1
    rw [List.append_nil] at e2
    rw [e2, List.map_singleton, trim_cell ha hw hb]
  | @cons a w b l ws ha hw hb h ih =>
    obtain ⟨v, vs, e1, e2⟩ := split_token (p := fun c => c == '|') (key ha hw hb) ('|' :: l)
    rw [split, if_pos (by simp)] at e1
    cases e1
    rw [e2, List.append_nil, List.map_cons, ih, trim_cell ha hw hb]

theorem cells_unique {l : List Char} {ws ws' : List (List Char)} (h : Cells l ws) (h' : Cells l ws') : ws = ws' := by
  rw [← cells_split h, cells_split h']

theorem line_cells {name : List Char} (hn : CellText name) (solver : SolverType) (time ram : Nat × Nat) (r : Report) :
    Cells (line name solver time ram r) [name, solver.fmt.toList, showStatus r.proved, showFixed 2 time.1 time.2, showFixed 2 ram.1 ram.2, showBest r.best, showInt r.lb, showInt r.ub,
      showGap r.gap, showNat r.explored, showNat r.exploredDd] := by
  refine cells_join ?_ (by simp)
  refine .cons (padded_left hn _) (.cons (padded_self (solver_cell _)) (.cons (padded_self (showStatus_cell _)) (.cons (padded_left (showFixed_cell 1 _ _) _)
    (.cons (padded_left (showFixed_cell 1 _ _) _) (.cons (padded_left (showBest_cell _) _) (.cons (padded_left (showInt_cell _) _) (.cons (padded_left (showInt_cell _) _)
    (.cons (padded_left (showGap_cell _) _) (.cons (padded_left (showNat_cell _) _) (.cons (padded_left (showNat_cell _) _) .nil))))))))))

/-! ### Different values are printed differently -/

theorem digits_inj {w : List Char} {n m : Nat} (h : Digits w n) (h' : Digits w m) : n = m := by
  have := digits_of h
  rw [digits_of h'] at this
  exact (Option.some.inj this).symm

theorem showNat_inj {n m : Nat} (h : showNat n = showNat m) : n = m := digits_inj (showNat_digits n) (h ▸ showNat_digits m)

theorem showNat_minus (n : Nat) : '-' ∉ showNat n := (showNat_digits n).not (by decide)

theorem showInt_inj {z z' : Int} (h : showInt z = showInt z') : z = z' := by
  unfold showInt at h
  split at h <;> split at h
  · have := showNat_inj (List.cons.inj h).2
    omega
  · exact absurd (h ▸ List.mem_cons_self) (showNat_minus _)
  · exact absurd (h ▸ List.mem_cons_self) (showNat_minus _)
  · have := showNat_inj h
    omega

theorem showInt_no_n (z : Int) : 'n' ∉ showInt z := by
  unfold showInt
  split
  · intro h
    rcases List.mem_cons.1 h with h | h
    · exact absurd h (by decide)
    · exact (showNat_digits _).not (by decide) h
  · exact (showNat_digits _).not (by decide)

theorem showBest_inj {b b' : Option Int} (h : showBest b = showBest b') : b = b' := by
  cases b with
  | none =>
    cases b' with
    | none => rfl
    | some v => exact absurd (show 'n' ∈ showInt v by rw [show showInt v = showBest (some v) from rfl, ← h]; decide) (showInt_no_n v)
  | some v =>
    cases b' with
    | none => exact absurd (show 'n' ∈ showInt v by rw [show showInt v = showBest (some v) from rfl, h]; decide) (showInt_no_n v)
    | some v' => rw [showInt_inj h]

theorem solver_inj {s s' : SolverType} (h : s.fmt.toList = s'.fmt.toList) : s = s' := by
  revert h
  cases s <;> cases s' <;> decide

theorem showStatus_inj {b b' : Bool} (h : showStatus b = showStatus b') : b = b' := by
  revert h
  cases b <;> cases b' <;> decide

end Verif.Print
