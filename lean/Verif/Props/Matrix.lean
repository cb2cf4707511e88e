import Verif.Spec.Matrix
/-! C04: matrix cells are independent.  C86: rows and columns. -/
set_option autoImplicit false

namespace Verif.Props
open Verif Spec

/-- C04: distinct in-range index pairs address distinct cells inside the backing vector. -/
theorem matrix_pos_injective {T : Type} (a : Matrix T) (p q : Nat × Nat)
    (hp : InRange a.n a.m p) (hq : InRange a.n a.m q) :
    a.pos p < a.m * a.n ∧ (a.pos p = a.pos q → p = q) := by
  obtain ⟨hp1, hp2⟩ := hp
  obtain ⟨hq1, hq2⟩ := hq
  constructor
  · have h1 : p.1 + 1 ≤ a.n := hp1
    have h2 := Nat.mul_le_mul_left a.m h1
    rw [Nat.mul_add, Nat.mul_one] at h2
    unfold Matrix.pos; omega
  · intro h
    unfold Matrix.pos at h
    have hm : 0 < a.m := by omega
    have e1 : (a.m * p.1 + p.2) / a.m = p.1 := by
      rw [Nat.mul_add_div hm, Nat.div_eq_of_lt hp2]; omega
    have e2 : (a.m * q.1 + q.2) / a.m = q.1 := by
      rw [Nat.mul_add_div hm, Nat.div_eq_of_lt hq2]; omega
    have h1 : p.1 = q.1 := by rw [← e1, h, e2]
    have h2 : p.2 = q.2 := by rw [h1] at h; omega
    exact Prod.ext h1 h2

private theorem runWrites_spec {T : Type} (ws : List (Write T)) (a : Matrix T)
    (hlen : a.data.length = a.m * a.n) (hws : ∀ w ∈ ws, InRange a.n a.m w.idx) :
    ∃ b, runWrites a ws = some b ∧ b.n = a.n ∧ b.m = a.m ∧
      ∀ idx, InRange a.n a.m idx → ∀ v, a.index idx = some v →
        b.index idx = some (lastWritten v idx ws) := by
  induction ws generalizing a with
  | nil => exact ⟨a, rfl, rfl, rfl, fun idx _ v h => by simpa [lastWritten] using h⟩
  | cons w ws ih =>
    have hw := hws w (by simp)
    have hlt := (matrix_pos_injective a w.idx w.idx hw hw).1
    let a' : Matrix T := { a with data := a.data.set (a.pos w.idx) w.val }
    have hass : a.assign w.idx w.val = some a' := by
      unfold Matrix.assign; rw [if_pos (by omega)]
    obtain ⟨b, hb, hn, hm, hcells⟩ := ih a' (by simpa [a'] using hlen)
      (fun x hx => hws x (by simp [hx]))
    refine ⟨b, by simp [runWrites, hass, hb], hn, hm, ?_⟩
    intro idx hidx v hv
    by_cases h : w.idx = idx
    · subst h
      have h' : a'.index w.idx = some w.val := by
        show (a.data.set (a.pos w.idx) w.val)[a.pos w.idx]? = some w.val
        rw [List.getElem?_set_self (by omega)]
      rw [hcells w.idx hidx _ h']
      simp only [lastWritten, decide_true, List.filter_cons_of_pos, List.getLast?_cons]
      cases (ws.filter (fun x => decide (x.idx = w.idx))).getLast? <;> simp
    · have hne : a.pos w.idx ≠ a.pos idx := fun e => h ((matrix_pos_injective a _ _ hw hidx).2 e)
      have h' : a'.index idx = some v := by
        show (a.data.set (a.pos w.idx) w.val)[a.pos idx]? = some v
        rw [List.getElem?_set_ne hne]; exact hv
      rw [hcells idx hidx v h']
      simp [lastWritten, h]

/-- C04: for a matrix made by `new_default(m, n, item)` (`n` rows, `m` columns) and any history of
in-range writes: nothing panics and every in-range cell reads the last value written to it, or
`item` if there was none. -/
theorem matrix_history {T : Type} (m n : Nat) (item : T) (ws : List (Write T))
    (hws : ∀ w ∈ ws, InRange n m w.idx) :
    ∃ b, runWrites (Matrix.newDefault m n item) ws = some b ∧
      ∀ idx, InRange n m idx → b.index idx = some (lastWritten item idx ws) := by
  obtain ⟨b, hb, hn, hm, h⟩ := runWrites_spec ws (Matrix.newDefault m n item)
    (by simp [Matrix.newDefault]) hws
  refine ⟨b, hb, fun idx hidx => h idx hidx item ?_⟩
  have := (matrix_pos_injective (Matrix.newDefault m n item) idx idx hidx hidx).1
  simp only [Matrix.index, Matrix.newDefault] at *
  rw [List.getElem?_replicate, if_pos this]

/-- C04 (limit of the guarantee): an out-of-range *column* is not detected when the row is not the
last one: it silently aliases a cell of the next row. -/
theorem matrix_column_overflow_aliases {T : Type} (m n : Nat) (item : T) (i : Nat) (hi : i + 1 < n) (hm : 0 < m) :
    ¬ InRange n m (i, m) ∧
      (Matrix.newDefault m n item).pos (i, m) = (Matrix.newDefault m n item).pos (i + 1, 0) ∧
      (Matrix.newDefault m n item).index (i, m) = some item := by
  refine ⟨fun h => by simp [InRange] at h, ?_, ?_⟩
  · simp [Matrix.pos, Matrix.newDefault, Nat.mul_add]
  · have h := (matrix_pos_injective (Matrix.newDefault m n item) (i + 1, 0) (i + 1, 0)
      ⟨hi, hm⟩ ⟨hi, hm⟩).1
    simp only [Matrix.index, Matrix.newDefault, Matrix.pos, Nat.mul_add] at *
    rw [List.getElem?_replicate, if_pos (by omega)]

-- non-vacuity: a 2-row, 3-column matrix
example : ((runWrites (Matrix.newDefault 3 2 0) [⟨(0, 2), 5⟩, ⟨(1, 0), 7⟩, ⟨(0, 2), 6⟩]).bind
    (·.index (0, 2))) = some 6 := by decide

/-! ### C86: rows and columns -/

private theorem posIn_some {T : Type} {a : Matrix T} {idx : Nat × Nat} (debug : Bool) (h : InRange a.n a.m idx) : Matrix.posIn debug a idx = some (a.pos idx) := by
  obtain ⟨h1, h2⟩ := h
  simp [Matrix.posIn, h1, h2]

private theorem mapM_some {α β : Type} {f : α → Option β} {g : α → β} : ∀ {l : List α}, (∀ x ∈ l, f x = some (g x)) → l.mapM f = some (l.map g)
  | [], _ => rfl
  | x :: l, h => by
    rw [List.mapM_cons, h x (by simp), mapM_some (l := l) fun y hy => h y (by simp [hy])]
    rfl

/-- **C86.** With or without assertions, in-range cells are read and written as in C04. -/
theorem matrix_checked {T : Type} (debug : Bool) (a : Matrix T) (idx : Nat × Nat) (h : InRange a.n a.m idx) :
    Matrix.indexIn debug a idx = a.index idx ∧ ∀ v, Matrix.assignIn debug a idx v = a.assign idx v := by
  constructor
  · unfold Matrix.indexIn
    rw [posIn_some debug h]
    rfl
  · intro v
    unfold Matrix.assignIn
    rw [posIn_some debug h]
    rfl

/-- **C86.** With assertions every index out of range is detected. -/
theorem matrix_debug_detects {T : Type} (a : Matrix T) (idx : Nat × Nat) (h : ¬ InRange a.n a.m idx) (v : T) :
    Matrix.indexIn true a idx = none ∧ Matrix.assignIn true a idx v = none := by
  have : Matrix.posIn true a idx = none := by
    unfold Matrix.posIn
    rw [if_pos]
    simp only [InRange] at h
    simp only [Bool.true_and, Bool.not_eq_true', Bool.and_eq_false_iff, decide_eq_false_iff_not]
    omega
  simp [Matrix.indexIn, Matrix.assignIn, this]

/-- **C86.** `new(n, m)` has `n` rows and `m` columns of default items. -/
theorem matrix_new_rows {T : Type} [Inhabited T] (n m : Nat) (idx : Nat × Nat) (h : InRange n m idx) (debug : Bool) :
    Matrix.indexIn debug (Matrix.newRows n m : Matrix T) idx = some default := by
  rw [(matrix_checked debug (Matrix.newRows n m : Matrix T) idx h).1]
  have := (matrix_pos_injective (Matrix.newRows n m : Matrix T) idx idx h h).1
  simp only [Matrix.index, Matrix.newRows] at *
  rw [List.getElem?_replicate, if_pos this]

/-- **C86.** `col(i)` yields the cells of column `i` from the first row to the last. -/
theorem matrix_col {T : Type} (debug : Bool) (a : Matrix T) (hl : a.data.length = a.m * a.n) (i : Nat) (hi : i < a.m) :
    ∃ l, Matrix.col debug a i = some l ∧ l.length = a.n ∧ ∀ r, r < a.n → l[r]? = a.index (r, i) := by
  have hlt : ∀ r, r < a.n → a.pos (r, i) < a.data.length := fun r hr => by
    rw [hl]; exact (matrix_pos_injective a (r, i) (r, i) ⟨hr, hi⟩ ⟨hr, hi⟩).1
  by_cases hn : a.n = 0
  · refine ⟨[], by simp [Matrix.col, hn], by simp [hn], fun r hr => by omega⟩
  · have hne : a.data ≠ [] := by
      intro e
      have := hlt 0 (by omega)
      rw [e] at this
      simp at this
    let d : T := a.data.head hne
    have hm : Matrix.col debug a i = some ((List.range a.n).map fun r => (a.data[a.pos (r, i)]?).getD d) := by
      refine mapM_some fun r hr => ?_
      have hr' := List.mem_range.1 hr
      rw [(matrix_checked debug a (r, i) ⟨hr', hi⟩).1, Matrix.index, List.getElem?_eq_getElem (hlt r hr')]
      rfl
    refine ⟨_, hm, by simp, fun r hr => ?_⟩
    rw [List.getElem?_map, List.getElem?_range hr, Matrix.index, List.getElem?_eq_getElem (hlt r hr)]
    rw [Option.map_some, List.getElem?_eq_getElem (hlt r hr)]
    rfl

/-- **C86.** `col_mut(i)` hands out references to the cells of column `i`, from the first row to the last: these are different cells of the vector. -/
theorem matrix_col_mut {T : Type} (debug : Bool) (a : Matrix T) (hl : a.data.length = a.m * a.n) (i : Nat) (hi : i < a.m) :
    ∃ l, Matrix.colMut debug a i = some l ∧ l.length = a.n ∧ l.Nodup ∧ (∀ k ∈ l, k < a.data.length) ∧
      ∀ r, r < a.n → l[r]? = some (a.pos (r, i)) := by
  refine ⟨_, mapM_some (g := fun r => a.pos (r, i)) fun r hr => posIn_some debug ⟨List.mem_range.1 hr, hi⟩, by simp, ?_, ?_, fun r hr => by simp [hr]⟩
  · rw [List.Nodup, List.pairwise_map]
    refine List.Pairwise.imp_of_mem ?_ List.nodup_range
    intro r s hr hs hrs e
    have := congrArg Prod.fst ((matrix_pos_injective a (r, i) (s, i) ⟨List.mem_range.1 hr, hi⟩ ⟨List.mem_range.1 hs, hi⟩).2 e)
    exact hrs this
  · intro k hk
    obtain ⟨r, hr, rfl⟩ := List.mem_map.1 hk
    have hr' := List.mem_range.1 hr
    rw [hl]
    exact (matrix_pos_injective a (r, i) (r, i) ⟨hr', hi⟩ ⟨hr', hi⟩).1

/-- **C86 (partial).** Without assertions `row(i)` yields the cells of row `i` from left to right.  Missing: debug builds, see `matrix_row_panics`. -/
theorem matrix_row_partial {T : Type} (a : Matrix T) (hl : a.data.length = a.m * a.n) (i : Nat) (hi : i < a.n) :
    ∃ l, Matrix.row false a i = some l ∧ l.length = a.m ∧ ∀ j, j < a.m → l[j]? = a.index (i, j) := by
  have h1 : a.m * (i + 1) ≤ a.m * a.n := Nat.mul_le_mul_left _ hi
  rw [Nat.mul_add, Nat.mul_one] at h1
  refine ⟨(a.data.drop (a.m * i)).take a.m, ?_, ?_, ?_⟩
  · simp only [Matrix.row, Matrix.posIn, Matrix.pos, Bool.false_and, Bool.false_eq_true, if_false, Option.bind_some]
    rw [if_pos ⟨by omega, by omega⟩]
    congr 2
    omega
  · simp only [List.length_take, List.length_drop]
    omega
  · intro j hj
    rw [List.getElem?_take, if_pos hj, List.getElem?_drop]
    rfl

/-- **C86 is false**: in debug builds `row` and `row_mut` always panic, because the end of the row is not a legal index. -/
theorem matrix_row_panics {T : Type} (a : Matrix T) (i : Nat) : Matrix.row true a i = none := by
  have : Matrix.posIn true a (i, a.m) = none := by simp [Matrix.posIn]
  unfold Matrix.row
  cases Matrix.posIn true a (i, 0) with
  | none => rfl
  | some s => simp [this]

-- the columns and rows of [[1, 2, 3], [4, 5, 6]]
example : Matrix.col true ⟨2, 3, [1, 2, 3, 4, 5, 6]⟩ 1 = some [2, 5] ∧ Matrix.row false ⟨2, 3, [1, 2, 3, 4, 5, 6]⟩ 1 = some [4, 5, 6] := by decide

end Verif.Props
