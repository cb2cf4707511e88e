import Verif.Proofs.ReadersPsp
import Verif.Proofs.Sheet
import Verif.Props.Files
import Verif.Props.Srflp
/-! C106: files whose rows have too many or too few numbers. -/
set_option autoImplicit false

namespace Verif.Props
open Verif Spec Text Files

/-! ### `srflp` and `tsptw` -/

section
variable {lines : List (List Char)} {w : List Char} {ws : List (List Char)} {n : Nat}

/-- **C106.** How `srflp` reads rows of any length: the numbers of a row are written from the first cell of this row on, and go into the next rows if they are too many; what is not written is 0.  The file is
refused only if a row goes beyond the last cell.  Rows after the last one of the matrix do not matter. -/
theorem srflp_any_rows {tl : List (List Char)} {tf extra : List (List (List Char))} {lens : List Int} {flows : List (List Int)}
    (hr : Rows (fun c => c == ' ' || c == ',' || c == '\t') none lines ((w :: ws) :: tl :: (tf ++ extra))) (hw : Unsigned w n) (hn : n < 2 ^ 64) (hl : List.Forall₂ Signed tl lens)
    (hlf : ∀ z ∈ lens, Fits z) (hf : List.Forall₂ (List.Forall₂ Signed) tf flows) (hff : ∀ r ∈ flows, ∀ z ∈ r, Fits z) (hc : flows.length = n ∨ (flows.length ≤ n ∧ extra = [])) :
    (Inside n flows → ∃ m, Sheet n flows m ∧ Read.srflp lines = some { n := n, len := fun i => lens.getD i 0, flow := Srflp.symmetrise n m }) ∧
    (¬ Inside n flows → Read.srflp lines = none) := by
  have hle : flows.length ≤ n := by omega
  unfold Read.srflp
  rw [Read.Srflp.loop_rows (rs := (w :: ws) :: tl :: (tf ++ extra)) hr, Read.Srflp.rows, Read.Srflp.row.eq_def, if_pos rfl]
  simp only [parseNat_of hw (max := usizeMax) (by unfold usizeMax; omega), Option.map_some, Option.bind_some]
  rw [Read.Srflp.rows, Read.Srflp.row.eq_def, if_neg (by simp), if_pos (by simp), Read.parseAll_id (ok := Fits) (fun w z hw hz => parseInt_of hw hz.1 hz.2) hl hlf]
  simp only [Option.map_some, Option.bind_some, Read.Srflp.rows_append]
  obtain ⟨h1, h2⟩ := Read.Srflp.rows_sheet (n := n) (lens := lens) hf [] (fun _ _ => 0) (Read.sheet_nil n) (by intro i r h; simp at h) (by simpa using hle) hff
  simp only [List.length_nil, Nat.add_zero, List.nil_append, Nat.zero_add] at h1 h2 ⊢
  refine ⟨fun hi => ?_, fun hi => ?_⟩
  · obtain ⟨m, k1, k2⟩ := h1 hi
    refine ⟨m, k1, ?_⟩
    rw [show 1 + 1 = 2 from rfl, k2]
    rcases hc with hc | ⟨_, rfl⟩
    · simp only [Option.bind_some]
      rw [Read.Srflp.rows_extra extra (2 + flows.length) (by omega)]
      rfl
    · rfl
  · rw [show 1 + 1 = 2 from rfl, h2 hi]
    rfl

/-- **C106.** So surplus numbers do no harm if all rows are complete: they are overwritten. -/
theorem srflp_surplus_ignored {tl : List (List Char)} {tf extra : List (List (List Char))} {lens : List Int} {flows : List (List Int)}
    (hr : Rows (fun c => c == ' ' || c == ',' || c == '\t') none lines ((w :: ws) :: tl :: (tf ++ extra))) (hw : Unsigned w n) (hn : n < 2 ^ 64) (hl : List.Forall₂ Signed tl lens)
    (hlf : ∀ z ∈ lens, Fits z) (hf : List.Forall₂ (List.Forall₂ Signed) tf flows) (hff : ∀ r ∈ flows, ∀ z ∈ r, Fits z) (hc : flows.length = n) (hlong : ∀ r ∈ flows, n ≤ r.length)
    (hi : Inside n flows) :
    ∃ I, Read.srflp lines = some I ∧ I.n = n ∧ (∀ i, I.len i = lens.getD i 0) ∧
      ∀ i j, i < n → j < n → I.flow i j = if entry flows i j ≠ entry flows j i then entry flows i j + entry flows j i else entry flows i j := by
  obtain ⟨m, h1, h2⟩ := (srflp_any_rows hr hw hn hl hlf hf hff (Or.inl hc)).1 hi
  refine ⟨_, h2, rfl, fun _ => rfl, fun i j hi hj => ?_⟩
  show Srflp.symmetrise n m i j = _
  rw [srflp_symmetrise m hi hj, Read.sheet_full h1 hc hlong hi hj, Read.sheet_full h1 hc hlong hj hi]

/-- **C106.** The same for `tsptw`, whose numbers are read as in C79. -/
theorem tsptw_any_rows {td tw : List (List (List Char))} {dist : List (List (Nat × Nat))} {windows : List ((Nat × Nat) × (Nat × Nat))}
    (hr : Rows isWs (some '#') lines ((w :: ws) :: (td ++ tw))) (hw : Unsigned w n) (hd : List.Forall₂ (List.Forall₂ IsDecimal) td dist)
    (ht : List.Forall₂ (fun ts x => ∃ a b rest, ts = a :: b :: rest ∧ IsDecimal a x.1 ∧ IsDecimal b x.2) tw windows) (hc : dist.length = n ∨ (dist.length ≤ n ∧ tw = []))
    (hs : n + windows.length + 1 < 2 ^ 16) :
    (Inside n dist → ∃ m, Sheet n (dist.map (·.map Read.read)) m ∧ ∃ I, Read.tsptw lines = some I ∧ I.n = n ∧ I.dist = m ∧
      ∀ i, I.earliest i = Read.read (windows.getD i ((0, 0), (0, 0))).1 ∧ I.latest i = Read.read (windows.getD i ((0, 0), (0, 0))).2) ∧
    (¬ Inside n dist → Read.tsptw lines = none) := by
  have hle : dist.length ≤ n := by omega
  have hn : n < Read.u16Max := by unfold Read.u16Max; omega
  have hins : Inside n (dist.map (·.map Read.read)) ↔ Inside n dist := by
    constructor
    · intro h i r hr
      have := h i (r.map Read.read) (by simp [hr])
      simpa using this
    · intro h i r hr
      simp only [List.getElem?_map, Option.map_eq_some_iff] at hr
      obtain ⟨r', h1, rfl⟩ := hr
      simpa using h i r' h1
  rw [← hins]
  unfold Read.tsptw
  rw [Read.Tsptw.loop_rows hr, Read.Tsptw.rows, Read.Tsptw.row, Read.Tsptw.content'.eq_def, if_pos rfl]
  simp only [parseNat_of hw (max := Read.u16Max) (Nat.le_of_lt hn), Option.map_some, Option.bind_some]
  rw [if_pos (by decide)]
  simp only [Option.bind_some, Read.Tsptw.rows_append]
  obtain ⟨h1, h2⟩ := Read.Tsptw.rows_sheet (n := n) (ws := []) hd hn [] (fun _ _ => 0) (Read.sheet_nil n) (by intro i r h; simp at h) (by simpa using hle)
  simp only [List.length_nil, Nat.add_zero, List.nil_append, Nat.zero_add] at h1 h2 ⊢
  refine ⟨fun hi => ?_, fun hi => ?_⟩
  · obtain ⟨m, k1, k2⟩ := h1 hi
    refine ⟨m, k1, ?_⟩
    rw [k2]
    have r0 : Read.read (0, 0) = 0 := by simp [Read.read, Read.tenThousandths]
    have fin : ∀ i, ((windows.map fun x => (Read.read x.1, Read.read x.2)).getD i (0, 0)).1 = Read.read (windows.getD i ((0, 0), (0, 0))).1 ∧
        ((windows.map fun x => (Read.read x.1, Read.read x.2)).getD i (0, 0)).2 = Read.read (windows.getD i ((0, 0), (0, 0))).2 := by
      intro i
      by_cases hi : i < windows.length
      · simp [List.getD, hi]
      · simp [List.getD, hi, r0]
    rcases hc with hc | ⟨_, rfl⟩
    · simp only [Option.bind_some]
      rw [Read.Tsptw.rows_windows ht (1 + dist.length) [] (by omega) (by unfold Read.u16Max; omega)]
      exact ⟨_, rfl, rfl, rfl, fin⟩
    · cases ht
      exact ⟨_, rfl, rfl, rfl, fin⟩
  · rw [h2 hi]
    rfl

/-- **C106.** Nothing is read from a file without content: an instance without nodes. -/
theorem tsptw_empty (h : Rows isWs (some '#') lines []) : ∃ I, Read.tsptw lines = some I ∧ I.n = 0 := by
  unfold Read.tsptw
  rw [Read.Tsptw.loop_rows h]
  exact ⟨_, rfl, rfl⟩

theorem srflp_empty (h : Rows (fun c => c == ' ' || c == ',' || c == '\t') none lines []) : ∃ I, Read.srflp lines = some I ∧ I.n = 0 := by
  unfold Read.srflp
  rw [Read.Srflp.loop_rows (rs := []) h]
  exact ⟨_, rfl, rfl⟩

end

/-- A file for two nodes: four numbers in the first row, one in the second -/
def mixedText : List (List Char) := ["2".toList, "0 5 7 8".toList, "9".toList, "0 99".toList, "1 99".toList]

/-- Such a file is not refused: the number that is missing in the second row is taken from the first one. -/
theorem tsptw_rows_mixed : ∃ I, Read.tsptw mixedText = some I ∧ ((List.range 2).map fun i => (List.range 2).map (I.dist i)) = [[0, 50000], [90000, 80000]] ∧
    Read.tsptw ["2".toList, "0 5".toList, "9 0 8".toList, "0 99".toList, "1 99".toList] = none :=
  ⟨_, rfl, by decide +kernel, by decide +kernel⟩

/-- The general statement says the same. -/
example : ∃ m, Sheet 2 [[0, 50000, 70000, 80000], [90000]] m ∧ ∃ I, Read.tsptw mixedText = some I ∧ I.dist = m := by
  obtain ⟨m, h1, I, h2, _, h3, _⟩ := (tsptw_any_rows (lines := mixedText) (n := 2) (w := "2".toList) (ws := [])
    (td := [["0".toList, "5".toList, "7".toList, "8".toList], ["9".toList]]) (tw := [["0".toList, "99".toList], ["1".toList, "99".toList]])
    (dist := [[(0, 0), (5, 0), (7, 0), (8, 0)], [(9, 0)]]) (windows := [((0, 0), (99, 0)), ((1, 0), (99, 0))])
    (rows_row (by decide +kernel) (by decide +kernel) (by decide +kernel) (rows_row (by decide +kernel) (by decide +kernel) (by decide +kernel) (rows_row (by decide +kernel) (by decide +kernel) (by decide +kernel)
      (rows_row (by decide +kernel) (by decide +kernel) (by decide +kernel) (rows_row (by decide +kernel) (by decide +kernel) (by decide +kernel) .nil)))))
    ((parseNat_iff (max := 3)).1 (by decide +kernel) |>.1)
    (.cons (.cons (isDecimal_int (by decide +kernel)) (.cons (isDecimal_int (by decide +kernel)) (.cons (isDecimal_int (by decide +kernel)) (.cons (isDecimal_int (by decide +kernel)) .nil))))
      (.cons (.cons (isDecimal_int (by decide +kernel)) .nil) .nil))
    (.cons ⟨_, _, [], rfl, isDecimal_int (by decide +kernel), isDecimal_int (by decide +kernel)⟩ (.cons ⟨_, _, [], rfl, isDecimal_int (by decide +kernel), isDecimal_int (by decide +kernel)⟩ .nil))
    (Or.inl rfl) (by decide)).1 (by
      intro i r hr
      match i with
      | 0 => simp at hr; subst hr; decide
      | 1 => simp at hr; subst hr; decide
      | i + 2 => simp at hr)
  refine ⟨m, ?_, I, h2, h3⟩
  have e : [[(0, 0), (5, 0), (7, 0), (8, 0)], [(9, 0)]].map (·.map Read.read) = [[0, 50000, 70000, 80000], [90000]] := by decide +kernel
  rw [e] at h1
  exact h1

/-- A file for two departments with a surplus number in the first row -/
example : ∃ I, Read.srflp ["2".toList, "3 4".toList, "0 5 7".toList, "6 0".toList] = some I ∧ I.n = 2 ∧ I.flow 0 1 = 11 ∧ I.flow 1 0 = 11 := by
  obtain ⟨I, h1, h2, _, h3⟩ := srflp_surplus_ignored (lines := ["2".toList, "3 4".toList, "0 5 7".toList, "6 0".toList]) (n := 2) (w := "2".toList) (ws := []) (tl := ["3".toList, "4".toList])
    (tf := [["0".toList, "5".toList, "7".toList], ["6".toList, "0".toList]]) (extra := []) (lens := [3, 4]) (flows := [[0, 5, 7], [6, 0]])
    (rows_row (by decide +kernel) (by decide +kernel) (by simp) (rows_row (by decide +kernel) (by decide +kernel) (by simp) (rows_row (by decide +kernel) (by decide +kernel) (by simp)
      (rows_row (by decide +kernel) (by decide +kernel) (by simp) .nil))))
    ((parseNat_iff (max := 3)).1 (by decide +kernel) |>.1) (by decide) (signed_row (by decide +kernel)) (by unfold Fits; decide)
    (.cons (signed_row (by decide +kernel)) (.cons (signed_row (by decide +kernel)) .nil)) (by unfold Fits; decide) rfl (by decide) (by
      intro i r hr
      match i with
      | 0 => simp at hr; subst hr; decide
      | 1 => simp at hr; subst hr; decide
      | i + 2 => simp at hr)
  exact ⟨I, h1, h2, by rw [h3 0 1 (by decide) (by decide)]; decide, by rw [h3 1 0 (by decide) (by decide)]; decide⟩

/-! ### `psp` -/

section
variable {l1 l2 l3 x1 b l : List Char} {cs rest : List (List Char)} {changeover : List (List Nat)} {items : Nat}

theorem changeoverRows_long {ls : List (List Char)} {rs : List (List Nat)} (h : Block ls rs) (hr : ∃ r ∈ rs, items < r.length) :
    ∀ (i : Nat) (m : Nat → Nat → Nat), Read.changeoverRows items i m (ls.map trim) = none := by
  induction h with
  | nil => simp at hr
  | @cons l t ts ns ls rs hl hn hf _ ih =>
    intro i m
    rw [List.map_cons, Read.changeoverRows, line_words hl, Read.parseAll_id (ok := fun n => n < 2 ^ 64) (fun w n hw hn => Read.parse_unsigned hw hn) hn hf]
    simp only [Option.bind_some]
    split
    · rename_i hc
      refine ih ?_ _ _
      obtain ⟨r, h1, h2⟩ := hr
      rcases List.mem_cons.1 h1 with rfl | h1
      · omega
      · exact ⟨r, h1, h2⟩
    · rfl

/-- **C106.** The example `psp` has a matrix of its own: a debug build refuses a row of changeover costs that is too long. -/
theorem psp_long_row_refused (h2 : Unsigned l2 items) (hi : items < 2 ^ 64) (hc : Block cs changeover) (hb : Blank b) (hr : ∃ r ∈ changeover, items < r.length) :
    Read.psp (l1 :: l2 :: l3 :: x1 :: (cs ++ b :: rest)) = none := by
  unfold Read.psp
  simp only [Read.parse_unsigned h2 hi, Option.bind_some, List.drop_one, List.tail_cons]
  rw [Read.section_of hc, Read.section_blank hb]
  simp only [List.append_nil, changeoverRows_long hc hr]
  cases parseNat usizeMax l1 with
  | none => rfl
  | some p =>
    simp only [Option.bind_some]
    cases parseNat usizeMax l3 <;> rfl

/-- **C106.** Stocking costs that are missing are 0, those that are too many are not looked at. -/
theorem psp_stocking_words {ts : List (List Char)} {P : Read.Psp} (hc : Block cs changeover) (hb : Blank b) (hl : Words isWs l ts)
    (h : Read.psp (l1 :: l2 :: l3 :: x1 :: (cs ++ b :: l :: rest)) = some P) :
    P.stocking.length = P.items ∧ ∀ i, i < P.items → (∀ w, ts[i]? = some w → Unsigned w (P.stocking.getD i 0)) ∧ (ts.length ≤ i → P.stocking.getD i 0 = 0) := by
  unfold Read.psp at h
  simp only [Option.bind_eq_some_iff, List.drop_one, List.tail_cons] at h
  obtain ⟨periods, _, items, _, orders, _, h⟩ := h
  rw [Read.section_of hc, Read.section_blank hb] at h
  simp only [Option.bind_eq_some_iff] at h
  obtain ⟨m, _, stocking, hs, t, _, h⟩ := h
  obtain ⟨o, _, rfl⟩ := Option.map_eq_some_iff.1 h
  show stocking.length = items ∧ ∀ i, i < items → _
  unfold Read.stockingCosts at hs
  obtain ⟨vs, hv, rfl⟩ := Option.map_eq_some_iff.1 hs
  rw [words_of hl] at hv
  have hf := unsigned_row hv
  have hlen : vs.length = min items ts.length := by rw [← hf.length_eq, List.length_take]
  refine ⟨by simp; omega, fun i hi => ⟨fun w hw => ?_, fun hw => ?_⟩⟩
  · have hi' : i < ts.length := (List.getElem?_eq_some_iff.1 hw).1
    have hiv : i < vs.length := by omega
    have := List.forall₂_iff_get.1 hf |>.2 i (by rw [List.length_take]; omega) hiv
    have e : (vs ++ List.replicate (items - vs.length) 0).getD i 0 = vs[i] := by
      simp [List.getD, List.getElem?_append_left hiv, List.getElem?_eq_getElem hiv]
    show Unsigned w ((vs ++ List.replicate (items - vs.length) 0).getD i 0)
    rw [e]
    have e2 : (ts.take items).get ⟨i, by rw [List.length_take]; omega⟩ = w := by
      simp only [List.get_eq_getElem, List.getElem_take]
      exact (List.getElem?_eq_some_iff.1 hw).2
    rw [e2] at this
    exact this
  · show (vs ++ List.replicate (items - vs.length) 0).getD i 0 = 0
    have hiv : vs.length ≤ i := by omega
    simp [List.getD, List.getElem?_append_right hiv, List.getElem?_replicate]
    split <;> rfl

/-- One cost for two items, and three. -/
example : (Read.psp ["2".toList, "2".toList, "1".toList, "".toList, "0 5".toList, "4 0".toList, "".toList, "7".toList, "".toList, "0 1".toList, "0 0".toList]).map (·.stocking) = some [7, 0] ∧
    (Read.psp ["2".toList, "2".toList, "1".toList, "".toList, "0 5".toList, "4 0".toList, "".toList, "7 8 x".toList, "".toList, "0 1".toList, "0 0".toList]).map (·.stocking) = some [7, 8] ∧
    Read.psp ["2".toList, "2".toList, "1".toList, "".toList, "0 5 1".toList, "4 0".toList, "".toList, "7 8".toList, "".toList, "0 1".toList, "0 0".toList] = none := by
  refine ⟨by decide +kernel, by decide +kernel, rfl⟩

end

end Verif.Props
