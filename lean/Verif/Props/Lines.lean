import Verif.Proofs.Lines
import Verif.Props.Files
/-! C95, C96: line ends and white space around lines. -/
set_option autoImplicit false

namespace Verif.Props
open Verif Spec Text Files

/-- **C95.** A text is split into its lines: each line ends with a line feed, possibly after a carriage return, and every text has exactly one such reading. -/
theorem text_lines {t : List Char} {ls : List (List Char)} : LinesOf t ls ↔ lines t = ls := lines_iff

/-- A text written with the line ends `es` -/
def written : List (List Char) → List (List Char) → List Char
  | l :: ls, e :: es => l ++ e ++ written ls es
  | _, _ => []

/-- **C95.** Lines can be written with Unix ends or with Windows ends, or with some of both... -/
theorem text_written {ls es : List (List Char)} (h : ∀ l ∈ ls, '\n' ∉ l ∧ l.getLast? ≠ some '\r') (he : ∀ e ∈ es, e = ['\n'] ∨ e = ['\r', '\n']) (hn : es.length = ls.length) :
    lines (written ls es) = ls := by
  refine lines_iff.1 ?_
  induction ls generalizing es with
  | nil =>
    cases es with
    | nil => exact .nil
    | cons e es => cases hn
  | cons l ls ih =>
    cases es with
    | nil => cases hn
    | cons e es =>
      have h' := ih (es := es) (fun m hm => h m (by simp [hm])) (fun x hx => he x (by simp [hx])) (by simpa using hn)
      obtain ⟨h1, h2⟩ := h l (by simp)
      rw [written, List.append_assoc]
      rcases he e (by simp) with rfl | rfl
      · exact .unix h1 h2 h'
      · exact .dos h1 h'

/-- **C95.** ...and the end of the last line can be missing. -/
theorem text_unfinished {ls es : List (List Char)} {l : List Char} (h : ∀ l ∈ ls, '\n' ∉ l ∧ l.getLast? ≠ some '\r') (he : ∀ e ∈ es, e = ['\n'] ∨ e = ['\r', '\n']) (hn : es.length = ls.length)
    (hl : '\n' ∉ l) (h0 : l ≠ []) : lines (written ls es ++ l) = ls ++ [l] := by
  refine lines_iff.1 ?_
  induction ls generalizing es with
  | nil =>
    cases es with
    | nil => exact .rest h0 hl
    | cons e es => cases hn
  | cons m ls ih =>
    cases es with
    | nil => cases hn
    | cons e es =>
      have h' := ih (es := es) (fun m hm => h m (by simp [hm])) (fun x hx => he x (by simp [hx])) (by simpa using hn)
      obtain ⟨h1, h2⟩ := h m (by simp)
      rw [written, List.append_assoc, List.append_assoc]
      rcases he e (by simp) with rfl | rfl
      · exact .unix h1 h2 h'
      · exact .dos h1 h'

/-- **C96.** White space around the lines of a file of the example `srflp` does not matter... -/
theorem srflp_white_space {ls ls' : List (List Char)} (h : List.Forall₂ SameLine ls ls') : Read.srflp ls = Read.srflp ls' := Read.srflp_same h

/-- **C96.** ...nor does it for the example `tsptw`... -/
theorem tsptw_white_space {ls ls' : List (List Char)} (h : List.Forall₂ SameLine ls ls') : Read.tsptw ls = Read.tsptw ls' := Read.tsptw_same h

/-- **C96, partial**: for the example `psp` it does not matter from the fourth line on... -/
theorem psp_white_space_partial {l1 l2 l3 : List Char} {ls ls' : List (List Char)} (h : List.Forall₂ SameLine ls ls') : Read.psp (l1 :: l2 :: l3 :: ls) = Read.psp (l1 :: l2 :: l3 :: ls') := Read.psp_same h

theorem digit_ws {c : Char} (h : isWs c = true) : digit c = none := by
  have h1 := isWs_iff.1 h
  unfold digit
  rw [if_neg]
  simp only [whiteSpace, List.mem_cons, List.not_mem_nil, or_false] at h1
  omega

theorem digits_ws {l : List Char} {c : Char} (hc : c ∈ l) (hw : isWs c = true) : ∀ a, digits a l = none := by
  induction l with
  | nil => cases hc
  | cons d l ih =>
    intro a
    rw [digits]
    rcases List.mem_cons.1 hc with rfl | hc
    · rw [digit_ws hw]
    · cases digit d with
      | none => rfl
      | some x => exact ih hc _

theorem parseNat_ws {l : List Char} {c : Char} (hc : c ∈ l) (hw : isWs c = true) (max : Nat) : parseNat max l = none := by
  have hc' : c ∈ unplus l := by
    unfold unplus
    split
    · rcases List.mem_cons.1 hc with rfl | h
      · exact absurd hw (by decide)
      · exact h
    · exact hc
  unfold parseNat magnitude
  rw [digits_ws hc' hw]
  split <;> rfl

/-- **C96 is false**: ...but in the first three lines every white space spoils the file. -/
theorem psp_header_spoiled {l1 l2 l3 : List Char} {ls : List (List Char)} (h : ∃ c, (c ∈ l1 ∨ c ∈ l2 ∨ c ∈ l3) ∧ isWs c = true) : Read.psp (l1 :: l2 :: l3 :: ls) = none := by
  obtain ⟨c, hc, hw⟩ := h
  unfold Read.psp
  dsimp only
  rcases hc with hc | hc | hc
  · rw [parseNat_ws hc hw]; rfl
  · rw [parseNat_ws hc hw]; cases parseNat usizeMax l1 <;> rfl
  · rw [parseNat_ws hc hw]; cases parseNat usizeMax l1 <;> cases parseNat usizeMax l2 <;> rfl

/-- **C95.** So for well-formed files: it does not matter how their lines end. -/
theorem srflp_text {t : List Char} {ls : List (List Char)} {lens : List Int} {flows : List (List Int)} (ht : LinesOf t ls) (h : SrflpFile ls lens flows) :
    ∃ I, Read.srflp (lines t) = some I ∧ I.n = lens.length ∧ (∀ i, I.len i = lens.getD i 0) ∧
      ∀ i j, i < I.n → j < I.n → I.flow i j = if entry flows i j ≠ entry flows j i then entry flows i j + entry flows j i else entry flows i j := by
  rw [lines_of ht]; exact srflp_file h

/-- **C95.** (The example `psp` reads numbers from lines without removing white space, so that it depends on the carriage returns being removed with the line feeds.) -/
theorem psp_text {t : List Char} {ls : List (List Char)} {periods orders : Nat} {changeover : List (List Nat)} {stocking : List Nat} {demand : List (List Nat)} {optimum : Option Nat} (ht : LinesOf t ls)
    (h : PspFile ls periods orders changeover stocking demand optimum) :
    ∃ P, Read.psp (lines t) = some P ∧ P.periods = periods ∧ P.items = stocking.length ∧ P.orders = orders ∧ P.optimum = optimum ∧ P.changeover = entry changeover ∧ P.stocking = stocking ∧
      ∀ i, i < P.items → ∀ p, P.prev i p = Psp.prevDemand (pspInst periods changeover stocking demand) i p ∧ P.rem i p = Psp.remDemand (pspInst periods changeover stocking demand) i p := by
  rw [lines_of ht]; exact psp_file h

/-- **C95.** The same for `tsptw`. -/
theorem tsptw_text {t : List Char} {ls : List (List Char)} {dist : List (List (Nat × Nat))} {windows : List ((Nat × Nat) × (Nat × Nat))} (ht : LinesOf t ls) (h : TsptwFile ls dist windows) :
    ∃ I, Read.tsptw (lines t) = some I ∧ Read.tsptw ls = some I ∧ I.n = dist.length := by
  rw [lines_of ht]; exact ⟨_, Read.tsptw_of h, Read.tsptw_of h, rfl⟩

/-! The files of C77-C79 as texts, with Windows line ends -/

example : lines "3\r\n\r\n4".toList = ["3".toList, [], "4".toList] ∧ lines "3\n\n4\n".toList = ["3".toList, [], "4".toList] ∧ lines "3\r\r\n4\r".toList = ["3\r".toList, "4\r".toList] ∧ lines [] = [] ∧
    lines "\n".toList = [[]] ∧ lines "3\r4".toList = ["3\r4".toList] := by decide +kernel

example : Read.psp (lines (written pspText (pspText.map fun _ => ['\r', '\n']))) = Read.psp pspText ∧ (Read.psp pspText).isSome := by
  rw [text_written (by decide +kernel) (by decide +kernel) (by decide)]
  exact ⟨rfl, by rw [Read.psp_of pspText_file]; rfl⟩

example : (Read.psp pspText).isSome ∧ Read.psp ("3 ".toList :: pspText.tail) = none :=
  ⟨by rw [Read.psp_of pspText_file]; rfl, psp_header_spoiled ⟨' ', Or.inl (by decide), by decide⟩⟩

example : Read.srflp (srflpText.map fun l => ' ' :: l ++ ['\r']) = Read.srflp srflpText := by
  refine (srflp_white_space ?_).symm
  rw [List.forall₂_map_right_iff]
  exact List.forall₂_same.2 fun l _ => ⟨[], l, [], [' '], ['\r'], by simp, by simp, by unfold Blank; decide, by unfold Blank; decide, by unfold Blank; decide, by unfold Blank; decide⟩

example : ∃ I, Read.srflp (lines (written srflpText (srflpText.map fun _ => ['\r', '\n']))) = some I ∧ I.n = 3 := by
  obtain ⟨I, h1, h2, _⟩ := srflp_text (lines_iff.2 (text_written (ls := srflpText) (es := srflpText.map fun _ => ['\r', '\n']) (by decide +kernel) (by decide +kernel) (by decide))) srflpText_file
  exact ⟨I, h1, h2⟩

example : ∃ I, Read.tsptw (lines (written tsptwText (tsptwText.map fun _ => ['\n']))) = some I ∧ I.n = 3 := by
  obtain ⟨I, h1, _, h2⟩ := tsptw_text (lines_iff.2 (text_written (ls := tsptwText) (es := tsptwText.map fun _ => ['\n']) (by decide +kernel) (by decide +kernel) (by decide))) tsptwText_file
  exact ⟨I, h1, h2⟩

end Verif.Props
