import Verif.Proofs.Bytes
import Verif.Props.Lines
/-! C103: the instance files as bytes. -/
set_option autoImplicit false

namespace Verif.Props
open Verif Spec

/-- **C103.** The bytes that are decoded to a text are its encoding and nothing else. -/
theorem utf8_decode_iff {l : List UInt8} {t : List Char} : Bytes.decode l = some t ↔ encode t = l := Bytes.decode_iff

/-- A surrogate, too long an encoding, a byte that is missing, a code point that is too large. -/
example : Bytes.decode [0xED, 0xA0, 0x80] = none ∧ Bytes.decode [0xC0, 0x8A] = none ∧ Bytes.decode [0xE2, 0x82] = none ∧ Bytes.decode [0xF4, 0x90, 0x80, 0x80] = none ∧
    Bytes.decode [0xC3, 0xA9, 0xE2, 0x82, 0xAC, 0xF0, 0x9F, 0x98, 0x80] = some [Char.ofNat 0xE9, Char.ofNat 0x20AC, Char.ofNat 0x1F600] := by decide +kernel

/-- **C103.** The lines of the bytes of a text are those of the text: a line feed is never part of another character. -/
theorem bytes_lines (t : List Char) : Bytes.lines (encode t) = (Text.lines t).map some := Bytes.lines_encode t

/-- **C103.** All lines can be decoded exactly if the whole file is a text. -/
theorem bytes_lines_valid {l : List UInt8} : none ∉ Bytes.lines l ↔ ∃ t, encode t = l := by
  constructor
  · intro h
    obtain ⟨t, ht⟩ := Bytes.decode_of_lines h
    exact ⟨t, Bytes.decode_iff.1 ht⟩
  · rintro ⟨t, rfl⟩ h
    rw [Bytes.lines_encode, List.mem_map] at h
    obtain ⟨_, _, h⟩ := h
    cases h

/-- **C103.** The program `srflp` reads a file exactly if the bytes are those of a text that it reads. -/
theorem srflp_bytes {l : List UInt8} {I : Srflp.Inst} : Bytes.srflp l = some I ↔ ∃ t, encode t = l ∧ Read.srflp (Text.lines t) = some I := by
  have key : ∀ t, Bytes.srflp (encode t) = Read.srflp (Text.lines t) := by
    intro t
    unfold Bytes.srflp Read.srflp
    rw [Bytes.lines_encode, Bytes.srflpLoop_some]
  constructor
  · intro h
    by_cases hn : none ∈ Bytes.lines l
    · unfold Bytes.srflp at h
      rw [Bytes.srflpLoop_none _ _ hn] at h; cases h
    · obtain ⟨t, rfl⟩ := bytes_lines_valid.1 hn
      exact ⟨t, rfl, by rw [← key]; exact h⟩
  · rintro ⟨t, rfl, h⟩
    rw [key]; exact h

/-- **C103.** So does the program `tsptw`. -/
theorem tsptw_bytes {l : List UInt8} {I : Tsptw.Inst} : Bytes.tsptw l = some I ↔ ∃ t, encode t = l ∧ Read.tsptw (Text.lines t) = some I := by
  have key : ∀ t, Bytes.tsptw (encode t) = Read.tsptw (Text.lines t) := by
    intro t
    unfold Bytes.tsptw Read.tsptw
    rw [Bytes.lines_encode, Bytes.tsptwLoop_some]
  constructor
  · intro h
    by_cases hn : none ∈ Bytes.lines l
    · unfold Bytes.tsptw at h
      rw [Bytes.tsptwLoop_none _ _ hn] at h; cases h
    · obtain ⟨t, rfl⟩ := bytes_lines_valid.1 hn
      exact ⟨t, rfl, by rw [← key]; exact h⟩
  · rintro ⟨t, rfl, h⟩
    rw [key]; exact h

/-- **C103 (partial).** The program `psp` reads the bytes of a text as it reads the text.  Missing: it also reads files that are not texts. -/
theorem psp_bytes_partial (t : List Char) : Bytes.psp (encode t) = Read.psp (Text.lines t) := by
  unfold Bytes.psp
  rw [Bytes.lines_encode, Bytes.pspLines_some]

/-- **C103 (partial).** ...but then it only overlooks lines: the result is that for the file in which those that are not UTF-8 are empty. -/
theorem psp_bytes_lines_partial {l : List UInt8} {P : Read.Psp} (h : Bytes.psp l = some P) : Read.psp ((Bytes.lines l).map fun o => o.getD []) = some P := Bytes.pspLines_getD _ h

/-- A file of the example `psp` in which the fourth line is the byte 255. -/
def pspBytes : List UInt8 := encode "1\n1\n0\n".toList ++ [0xFF, 10] ++ encode "0\n\n1\n\n0\n".toList

/-- **C103 is false** for `psp`: a file that is not UTF-8 is read, because nobody looks at the fourth line. -/
theorem psp_not_utf8 : (∀ t, encode t ≠ pspBytes) ∧ ∃ P, Bytes.psp pspBytes = some P ∧ P.periods = 1 ∧ P.items = 1 := by
  constructor
  · intro t h
    have h1 := Bytes.decode_iff.2 h
    have h2 : Bytes.decode pspBytes = none := by decide +kernel
    rw [h2] at h1; cases h1
  · have h : ((Bytes.psp pspBytes).map fun P => (P.periods, P.items)) = some (1, 1) := by decide +kernel
    cases e : Bytes.psp pspBytes with
    | none => rw [e] at h; cases h
    | some P =>
      rw [e] at h
      simp only [Option.map_some, Option.some.injEq, Prod.mk.injEq] at h
      exact ⟨P, rfl, h.1, h.2⟩

/-- **C103.** A file that begins with a byte order mark is refused by all three programs, whatever follows. -/
theorem byte_order_mark_refused (t : List Char) : Bytes.srflp (encode (bom :: t)) = none ∧ Bytes.tsptw (encode (bom :: t)) = none ∧ Bytes.psp (encode (bom :: t)) = none := by
  refine ⟨?_, ?_, by rw [psp_bytes_partial]; exact Bytes.psp_bom t⟩
  · unfold Bytes.srflp
    rw [Bytes.lines_encode, Bytes.srflpLoop_some]
    exact Bytes.srflp_bom t
  · unfold Bytes.tsptw
    rw [Bytes.lines_encode, Bytes.tsptwLoop_some]
    exact Bytes.tsptw_bom t

/-- The text of an instance of `srflp` is read from its bytes, and with a byte order mark it is not. -/
example : (∃ I, Bytes.srflp (encode (written srflpText (srflpText.map fun _ => ['\r', '\n']))) = some I ∧ I.n = 3) ∧
    Bytes.srflp (encode (bom :: written srflpText (srflpText.map fun _ => ['\r', '\n']))) = none := by
  obtain ⟨I, h1, h2, _⟩ := srflp_text (Text.lines_iff.2 (text_written (ls := srflpText) (es := srflpText.map fun _ => ['\r', '\n']) (by decide +kernel) (by decide +kernel) (by decide))) srflpText_file
  exact ⟨⟨I, srflp_bytes.2 ⟨_, rfl, h1⟩, h2⟩, (byte_order_mark_refused _).1⟩

end Verif.Props
