/-! Texts as bytes. -/
set_option autoImplicit false

namespace Verif.Spec

/-- The bytes of a text in UTF-8, by the encoding of the Lean library. -/
def encode (t : List Char) : List UInt8 := t.flatMap String.utf8EncodeChar

/-- The byte order mark -/
def bom : Char := Char.ofNat 0xFEFF

example : encode "é€".toList = [0xC3, 0xA9, 0xE2, 0x82, 0xAC] ∧ encode [bom] = [0xEF, 0xBB, 0xBF] := by decide

end Verif.Spec
