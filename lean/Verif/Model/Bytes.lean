import Verif.Model.Readers
/-!
The instance files as bytes: `BufRead::lines` of the standard library (`srflp/instance.rs:46`, `tsptw/instance.rs:60`, `psp.rs:365`) and what the three readers do with a line that is not UTF-8.

A line is `none` if its bytes are not UTF-8: then the iterator yields an error, and goes on after the line.  Left out: failures of the input itself.
-/
set_option autoImplicit false

namespace Verif.Bytes

/-- `utf8_char_width` of the standard library: how many bytes a character has, from its first byte; 0: no character begins like this. -/
def width (a : Nat) : Nat :=
  if a < 0x80 then 1 else if 0xC2 ≤ a ∧ a ≤ 0xDF then 2 else if 0xE0 ≤ a ∧ a ≤ 0xEF then 3 else if 0xF0 ≤ a ∧ a ≤ 0xF4 then 4 else 0

/-- A continuation byte -/
def cont (b : Nat) : Bool := 0x80 ≤ b && b ≤ 0xBF

/-- `run_utf8_validation` of the standard library, three bytes: the second one after the first -/
def second3 (a b : Nat) : Bool :=
  (a == 0xE0 && 0xA0 ≤ b && b ≤ 0xBF) || (0xE1 ≤ a && a ≤ 0xEC && cont b) || (a == 0xED && 0x80 ≤ b && b ≤ 0x9F) || (0xEE ≤ a && a ≤ 0xEF && cont b)

/-- ...and four bytes -/
def second4 (a b : Nat) : Bool :=
  (a == 0xF0 && 0x90 ≤ b && b ≤ 0xBF) || (0xF1 ≤ a && a ≤ 0xF3 && cont b) || (a == 0xF4 && 0x80 ≤ b && b ≤ 0x8F)

/-- The first character and the bytes after it (`run_utf8_validation` and `next_code_point` of the standard library) -/
def next : List UInt8 → Option (Char × List UInt8)
  | [] => none
  | a :: l =>
    if width a.toNat = 1 then some (Char.ofNat a.toNat, l)
    else if width a.toNat = 2 then
      match l with
      | b :: l => if cont b.toNat then some (Char.ofNat (a.toNat % 32 * 64 + b.toNat % 64), l) else none
      | _ => none
    else if width a.toNat = 3 then
      match l with
      | b :: c :: l =>
        if second3 a.toNat b.toNat && cont c.toNat then some (Char.ofNat (a.toNat % 32 * 4096 + b.toNat % 64 * 64 + c.toNat % 64), l) else none
      | _ => none
    else if width a.toNat = 4 then
      match l with
      | b :: c :: d :: l =>
        if second4 a.toNat b.toNat && cont c.toNat && cont d.toNat then
          some (Char.ofNat (a.toNat % 8 * 262144 + b.toNat % 64 * 4096 + c.toNat % 64 * 64 + d.toNat % 64), l)
        else none
      | _ => none
    else none

/-- At most `k` characters -/
def decodeFrom : Nat → List UInt8 → Option (List Char)
  | _, [] => some []
  | 0, _ => none
  | k + 1, l => match next l with
    | none => none
    | some (c, l) => (decodeFrom k l).map (c :: ·)

/-- `str::from_utf8` of the standard library -/
def decode (l : List UInt8) : Option (List Char) := decodeFrom l.length l

/-- `read_until(b'\n')` again and again, when `acc` (backwards) has been read since the last line feed -/
def chunks (acc : List UInt8) : List UInt8 → List (List UInt8)
  | [] => if acc.isEmpty then [] else [acc.reverse]
  | b :: l => if b = 10 then (b :: acc).reverse :: chunks [] l else chunks (b :: acc) l

/-- The end of a line is removed: `\n`, and then `\r`. -/
def endLine (t : List Char) : List Char :=
  match t.reverse with
  | '\n' :: r => (Text.chomp r).reverse
  | _ => t

/-- `BufRead::lines` -/
def lines (l : List UInt8) : List (Option (List Char)) := (chunks [] l).map fun c => (decode c).map endLine

open Read

/-- `srflp/instance.rs:56-87`: `line.unwrap()` panics. -/
def srflpLoop : Srflp → List (Option (List Char)) → Option Srflp
  | s, [] => some s
  | _, none :: _ => none
  | s, some line :: lines => (s.step line).bind fun s => srflpLoop s lines

/-- `srflp/instance.rs:50-100` -/
def srflp (bytes : List UInt8) : Option Verif.Srflp.Inst :=
  (srflpLoop ⟨0, 0, [], fun _ _ => 0⟩ (lines bytes)).map fun s =>
    { n := s.n, len := fun i => s.lengths.getD i 0, flow := Verif.Srflp.symmetrise s.n s.flows }

/-- `tsptw/instance.rs:70-107`: `line.unwrap()` panics. -/
def tsptwLoop : Tsptw → List (Option (List Char)) → Option Tsptw
  | s, [] => some s
  | _, none :: _ => none
  | s, some line :: lines => (s.step line).bind fun s => tsptwLoop s lines

/-- `tsptw/instance.rs:64-110` -/
def tsptw (bytes : List UInt8) : Option Verif.Tsptw.Inst :=
  (tsptwLoop ⟨0, 0, fun _ _ => 0, []⟩ (lines bytes)).map fun s =>
    { n := s.n, dist := s.dist, earliest := fun i => (s.windows.getD i (0, 0)).1, latest := fun i => (s.windows.getD i (0, 0)).2 }

/-- As `Read.section_`; `line?` returns the error (`psp.rs:389-394`, `psp.rs:419-425`). -/
def pspSection : List (Option (List Char)) → Option (List (List Char) × List (Option (List Char)))
  | [] => some ([], [])
  | none :: _ => none
  | some line :: lines => if (Text.trim line).isEmpty then some ([], lines) else (pspSection lines).map fun r => (Text.trim line :: r.1, r.2)

/-- `psp.rs:452-459`: the line that is skipped is not looked at. -/
def pspOptimum (lines : List (Option (List Char))) : Option (Option Nat) :=
  match lines.drop 1 with
  | [] => some none
  | none :: _ => none
  | some line :: _ => (Text.parseNat Text.usizeMax (Text.trim line)).map some

/-- `psp.rs:371-478`: the two lines `_blank` are not looked at either. -/
def pspLines : List (Option (List Char)) → Option Psp
  | some l1 :: some l2 :: some l3 :: lines =>
    (Text.parseNat Text.usizeMax l1).bind fun periods =>
    (Text.parseNat Text.usizeMax l2).bind fun items =>
    (Text.parseNat Text.usizeMax l3).bind fun orders =>
    (pspSection (lines.drop 1)).bind fun r =>
    (changeoverRows items 0 (fun _ _ => 0) r.1).bind fun changeover =>
    match r.2 with
    | some line :: lines =>
      (stockingCosts items line).bind fun stocking =>
      (pspSection (lines.drop 1)).bind fun r =>
      (demandRows items periods 0 ⟨-1, fun _ _ => 0, fun _ _ => 0⟩ r.1).bind fun t =>
      (pspOptimum r.2).map fun optimum =>
        { optimum := optimum, periods := periods, items := items, orders := orders, changeover := changeover, stocking := stocking, prev := t.prev, rem := t.rem }
    | _ => none
  | _ => none

/-- `psp.rs:364-366` -/
def psp (bytes : List UInt8) : Option Psp := pspLines (lines bytes)

end Verif.Bytes
