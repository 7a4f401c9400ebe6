import Verif.Model.BinaryError

/-!
# Messages that are cut
-/

namespace Verif.Spec

open Verif

/-- The error says that there is not enough input. -/
def Short (e : BinaryError) : Prop := e = .eof ∨ e = .unexpectedEof

/-- The fields of a message. -/
inductive BinaryField
  | number (v : Int64)
  | text (s : Str)

/-- codec/binary.go: numbers, and texts after their lengths. -/
def BinaryField.bytes : BinaryField → List UInt8
  | .number v => writeLong v
  | .text s => writeLong (Int64.ofNat s.length) ++ s

/-- A message, field by field: the tags come after their number, and before a zero. -/
def messageFields (s : Span) (ord : List (Str × Str)) : List BinaryField :=
  [.number s.id, .number s.trace, .number s.parent, .text s.name, .text s.service, .number s.timestamp, .number s.duration,
    .number s.timings.CS, .number s.timings.CR, .number s.timings.SS, .number s.timings.SR, .number (Int64.ofNat ord.length)] ++
  if ord = [] then [] else ord.flatMap (fun e => [.text e.1, .text e.2]) ++ [.number 0]

/-- The input is cut within the bytes of a text, after the first one. -/
def CutInText (fields : List BinaryField) (p : List UInt8) : Prop :=
  ∃ before s after part rest, fields = before ++ .text s :: after ∧ s = part ++ rest ∧ part ≠ [] ∧ rest ≠ [] ∧
    p = before.flatMap BinaryField.bytes ++ writeLong (Int64.ofNat s.length) ++ part

end Verif.Spec
