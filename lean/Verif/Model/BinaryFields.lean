import Verif.Model.BinaryError

/-!
# codec/binary.go: the span that BinaryDecode returns together with an error
-/

namespace Verif

/-- One assignment of `BinaryDecode`: a value is read and stored in the span. -/
abbrev FieldReader := Span → DecE Span

/-- codec/binary.go:81-128: the assignments, in their order. -/
def spanFields : List FieldReader :=
  [fun s => do let v ← readLongE; return { s with id := v },
   fun s => do let v ← readLongE; return { s with trace := v },
   fun s => do let v ← readLongE; return { s with parent := v },
   fun s => do let v ← readStringE; return { s with name := v },
   fun s => do let v ← readStringE; return { s with service := v },
   fun s => do let v ← readLongE; return { s with timestamp := v },
   fun s => do let v ← readLongE; return { s with duration := v },
   fun s => do let v ← readLongE; return { s with timings := { s.timings with CS := v } },
   fun s => do let v ← readLongE; return { s with timings := { s.timings with CR := v } },
   fun s => do let v ← readLongE; return { s with timings := { s.timings with SS := v } },
   fun s => do let v ← readLongE; return { s with timings := { s.timings with SR := v } },
   fun s => do let v ← readMapStringE; return { s with tags := some v }]

/-- One assignment after the other, until one fails. With an error, all of these functions return the zero value, which the field has before, too. -/
def decodeFields : List FieldReader → Span → List UInt8 → Span × Except BinaryError (List UInt8)
  | [], s, bs => (s, .ok bs)
  | r :: rs, s, bs =>
    match r s bs with
    | .error e => (s, .error e)
    | .ok (s', bs') => decodeFields rs s' bs'

/-- codec/binary.go:78-131 `BinaryDecode`: the span, and the error or what is left of the input. -/
def binaryDecodeFull (bs : List UInt8) : Span × Except BinaryError (List UInt8) := decodeFields spanFields {} bs

end Verif
