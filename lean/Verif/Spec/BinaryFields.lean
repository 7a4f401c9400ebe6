import Verif.Model.BinaryFields
import Verif.Spec.BinaryError

/-!
# The span that is returned with an error
-/

namespace Verif.Spec

open Verif

/-- A span of which only the first `k` fields are there, in the order of a message; the others are zero. -/
def firstFields (k : Nat) (s : Span) : Span where
  id := if 0 < k then s.id else 0
  trace := if 1 < k then s.trace else 0
  parent := if 2 < k then s.parent else 0
  name := if 3 < k then s.name else []
  service := if 4 < k then s.service else []
  timestamp := if 5 < k then s.timestamp else 0
  duration := if 6 < k then s.duration else 0
  timings := { CS := if 7 < k then s.timings.CS else 0, CR := if 8 < k then s.timings.CR else 0, SS := if 9 < k then s.timings.SS else 0, SR := if 10 < k then s.timings.SR else 0 }
  tags := if 11 < k then s.tags else none

/-- The bytes of each field in a message. -/
def fieldBytes (s : Span) (ord : List (Str × Str)) : List (List UInt8) :=
  [writeLong s.id, writeLong s.trace, writeLong s.parent, writeString s.name, writeString s.service, writeLong s.timestamp, writeLong s.duration,
   writeLong s.timings.CS, writeLong s.timings.CR, writeLong s.timings.SS, writeLong s.timings.SR, writeMapString ord]

/-- How many of these are complete within the first `n` bytes. -/
def completeFields : List (List UInt8) → Nat → Nat
  | [], _ => 0
  | f :: l, n => if f.length ≤ n then 1 + completeFields l (n - f.length) else 0

end Verif.Spec
