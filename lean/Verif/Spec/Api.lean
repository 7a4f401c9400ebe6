import Verif.Spec.Json
import Verif.Spec.JsonString

/-!
# What the API of Zipkin says about a span

The schemas `Span` of the published APIs (`zipkin2-api.yaml`, and `zipkin-api.yaml` for version 1): the types of the members, and the lengths of the ids. No definition of the model is used.
-/

namespace Verif.Spec

/-- A string of hexadecimal digits in lower case, of at least `low` and at most `high` of them. -/
def HexString (low high : Nat) (j : Json) : Prop :=
  ∃ lit v, j = .string lit ∧ PlainString lit v ∧ low ≤ v.length ∧ v.length ≤ high ∧ ∀ c ∈ v, c ∈ b!"0123456789abcdef"

/-- Any string. -/
def AnyString (j : Json) : Prop := ∃ lit, j = .string lit

/-- A number of microseconds. -/
def Micros (j : Json) : Prop := ∃ t, j = .number t ∧ Digits t

/-- An object whose values are strings. -/
def StringMap (j : Json) : Prop := ∃ ms, j = .object ms ∧ ∀ m ∈ ms, AnyString m.2

/-- An object; the names of its members are what `allowed` says. -/
def ObjectWith (allowed : Str → Json → Prop) (j : Json) : Prop :=
  ∃ ms, j = .object ms ∧ ∀ m ∈ ms, ∃ name, PlainString m.1 name ∧ allowed name m.2

/-- The schema `Endpoint`: the addresses and the port are of no interest. -/
def ApiEndpoint : Json → Prop := ObjectWith fun name j => name = b!"serviceName" → AnyString j

/-- What the schema says about the member with this name. -/
structure ApiMember (key : Str) (j : Json) : Prop where
  traceId : key = b!"traceId" → HexString 16 32 j
  id : key = b!"id" → HexString 16 16 j
  parentId : key = b!"parentId" → HexString 16 16 j
  name : key = b!"name" → AnyString j
  kind : key = b!"kind" → AnyString j
  timestamp : key = b!"timestamp" → Micros j
  duration : key = b!"duration" → Micros j
  localEndpoint : key = b!"localEndpoint" → ApiEndpoint j
  tags : key = b!"tags" → StringMap j

/-- The schema `Span`. -/
def ApiSpan : Json → Prop := ObjectWith ApiMember

/-! ## Version 1 -/

/-- An array with such elements. -/
def ApiArray (P : Json → Prop) (j : Json) : Prop := ∃ l, j = .array l ∧ ∀ e ∈ l, P e

/-- The value of a binary annotation: a string, a number or a word. -/
def ApiScalar (j : Json) : Prop := AnyString j ∨ (∃ t, j = .number t) ∨ ∃ w, j = .word w

/-- The schema `Annotation`. -/
def ApiAnnotation : Json → Prop := ObjectWith fun key j =>
  (key = b!"timestamp" → Micros j) ∧ (key = b!"value" → AnyString j) ∧ (key = b!"endpoint" → ApiEndpoint j)

/-- The schema `BinaryAnnotation`. -/
def ApiBinaryAnnotation : Json → Prop := ObjectWith fun key j =>
  (key = b!"key" → AnyString j) ∧ (key = b!"value" → ApiScalar j) ∧ (key = b!"endpoint" → ApiEndpoint j)

/-- What the schema of version 1 says about the member with this name. -/
structure ApiMemberV1 (key : Str) (j : Json) : Prop where
  traceId : key = b!"traceId" → HexString 16 32 j
  id : key = b!"id" → HexString 16 16 j
  parentId : key = b!"parentId" → HexString 16 16 j
  name : key = b!"name" → AnyString j
  timestamp : key = b!"timestamp" → Micros j
  duration : key = b!"duration" → Micros j
  annotations : key = b!"annotations" → ApiArray ApiAnnotation j
  binaryAnnotations : key = b!"binaryAnnotations" → ApiArray ApiBinaryAnnotation j

/-- The schema `Span` of version 1. -/
def ApiSpanV1 : Json → Prop := ObjectWith ApiMemberV1

/-! ## Both versions -/

/-- The trace has an id of 64 bits. -/
def ShortTrace (j : Json) : Prop :=
  ∀ ms key id, j = .object ms → (key, id) ∈ ms → PlainString key b!"traceId" → HexString 16 16 id

end Verif.Spec
