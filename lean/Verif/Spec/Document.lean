import Verif.Spec.Json
import Verif.Spec.Id
import Verif.Spec.Convert

/-!
# What a document of one of the Zipkin formats says

`S lit v` is how string literals are read: `JsonString` is the standard, `PlainString` the part of it that needs no escapes for control
characters and no surrogate pairs. Of the model only the types of decoded values are used.
-/

namespace Verif.Spec

/-- The elements of two lists are related one by one. -/
inductive Pairwise₂ {α β : Type} (R : α → β → Prop) : List α → List β → Prop
  | nil : Pairwise₂ R [] []
  | cons {a : α} {b : β} {l : List α} {l' : List β} : R a b → Pairwise₂ R l l' → Pairwise₂ R (a :: l) (b :: l')

/-- The members of an object, with the names for which their literals stand. -/
def Named (S : Str → Str → Prop) (ms nms : List (Str × Json)) : Prop := Pairwise₂ (fun m n => S m.1 n.1 ∧ m.2 = n.2) ms nms

/-- The value of the member with this name is `a`; without such a member it is the default. -/
def Member {α : Type} (nms : List (Str × Json)) (name : Str) (R : Json → α → Prop) (default a : α) : Prop :=
  (∃ j, (name, j) ∈ nms ∧ R j a) ∨ (name ∉ nms.map (·.1) ∧ a = default)

/-- A string. -/
inductive StringOf (S : Str → Str → Prop) : Json → Str → Prop
  | string {lit v : Str} : S lit v → StringOf S (.string lit) v

/-- An id: a string of up to 16 hexadecimal digits, or `null`. -/
inductive IdOf (S : Str → Str → Prop) : Json → Int64 → Prop
  | null : IdOf S (.word .null) 0
  | string {lit v : Str} {id : Int64} : S lit v → v.length ≤ 16 → (∀ c ∈ v, IsHexDigit c) → id.toUInt64.toNat = hexValue v → IdOf S (.string lit) id

/-- A number of microseconds: digits, for a value that fits into 64 bits. -/
inductive MicrosOf : Json → UInt64 → Prop
  | number {t : Str} {v : UInt64} : Digits t → v.toNat = decimalValue t → MicrosOf (.number t) v

/-- An endpoint. -/
inductive EndpointOf (S : Str → Str → Prop) : Json → Endpoint → Prop
  | object {ms nms : List (Str × Json)} {e : Endpoint} : Named S ms nms → (nms.map (·.1)).Nodup →
      Member nms b!"serviceName" (StringOf S) [] e.serviceName → EndpointOf S (.object ms) e

/-- Tags: all values are strings; of several tags with the same name, the last counts. -/
inductive TagsOf (S : Str → Str → Prop) : Json → Option TagMap → Prop
  | object {ms : List (Str × Json)} {pairs : List (Str × Str)} {tags : Option TagMap} :
      Pairwise₂ (fun m p => S m.1 p.1 ∧ StringOf S m.2 p.2) ms pairs → (tags = none ↔ pairs = []) →
      (∀ key, (tags.getD ∅)[key]? = (last? (fun p => p.1 = key) pairs).map (·.2)) → TagsOf S (.object ms) tags

/-- A span of version 2. -/
inductive SpanV2Of (S : Str → Str → Prop) : Json → SpanV2 → Prop
  | object {ms nms : List (Str × Json)} {v : SpanV2} : Named S ms nms → (nms.map (·.1)).Nodup →
      Member nms b!"id" (IdOf S) 0 v.id →
      Member nms b!"traceId" (IdOf S) 0 v.traceId →
      Member nms b!"parentId" (IdOf S) 0 v.parentId →
      Member nms b!"timestamp" MicrosOf 0 v.timestamp →
      Member nms b!"duration" MicrosOf 0 v.duration →
      Member nms b!"name" (StringOf S) [] v.name →
      Member nms b!"tags" (TagsOf S) none v.tags →
      Member nms b!"kind" (StringOf S) [] v.kind →
      Member nms b!"localEndpoint" (EndpointOf S) {} v.endpoint →
      SpanV2Of S (.object ms) v

/-- An annotation of version 1. -/
inductive AnnotationOf (S : Str → Str → Prop) : Json → AnnotationV1 → Prop
  | object {ms nms : List (Str × Json)} {a : AnnotationV1} : Named S ms nms → (nms.map (·.1)).Nodup →
      Member nms b!"timestamp" MicrosOf 0 a.timestamp →
      Member nms b!"value" (StringOf S) [] a.value →
      Member nms b!"endpoint" (EndpointOf S) {} a.endpoint →
      AnnotationOf S (.object ms) a

/-- The value of a binary annotation: a string, or the text of a number, of `true`, `false` or `null`. -/
inductive ScalarOf (S : Str → Str → Prop) : Json → Str → Prop
  | string {lit v : Str} : S lit v → ScalarOf S (.string lit) v
  | number (t : Str) : ScalarOf S (.number t) t
  | word (w : JsonWord) : ScalarOf S (.word w) w.text

/-- A binary annotation of version 1. -/
inductive BinaryAnnotationOf (S : Str → Str → Prop) : Json → BinaryAnnotationV1 → Prop
  | object {ms nms : List (Str × Json)} {a : BinaryAnnotationV1} : Named S ms nms → (nms.map (·.1)).Nodup →
      Member nms b!"key" (StringOf S) [] a.key →
      Member nms b!"value" (ScalarOf S) [] a.value →
      Member nms b!"endpoint" (EndpointOf S) {} a.endpoint →
      BinaryAnnotationOf S (.object ms) a

/-- The first four annotations, filled up with empty ones; the other elements of the array may be anything. -/
inductive AnnotationsOf (S : Str → Str → Prop) : Json → List AnnotationV1 → Prop
  | array {l : List Json} {as : List AnnotationV1} : Pairwise₂ (AnnotationOf S) (l.take 4) as →
      AnnotationsOf S (.array l) (as ++ List.replicate (4 - as.length) ({} : AnnotationV1))

/-- All binary annotations. -/
inductive BinaryAnnotationsOf (S : Str → Str → Prop) : Json → List BinaryAnnotationV1 → Prop
  | array {l : List Json} {as : List BinaryAnnotationV1} : Pairwise₂ (BinaryAnnotationOf S) l as → BinaryAnnotationsOf S (.array l) as

/-- A binary annotation that says everything: it has a key, a value, and an endpoint with the name of a service. -/
inductive WholeBinaryAnnotationOf (S : Str → Str → Prop) : Json → BinaryAnnotationV1 → Prop
  | object {ms nms ems enms : List (Str × Json)} {key value service : Json} {a : BinaryAnnotationV1} :
      Named S ms nms → (nms.map (·.1)).Nodup →
      (b!"key", key) ∈ nms → StringOf S key a.key →
      (b!"value", value) ∈ nms → ScalarOf S value a.value →
      (b!"endpoint", .object ems) ∈ nms → Named S ems enms → (enms.map (·.1)).Nodup →
      (b!"serviceName", service) ∈ enms → StringOf S service a.endpoint.serviceName →
      WholeBinaryAnnotationOf S (.object ms) a

/-- Binary annotations that all say everything. -/
inductive WholeBinaryAnnotationsOf (S : Str → Str → Prop) : Json → List BinaryAnnotationV1 → Prop
  | array {l : List Json} {as : List BinaryAnnotationV1} : Pairwise₂ (WholeBinaryAnnotationOf S) l as → WholeBinaryAnnotationsOf S (.array l) as

/-- A span of version 1, where `B` says what the binary annotations are. -/
inductive SpanV1With (B : Json → List BinaryAnnotationV1 → Prop) (S : Str → Str → Prop) : Json → SpanV1 → Prop
  | object {ms nms : List (Str × Json)} {v : SpanV1} : Named S ms nms → (nms.map (·.1)).Nodup →
      Member nms b!"id" (IdOf S) 0 v.id →
      Member nms b!"traceId" (IdOf S) 0 v.traceId →
      Member nms b!"parentId" (IdOf S) 0 v.parentId →
      Member nms b!"timestamp" MicrosOf 0 v.timestamp →
      Member nms b!"duration" MicrosOf 0 v.duration →
      Member nms b!"name" (StringOf S) [] v.name →
      Member nms b!"annotations" (AnnotationsOf S) (List.replicate 4 {}) v.annotations →
      Member nms b!"binaryAnnotations" B [] v.binaryAnnotations.elems →
      SpanV1With B S (.object ms) v

/-- A span of version 1. -/
abbrev SpanV1Of (S : Str → Str → Prop) : Json → SpanV1 → Prop := SpanV1With (BinaryAnnotationsOf S) S

/-- A span of version 1 whose binary annotations all say everything. -/
abbrev WholeSpanV1Of (S : Str → Str → Prop) : Json → SpanV1 → Prop := SpanV1With (WholeBinaryAnnotationsOf S) S

end Verif.Spec
