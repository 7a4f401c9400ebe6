import Verif.Model.Decoder
import Verif.Model.Span

/-!
# codec/json.go, codec/json-v1.go, codec/json-v2.go, codec/jaeger.go: span formats

The decoders of the two JSON formats, and the conversion of decoded values to spans. The jaeger format is decoded by
`encoding/json`: here its result is arbitrary and only the conversion is modelled, the decoding is in Model/GoJson.lean.
-/

namespace Verif

/-! ## Decoded values -/

/-- codec/json-v1.go:40-42. -/
structure Endpoint where
  serviceName : Str := []
deriving DecidableEq

/-- codec/json-v2.go:14-29. -/
structure SpanV2 where
  traceId : Id := 0
  id : Id := 0
  parentId : Id := 0
  name : Str := []
  endpoint : Endpoint := {}
  tags : Option TagMap := none
  kind : Str := []
  timestamp : UInt64 := 0
  duration : UInt64 := 0

/-- codec/json-v1.go:28-32. -/
structure AnnotationV1 where
  timestamp : UInt64 := 0
  value : Str := []
  endpoint : Endpoint := {}
deriving DecidableEq

/-- codec/json-v1.go:34-38. -/
structure BinaryAnnotationV1 where
  key : Str := []
  value : Str := []
  endpoint : Endpoint := {}
deriving DecidableEq

/-- codec/json-v1.go:14-26. The array `Annotations` is a list of four. -/
structure SpanV1 where
  traceId : Id := 0
  id : Id := 0
  parentId : Id := 0
  annotations : List AnnotationV1 := List.replicate 4 {}
  binaryAnnotations : GoSlice BinaryAnnotationV1 := { cells := [], len := 0 }
  name : Str := []
  timestamp : UInt64 := 0
  duration : UInt64 := 0

/-! ## Conversion to spans -/

/-- codec/util.go:9-13. -/
def tagJsonV1 : Str := b!"json v1"
def tagJsonV2 : Str := b!"json v2"
def tagJaeger : Str := b!"jaeger"
def tagProtocolVersion : Str := b!"protocolVersion"

/-- A letter in lower case; other bytes stay the same. -/
def toLower (c : UInt8) : UInt8 := if c!"A" ≤ c ∧ c ≤ c!"Z" then c + 32 else c

/-- `strings.EqualFold(s, t)` of the standard library, where `t` consists of lower case letters: letters are compared without regard to case. By the
simple case folding of Unicode there are two further characters that count as letters: U+017F (`ſ`, in UTF-8 C5 BF) as `s` and U+212A (the Kelvin
sign, in UTF-8 E2 84 AA) as `k`. -/
def equalFold : Str → Str → Bool
  | s, [] => s = []
  | [], _ :: _ => false
  | c :: s, d :: t =>
    if toLower c = d then equalFold s t
    else if d = c!"s" ∧ c = 0xC5 then
      match s with
      | c2 :: s => c2 = 0xBF && equalFold s t
      | [] => false
    else if d = c!"k" ∧ c = 0xE2 then
      match s with
      | c2 :: c3 :: s => c2 = 0x84 && c3 = 0xAA && equalFold s t
      | _ => false
    else false

/-- codec/json-v2.go:68-83 and codec/jaeger.go:105-120: timestamp, duration and timings from the decoded fields. -/
def fillFromKind (s : Span) (timestamp duration : UInt64) (kind : Str) : Span :=
  let s := { s with timestamp := microseconds timestamp.toInt64, duration := duration.toInt64 * microsecond }
  let s := if s.duration = 0 then { s with duration := millisecond } else s
  let s := if equalFold kind b!"client" then
      { s with timings := { s.timings with CS := s.timestamp, CR := tsAdd s.timestamp s.duration } }
    else s
  if equalFold kind b!"server" then
    { s with timings := { s.timings with SR := s.timestamp, SS := tsAdd s.timestamp s.duration } }
  else s

/-- codec/json-v2.go:58-86. -/
def SpanV2.toSpan (v : SpanV2) : Span :=
  let s := newSpan v.name v.traceId v.id v.parentId
  let s := if v.endpoint.serviceName ≠ [] then { s with service := v.endpoint.serviceName } else s
  let s := { s with tags := v.tags }
  let s := s.addTag tagProtocolVersion tagJsonV2
  fillFromKind s v.timestamp v.duration v.kind

/-- codec/json-v1.go:122-140. -/
def fillInTimestamp (s : Span) : Span :=
  let sr := s.timings.SR
  let ss := s.timings.SS
  let s := if sr > 0 ∧ ss > 0 then { s with timestamp := sr, duration := ss - sr } else s
  let cs := s.timings.CS
  let cr := s.timings.CR
  let s := if cs > 0 ∧ cr > 0 then { s with timestamp := cs, duration := cr - cs } else s
  if s.duration = 0 then { s with duration := millisecond } else s

/-- codec/json-v1.go:84-95: one annotation. -/
def addAnnotation (s : Span) (a : AnnotationV1) : Span :=
  if a.timestamp = 0 then s
  else
    let s := s.addTiming a.value (microseconds a.timestamp.toInt64)
    if s.service = [] ∧ a.endpoint.serviceName ≠ [] then { s with service := a.endpoint.serviceName } else s

/-- codec/json-v1.go:99-105: one binary annotation. -/
def addBinaryAnnotation (s : Span) (a : BinaryAnnotationV1) : Span :=
  let s := s.addTag a.key a.value
  if s.service = [] ∧ a.endpoint.serviceName ≠ [] then { s with service := a.endpoint.serviceName } else s

/-- codec/json-v1.go:81-120. -/
def SpanV1.toSpan (v : SpanV1) : Span :=
  let s := newSpan v.name v.traceId v.id v.parentId
  let s := v.annotations.foldl addAnnotation s
  let s := { s with tags := some ∅ }
  let s := v.binaryAnnotations.elems.foldl addBinaryAnnotation s
  let s := s.addTag tagProtocolVersion tagJsonV1
  let s := if v.timestamp ≠ 0 then { s with timestamp := microseconds v.timestamp.toInt64 } else s
  let s := if v.duration ≠ 0 then { s with duration := v.duration.toInt64 * microsecond } else s
  fillInTimestamp s

/-! ## Decoders -/

section
variable (newCap : Nat → Nat → Nat) (fuel : Nat)

/-- codec/json.go:19-25. -/
def endpointValueDecoder : ValueDecoder Endpoint :=
  makeStructDecoder fuel [(b!"serviceName", stringValueDecoder.field Endpoint.serviceName fun v e => { e with serviceName := v })]

/-- codec/json-v2.go:115-161. -/
def spanV2Fields : List (Str × ValueDecoder SpanV2) :=
  [ (b!"id", (idValueDecoder fuel).field SpanV2.id fun v s => { s with id := v }),
    (b!"traceId", (idValueDecoder fuel).field SpanV2.traceId fun v s => { s with traceId := v }),
    (b!"parentId", (idValueDecoder fuel).field SpanV2.parentId fun v s => { s with parentId := v }),
    (b!"timestamp", uint64ValueDecoder.field SpanV2.timestamp fun v s => { s with timestamp := v }),
    (b!"duration", uint64ValueDecoder.field SpanV2.duration fun v s => { s with duration := v }),
    (b!"name", stringValueDecoder.field SpanV2.name fun v s => { s with name := v }),
    (b!"tags", (makeMapDecoder fuel stringValueDecoder stringValueDecoder).field SpanV2.tags fun v s => { s with tags := v }),
    (b!"kind", stringValueDecoder.field SpanV2.kind fun v s => { s with kind := v }),
    (b!"localEndpoint", (endpointValueDecoder fuel).field SpanV2.endpoint fun v s => { s with endpoint := v }) ]

/-- codec/json-v2.go:114-168. -/
def spanV2ValueDecoder : ValueDecoder SpanV2 := fun _ => makeStructDecoder fuel (spanV2Fields fuel) {}

/-- codec/json-v2.go:170-172. -/
def decoderSliceSpanV2 : ValueDecoder (GoSlice SpanV2) := makeSliceDecoder newCap fuel {} (spanV2ValueDecoder fuel)

/-- codec/json-v1.go:179-195. -/
def binaryAnnotationV1Fields : List (Str × ValueDecoder BinaryAnnotationV1) :=
  [ (b!"key", stringValueDecoder.field BinaryAnnotationV1.key fun v a => { a with key := v }),
    (b!"value", anyValueDecoder.field BinaryAnnotationV1.value fun v a => { a with value := v }),
    (b!"endpoint", (endpointValueDecoder fuel).field BinaryAnnotationV1.endpoint fun v a => { a with endpoint := v }) ]

/-- codec/json-v1.go:202-218. -/
def annotationV1Fields : List (Str × ValueDecoder AnnotationV1) :=
  [ (b!"timestamp", uint64ValueDecoder.field AnnotationV1.timestamp fun v a => { a with timestamp := v }),
    (b!"value", stringValueDecoder.field AnnotationV1.value fun v a => { a with value := v }),
    (b!"endpoint", (endpointValueDecoder fuel).field AnnotationV1.endpoint fun v a => { a with endpoint := v }) ]

/-- codec/json-v1.go:143-220. -/
def spanV1Fields : List (Str × ValueDecoder SpanV1) :=
  [ (b!"id", (idValueDecoder fuel).field SpanV1.id fun v s => { s with id := v }),
    (b!"traceId", (idValueDecoder fuel).field SpanV1.traceId fun v s => { s with traceId := v }),
    (b!"parentId", (idValueDecoder fuel).field SpanV1.parentId fun v s => { s with parentId := v }),
    (b!"timestamp", uint64ValueDecoder.field SpanV1.timestamp fun v s => { s with timestamp := v }),
    (b!"duration", uint64ValueDecoder.field SpanV1.duration fun v s => { s with duration := v }),
    (b!"name", stringValueDecoder.field SpanV1.name fun v s => { s with name := v }),
    (b!"binaryAnnotations",
      (makeSliceDecoder newCap fuel {} (makeStructDecoder fuel (binaryAnnotationV1Fields fuel))).field
        SpanV1.binaryAnnotations fun v s => { s with binaryAnnotations := v }),
    (b!"annotations",
      (makeArrayDecoder fuel {} (makeStructDecoder fuel (annotationV1Fields fuel))).field
        SpanV1.annotations fun v s => { s with annotations := v }) ]

/-- codec/json-v1.go:223-238: the span is cleared, its slice of binary annotations is cleared up to its length and emptied, but keeps its array. -/
def SpanV1.reset (s : SpanV1) : SpanV1 :=
  { binaryAnnotations :=
      { cells := List.replicate s.binaryAnnotations.elems.length {} ++ s.binaryAnnotations.cells.drop s.binaryAnnotations.len, len := 0 } }

/-- codec/json-v1.go:142-242. -/
def spanV1ValueDecoder : ValueDecoder SpanV1 := fun s => makeStructDecoder fuel (spanV1Fields newCap fuel) s.reset

/-- codec/json-v1.go:244-246. -/
def decoderSliceSpanV1 : ValueDecoder (GoSlice SpanV1) := makeSliceDecoder newCap fuel {} (spanV1ValueDecoder newCap fuel)

end

/-! ## Parsing a request -/

/-- The outcome of parsing a request. -/
inductive Parsed
  | spans (l : List Span)
  | err
  | panic
  | timeout

/-- codec/json-v2.go:31-56. The buffer comes from a pool: its content is arbitrary. -/
def parseJsonV2 (newCap : Nat → Nat → Nat) (fuel : Nat) (input : Reader) (buf : List UInt8) : Parsed :=
  match (decoderSliceSpanV2 newCap fuel { cells := [], len := 0 }).run fuel (Parser.newWithReader input buf) with
  | .ok decoded _ => .spans (decoded.elems.map SpanV2.toSpan)
  | .err _ _ => .err
  | .panic => .panic
  | .timeout => .timeout

/-- codec/json-v1.go:50-79. The buffer and the slice for decoding come from pools. Also the content of the pooled slice afterwards: if the decoder had to
allocate a larger array, the pooled one has the elements at that time, which did not change later in the larger one. -/
def parseJsonV1 (newCap : Nat → Nat → Nat) (fuel : Nat) (input : Reader) (buf : List UInt8) (pool : List SpanV1) : Parsed × List SpanV1 :=
  match (decoderSliceSpanV1 newCap fuel { cells := pool, len := 0 }).run fuel (Parser.newWithReader input buf) with
  | .ok decoded _ => (.spans (decoded.elems.map SpanV1.toSpan), decoded.cells.take pool.length)
  | .err decoded _ => (.err, decoded.cells.take pool.length)
  | .panic => (.panic, pool)
  | .timeout => (.timeout, pool)

/-! ## Jaeger -/

/-- The value of a jaeger tag: a string, or something else. -/
inductive JaegerValue
  | string (s : Str)
  | other

/-- codec/jaeger.go:17-33, as decoded by `encoding/json`. -/
structure JaegerSpan where
  traceId : Id := 0
  spanId : Id := 0
  operationName : Str := []
  references : List (Str × Id) := []
  timestamp : UInt64 := 0
  duration : UInt64 := 0
  processId : Str := []
  tags : List (Str × JaegerValue) := []

/-- codec/jaeger.go:35-44: the spans and the names of the processes. -/
structure JaegerData where
  spans : List JaegerSpan
  processes : TagMap

/-- codec/jaeger.go:80-101: one tag; with the kind of the span. -/
def addJaegerTag (acc : Span × Str) (tag : Str × JaegerValue) : Span × Str :=
  match tag.2 with
  | .other => acc
  | .string value =>
    let key := if tag.1 = b!"component" then b!"lc" else tag.1
    if key = b!"internal.span.format" then acc
    else if key = b!"span.kind" then (acc.1, value)
    else (acc.1.addTag key value, acc.2)

/-- codec/jaeger.go:65-123. -/
def JaegerSpan.toSpan (v : JaegerSpan) (procs : TagMap) : Span :=
  let parentId := v.references.foldl (fun p ref => if ref.1 = b!"CHILD_OF" then ref.2 else p) v.spanId
  let s := newSpan v.operationName v.traceId v.spanId parentId
  let s := { s with service := procs.getD v.processId [] }
  let (s, kind) := v.tags.foldl addJaegerTag (s, [])
  let s := s.addTag tagProtocolVersion tagJaeger
  fillFromKind s v.timestamp v.duration kind

/-- codec/jaeger.go:53-62: the spans of a decoded request. -/
def jaegerSpans (decoded : List JaegerData) : List Span :=
  decoded.flatMap fun d => d.spans.map fun s => s.toSpan d.processes

end Verif
