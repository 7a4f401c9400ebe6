import Verif.Model.Json

/-!
# What the spans of the formats mean

Field by field; of the model only the types are used.
-/

namespace Verif.Spec

/-- The same word with letters in any case; `word` is in lower case. -/
inductive CaseVariant : Str → Str → Prop
  | nil : CaseVariant [] []
  | lower {c : UInt8} {s t : Str} : CaseVariant s t → CaseVariant (c :: s) (c :: t)
  | upper {c : UInt8} {s t : Str} (h : c!"A" ≤ c ∧ c ≤ c!"Z") : CaseVariant s t → CaseVariant (c :: s) ((c + 0x20) :: t)

/-- The kind of a client span. -/
def KindClient (kind : Str) : Prop := CaseVariant kind b!"client"

/-- The kind of a server span. In Unicode, `ſ` (U+017F, the bytes C5 BF) is also a lower case form of the letter S. -/
def KindServer (kind : Str) : Prop := CaseVariant kind b!"server" ∨ ∃ t, kind = 0xC5 :: 0xBF :: t ∧ CaseVariant t b!"erver"

/-- Microseconds as nanoseconds in 64 bits. -/
def nanos (us : UInt64) : Int64 := us.toInt64 * 1000

/-- A duration of zero is replaced by a millisecond. -/
def orMillisecond (d : Int64) : Int64 := if d = 0 then 1000000 else d

/-- The last element with a property. -/
def last? {α : Type} (p : α → Bool) (l : List α) : Option α := (l.filter p).getLast?

/-! ## Version 1 -/

/-- The annotations that count: those with a time. -/
def timed (v : SpanV1) : List AnnotationV1 := v.annotations.filter fun a => a.timestamp ≠ 0

/-- The time of the last annotation with this value, 0 without one. -/
def timingV1 (v : SpanV1) (value : Str) : Int64 := ((last? (fun a => a.value = value) (timed v)).map fun a => nanos a.timestamp).getD 0

/-- The first service that is named: by the annotations, then by the binary annotations. -/
def serviceV1 (v : SpanV1) : Str :=
  (((timed v).map fun a => a.endpoint.serviceName) ++ v.binaryAnnotations.elems.map fun a => a.endpoint.serviceName).find? (· ≠ []) |>.getD []

/-- The value of a tag: from the last binary annotation with this key. -/
def tagV1 (v : SpanV1) (key : Str) : Option Str :=
  if key = b!"protocolVersion" then some b!"json v1"
  else (last? (fun a => a.key = key) v.binaryAnnotations.elems).map fun a => a.value

/-- The span that a v1 span stands for. -/
def MeansV1 (v : SpanV1) (s : Span) : Prop :=
  let cs := timingV1 v b!"cs"
  let cr := timingV1 v b!"cr"
  let sr := timingV1 v b!"sr"
  let ss := timingV1 v b!"ss"
  s.id = v.id ∧ s.trace = v.traceId ∧ s.parent = v.parentId ∧ s.name = v.name ∧ s.service = serviceV1 v ∧
  (∀ key, (s.tags.getD ∅)[key]? = tagV1 v key) ∧ s.timings = { CS := cs, CR := cr, SS := ss, SR := sr } ∧
  s.timestamp = (if 0 < cs ∧ 0 < cr then cs else if 0 < sr ∧ 0 < ss then sr else nanos v.timestamp) ∧
  s.duration = orMillisecond (if 0 < cs ∧ 0 < cr then cr - cs else if 0 < sr ∧ 0 < ss then ss - sr else nanos v.duration)

/-! ## Version 2 -/

/-- The span that a v2 span stands for. -/
def MeansV2 (v : SpanV2) (s : Span) : Prop :=
  s.id = v.id ∧ s.trace = v.traceId ∧ s.parent = v.parentId ∧ s.name = v.name ∧ s.service = v.endpoint.serviceName ∧
  (∀ key, (s.tags.getD ∅)[key]? = if key = b!"protocolVersion" then some b!"json v2" else (v.tags.getD ∅)[key]?) ∧
  s.timestamp = nanos v.timestamp ∧ s.duration = orMillisecond (nanos v.duration) ∧
  (KindClient v.kind → s.timings.CS = s.timestamp ∧ s.timings.CR = s.timestamp + s.duration) ∧
  (¬ KindClient v.kind → s.timings.CS = 0 ∧ s.timings.CR = 0) ∧
  (KindServer v.kind → s.timings.SR = s.timestamp ∧ s.timings.SS = s.timestamp + s.duration) ∧
  (¬ KindServer v.kind → s.timings.SR = 0 ∧ s.timings.SS = 0)

/-! ## Jaeger -/

/-- The tags with a string as value. -/
def stringTags (v : JaegerSpan) : List (Str × Str) :=
  v.tags.filterMap fun t => match t.2 with
    | .string s => some (t.1, s)
    | .other => none

/-- The kind: the value of the last tag `span.kind`. -/
def kindJaeger (v : JaegerSpan) : Str := ((last? (fun t => t.1 = b!"span.kind") (stringTags v)).map fun t => t.2).getD []

/-- The value of a tag: that of the last tag with this key, where `component` is another name for `lc`. -/
def tagJaegerSpan (v : JaegerSpan) (key : Str) : Option Str :=
  if key = b!"protocolVersion" then some b!"jaeger"
  else if key = b!"span.kind" ∨ key = b!"internal.span.format" ∨ key = b!"component" then none
  else (last? (fun t => t.1 = key ∨ (key = b!"lc" ∧ t.1 = b!"component")) (stringTags v)).map fun t => t.2

/-- The parent: the last reference `CHILD_OF`, otherwise the span itself. -/
def parentJaeger (v : JaegerSpan) : Id := ((last? (fun r => r.1 = b!"CHILD_OF") v.references).map fun r => r.2).getD v.spanId

end Verif.Spec
