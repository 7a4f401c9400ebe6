import Verif.Spec.Convert
import Verif.Spec.Observe

/-!
# One span, written in one of the three formats

Of the model only the types of the decoded values are used.
-/

namespace Verif.Spec

/-- The part of a span in a call. -/
inductive Role
  | client
  | server
  | neither

/-- What an instrumented program has to tell about a span; times are in microseconds. -/
structure Facts where
  id : Id
  trace : Id
  parent : Id
  name : Str
  service : Str
  start : UInt64
  duration : UInt64
  role : Role
  tag : Str → Option Str

/-- The times are there, and fit into 64 bits as nanoseconds. -/
structure Facts.Timed (f : Facts) : Prop where
  start : f.start ≠ 0
  duration : f.duration ≠ 0
  stop : 1000 * (f.start.toNat + f.duration.toNat) < 2 ^ 63

/-- The annotation `value` is there, with this time only. -/
def Annotated (v : SpanV1) (value : Str) (time : UInt64) : Prop :=
  (∃ a ∈ v.annotations, a.value = value ∧ a.timestamp = time) ∧ ∀ a ∈ v.annotations, a.timestamp ≠ 0 → a.value = value → a.timestamp = time

/-- There is no annotation `value` with a time. -/
def Unannotated (v : SpanV1) (value : Str) : Prop := ∀ a ∈ v.annotations, a.timestamp ≠ 0 → a.value ≠ value

/-- The span of version 1 for these facts: the role is told by annotations for the start and the end, tags are binary annotations, and the service is in the endpoints. -/
structure InV1 (f : Facts) (v : SpanV1) : Prop where
  id : v.id = f.id
  trace : v.traceId = f.trace
  parent : v.parentId = f.parent
  name : v.name = f.name
  timestamp : v.timestamp = f.start
  duration : v.duration = f.duration
  service : let named := (timed v).map (fun a => a.endpoint.serviceName) ++ v.binaryAnnotations.elems.map (fun a => a.endpoint.serviceName)
    (∀ n ∈ named, n = [] ∨ n = f.service) ∧ (f.service ≠ [] → f.service ∈ named)
  tag : ∀ key, key ≠ b!"protocolVersion" → (last? (fun a => a.key = key) v.binaryAnnotations.elems).map (fun a => a.value) = f.tag key
  role : match f.role with
    | .client => Annotated v b!"cs" f.start ∧ Annotated v b!"cr" (f.start + f.duration) ∧ Unannotated v b!"sr" ∧ Unannotated v b!"ss"
    | .server => Annotated v b!"sr" f.start ∧ Annotated v b!"ss" (f.start + f.duration) ∧ Unannotated v b!"cs" ∧ Unannotated v b!"cr"
    | .neither => Unannotated v b!"cs" ∧ Unannotated v b!"cr" ∧ Unannotated v b!"sr" ∧ Unannotated v b!"ss"

/-- A word for the role. -/
def RoleWord (role : Role) (kind : Str) : Prop :=
  match role with
  | .client => KindClient kind
  | .server => KindServer kind
  | .neither => ¬ KindClient kind ∧ ¬ KindServer kind

/-- The span of version 2 for these facts. -/
structure InV2 (f : Facts) (v : SpanV2) : Prop where
  id : v.id = f.id
  trace : v.traceId = f.trace
  parent : v.parentId = f.parent
  name : v.name = f.name
  timestamp : v.timestamp = f.start
  duration : v.duration = f.duration
  service : v.endpoint.serviceName = f.service
  tag : ∀ key, key ≠ b!"protocolVersion" → (v.tags.getD ∅)[key]? = f.tag key
  role : RoleWord f.role v.kind

/-- The jaeger span for these facts: the parent is a reference, the role and the tags are tags with strings, and the service is the name of the process. -/
structure InJaeger (f : Facts) (procs : TagMap) (v : JaegerSpan) : Prop where
  id : v.spanId = f.id
  trace : v.traceId = f.trace
  parent : last? (fun r => r.1 = b!"CHILD_OF") v.references = some (b!"CHILD_OF", f.parent)
  name : v.operationName = f.name
  timestamp : v.timestamp = f.start
  duration : v.duration = f.duration
  service : procs[v.processId]? = some f.service
  tag : ∀ key, key ≠ b!"protocolVersion" → key ≠ b!"span.kind" → key ≠ b!"internal.span.format" →
    (last? (fun t => t.1 = key) (stringTags v)).map (fun t => t.2) = f.tag key
  role : RoleWord f.role (kindJaeger v)
  /-- These names of tags have a meaning of their own in this format. -/
  free : f.tag b!"span.kind" = none ∧ f.tag b!"component" = none ∧ f.tag b!"internal.span.format" = none

/-- The span that is made of these facts, from one of the formats. -/
inductive WrittenAs (f : Facts) : Span → Prop
  | v1 {v : SpanV1} : InV1 f v → WrittenAs f v.toSpan
  | v2 {v : SpanV2} : InV2 f v → WrittenAs f v.toSpan
  | jaeger {v : JaegerSpan} {procs : TagMap} : InJaeger f procs v → WrittenAs f (v.toSpan procs)

/-- Somebody who looks at everything but the name of the format. -/
def anyFormat : Observer := { times := True, name := True, service := True, tag := fun key => key ≠ b!"protocolVersion" }

/-- The same spans in formats that may be different, at the same times. -/
inductive SameFacts : Happening → Happening → Prop
  | receive {now1 now2 : Time} {f : Facts} {s t : Span} : f.Timed → WrittenAs f s → WrittenAs f t → SameFacts (.receive now1 now2 s) (.receive now1 now2 t)
  | tick {now1 now2 : Time} {nowFake : Id → Time} : SameFacts (.tick now1 now2 nowFake) (.tick now1 now2 nowFake)

end Verif.Spec
