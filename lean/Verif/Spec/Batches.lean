import Verif.Spec.Posted
import Verif.Spec.Jaeger

/-!
# A trace that is posted in batches, in any of the formats
-/

namespace Verif

open Spec

/-- A span of the jaeger format with these processes, and what is sent to Datadog for it. -/
structure ShownJaeger (procs : TagMap) (v : JaegerSpan) (d : DDSpan) : Prop where
  spanID : d.spanID.toBitVec = v.spanId.toBitVec
  traceID : d.traceID.toBitVec = v.traceId.toBitVec
  parentID : d.parentID.toBitVec = (parentJaeger v).toBitVec
  service : d.service = (procs[v.processId]?).getD [] ∧ d.name = (procs[v.processId]?).getD []
  resource : d.resource = if v.operationName = [] then b!"(resource empty)" else v.operationName
  start : d.start = nanos v.timestamp
  duration : d.duration.toInt = max 1000 (orMillisecond (nanos v.duration)).toInt
  tags : ∀ key, (d.tags.getD ∅)[key]? = tagJaegerSpan v key
  sampled : d.sampled = true
  error : d.error = 1 ∧ (∃ x, tagJaegerSpan v b!"error" = some x ∧ x ≠ b!"false" ∧ x ≠ b!"0") ∨
    d.error = 0 ∧ ¬ ∃ x, tagJaegerSpan v b!"error" = some x ∧ x ≠ b!"false" ∧ x ≠ b!"0"

/-- A span in a document of any of the formats. -/
inductive Item
  | v1 (v : SpanV1)
  | v2 (v : SpanV2)
  | jaeger (procs : TagMap) (v : JaegerSpan)

namespace Item

def id : Item → Id
  | v1 v => v.id
  | v2 v => v.id
  | jaeger _ v => v.spanId

def trace : Item → Id
  | v1 v => v.traceId
  | v2 v => v.traceId
  | jaeger _ v => v.traceId

def parent : Item → Id
  | v1 v => v.parentId
  | v2 v => v.parentId
  | jaeger _ v => parentJaeger v

def start : Item → Int64
  | v1 v => startV1 v
  | v2 v => nanos v.timestamp
  | jaeger _ v => nanos v.timestamp

/-- If it has the times of the client and of the server (only version 1 has both), then both have the same middle. -/
def Agrees : Item → Prop
  | v1 v => timingV1 v b!"cs" ≠ 0 → timingV1 v b!"cr" ≠ 0 → timingV1 v b!"ss" ≠ 0 → timingV1 v b!"sr" ≠ 0 →
    0 < timingV1 v b!"cs" ∧ 0 < timingV1 v b!"cr" ∧ timingV1 v b!"cr" - timingV1 v b!"cs" ≠ 0 ∧
    (timingV1 v b!"cr" + timingV1 v b!"cs") / 2 - (timingV1 v b!"sr" + timingV1 v b!"ss") / 2 = 0
  | _ => True

/-- What is sent to Datadog for it. -/
def Shown : Item → DDSpan → Prop
  | v1 v, d => ShownV1 v d
  | v2 v, d => ShownV2 v d
  | jaeger procs v, d => ShownJaeger procs v d

end Item

/-- The spans of one trace as it should be: each with its own id, all below one root, with times from 2020 on. -/
structure HealthyItems (k : Id) (l : List Item) : Prop where
  some : k ≠ 0
  trace : ∀ v ∈ l, v.trace = k ∧ v.id ≠ 0
  ids : (l.map Item.id).Nodup
  few : l.length ≤ 8192
  root : ∃ r ∈ l, (r.parent = r.id ∨ ∀ q ∈ l, q.id ≠ r.parent) ∧ ∀ v ∈ l, v.id ≠ r.id → v.parent ≠ v.id ∧ ∃ q ∈ l, q.id = v.parent
  recent : ∀ v ∈ l, year2020 ≤ v.start
  agree : ∀ v ∈ l, v.Agrees

/-- The spans in the data of several traces. -/
def jaegerItems (l : List JaegerData) : List Item := l.flatMap fun d => d.spans.map (.jaeger d.processes)

/-- The spans of a trace in the first `n` requests. -/
def postedItems (items : Nat → List Item) (k : Id) (n : Nat) : List Item := ((List.range n).flatMap items).filter fun v => v.trace = k

end Verif
