import Verif.Spec.Intact
import Verif.Spec.Convert
import Verif.Spec.Document

/-!
# From the bytes of a request to Datadog
-/

namespace Verif

open Spec

/-- A span of a document of version 2, and what is sent to Datadog for it. -/
structure ShownV2 (v : SpanV2) (d : DDSpan) : Prop where
  spanID : d.spanID.toBitVec = v.id.toBitVec
  traceID : d.traceID.toBitVec = v.traceId.toBitVec
  parentID : d.parentID.toBitVec = v.parentId.toBitVec
  service : d.service = v.endpoint.serviceName ∧ d.name = v.endpoint.serviceName
  resource : d.resource = if v.name = [] then b!"(resource empty)" else v.name
  start : d.start = nanos v.timestamp
  duration : d.duration.toInt = max 1000 (orMillisecond (nanos v.duration)).toInt
  tags : ∀ key, (d.tags.getD ∅)[key]? = if key = b!"protocolVersion" then some b!"json v2" else (v.tags.getD ∅)[key]?
  sampled : d.sampled = true
  error : d.error = 1 ∧ (∃ x, (v.tags.getD ∅)[b!"error"]? = some x ∧ x ≠ b!"false" ∧ x ≠ b!"0") ∨
    d.error = 0 ∧ ¬ ∃ x, (v.tags.getD ∅)[b!"error"]? = some x ∧ x ≠ b!"false" ∧ x ≠ b!"0"

/-- A document of version 2 with one trace as it should be: each span with its own id, all below one root, with times from 2020 on. -/
structure HealthyV2 (k : Id) (vs : List SpanV2) : Prop where
  some : k ≠ 0
  trace : ∀ v ∈ vs, v.traceId = k ∧ v.id ≠ 0
  ids : (vs.map SpanV2.id).Nodup
  few : vs.length ≤ 8192
  /-- one span is its own parent, or has a parent that is not in the document; the others have theirs -/
  root : ∃ r ∈ vs, (r.parentId = r.id ∨ ∀ q ∈ vs, q.id ≠ r.parentId) ∧ ∀ v ∈ vs, v.id ≠ r.id → v.parentId ≠ v.id ∧ ∃ q ∈ vs, q.id = v.parentId
  recent : ∀ v ∈ vs, year2020 ≤ nanos v.timestamp

/-! ## Version 1 -/

/-- When a span of version 1 began: for the client, else for the server, else as it says itself. -/
def startV1 (v : SpanV1) : Int64 :=
  if 0 < timingV1 v b!"cs" ∧ 0 < timingV1 v b!"cr" then timingV1 v b!"cs"
  else if 0 < timingV1 v b!"sr" ∧ 0 < timingV1 v b!"ss" then timingV1 v b!"sr"
  else nanos v.timestamp

/-- How long it took. -/
def durationV1 (v : SpanV1) : Int64 :=
  if 0 < timingV1 v b!"cs" ∧ 0 < timingV1 v b!"cr" then timingV1 v b!"cr" - timingV1 v b!"cs"
  else if 0 < timingV1 v b!"sr" ∧ 0 < timingV1 v b!"ss" then timingV1 v b!"ss" - timingV1 v b!"sr"
  else nanos v.duration

/-- A span of a document of version 1, and what is sent to Datadog for it. -/
structure ShownV1 (v : SpanV1) (d : DDSpan) : Prop where
  spanID : d.spanID.toBitVec = v.id.toBitVec
  traceID : d.traceID.toBitVec = v.traceId.toBitVec
  parentID : d.parentID.toBitVec = v.parentId.toBitVec
  service : d.service = serviceV1 v ∧ d.name = serviceV1 v
  resource : d.resource = if v.name = [] then b!"(resource empty)" else v.name
  start : d.start = startV1 v
  duration : d.duration.toInt = max 1000 (orMillisecond (durationV1 v)).toInt
  tags : ∀ key, (d.tags.getD ∅)[key]? = tagV1 v key
  sampled : d.sampled = true
  error : d.error = 1 ∧ (∃ x, tagV1 v b!"error" = some x ∧ x ≠ b!"false" ∧ x ≠ b!"0") ∨
    d.error = 0 ∧ ¬ ∃ x, tagV1 v b!"error" = some x ∧ x ≠ b!"false" ∧ x ≠ b!"0"

/-- A document of version 1 with one trace as it should be. -/
structure HealthyV1 (k : Id) (vs : List SpanV1) : Prop where
  some : k ≠ 0
  trace : ∀ v ∈ vs, v.traceId = k ∧ v.id ≠ 0
  ids : (vs.map SpanV1.id).Nodup
  few : vs.length ≤ 8192
  root : ∃ r ∈ vs, (r.parentId = r.id ∨ ∀ q ∈ vs, q.id ≠ r.parentId) ∧ ∀ v ∈ vs, v.id ≠ r.id → v.parentId ≠ v.id ∧ ∃ q ∈ vs, q.id = v.parentId
  recent : ∀ v ∈ vs, year2020 ≤ startV1 v
  /-- if a span has the times of the client and of the server, then both have the same middle -/
  agree : ∀ v ∈ vs, timingV1 v b!"cs" ≠ 0 → timingV1 v b!"cr" ≠ 0 → timingV1 v b!"ss" ≠ 0 → timingV1 v b!"sr" ≠ 0 →
    0 < timingV1 v b!"cs" ∧ 0 < timingV1 v b!"cr" ∧ timingV1 v b!"cr" - timingV1 v b!"cs" ≠ 0 ∧
    (timingV1 v b!"cr" + timingV1 v b!"cs") / 2 - (timingV1 v b!"sr" + timingV1 v b!"ss") / 2 = 0

/-- Request number `j` is the only one with spans of the trace `k`. -/
def OnlyRequest {κ : Type} {conv : κ → Span → Option Span × κ} {c : κ} (r : Execution conv c) (j : Nat) (k : Id) : Prop :=
  ∀ m i l, (r.outcomes m)[i]? = some (.spans l) → i ≠ j → ∀ s ∈ l, s.trace ≠ k

end Verif
