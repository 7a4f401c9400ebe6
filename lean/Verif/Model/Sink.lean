import Verif.Model.Span
import Verif.Model.Tree

/-!
# datadog/converter.go: conversion, grouping and sending of spans
-/

namespace Verif

/-- `tracer.Span` of dd-trace-go, the fields that are set here. -/
structure DDSpan where
  resource : Str := []
  name : Str := []
  service : Str := []
  start : Int64 := 0
  duration : Int64 := 0
  spanID : UInt64 := 0
  traceID : UInt64 := 0
  parentID : UInt64 := 0
  tags : Option TagMap := none
  sampled : Bool := false
  error : Int32 := 0

/-- datadog/converter.go:78-124: conversion of a span. `Meta` is the map `Tags` itself. -/
def toDatadog (span : Span) : DDSpan :=
  let duration := if span.duration < 1000 then 1000 else span.duration
  let resource := if span.name = [] then b!"(resource empty)" else span.name
  let isError : Int32 := match (span.tags.getD ∅)[b!"error"]? with
    | none => 0
    | some spanError => if spanError ≠ b!"false" ∧ spanError ≠ b!"0" then 1 else 0
  { resource := resource
    name := span.service
    service := span.service
    -- `ToTime().UnixNano()` gives the nanoseconds back
    start := span.timestamp
    duration := duration
    spanID := idUint64 span.id
    traceID := idUint64 span.trace
    parentID := idUint64 span.parent
    tags := span.tags
    sampled := true
    error := isError }

/-- `byTrace`: the pointers to the spans of each trace. -/
abbrev ByTrace := Std.ExtTreeMap UInt64 (List Nat)

/-- The state of `Sink`, datadog/converter.go:55-66, and of the channel to `submitTraces`. -/
structure Sink where
  /-- all arrays of `tracer.Span` that were made, one after the other; a pointer is an index -/
  memory : List DDSpan := []
  /-- where `ddSpans` begins; it extends to the end of the memory -/
  free : Nat := 0
  spanCount : Nat := 0
  byTrace : ByTrace := ∅
  /-- `none`: the zero time -/
  lastFlushTime : Option Time := none
  /-- the channel `groupedSpans` -/
  grouped : List ByTrace := []

/-- datadog/converter.go:91-98, 107-126: one span of a trace. -/
def Sink.addSpan (k : Sink) (span : Span) : Sink :=
  let memory := if k.memory.length - k.free < 1 then k.memory ++ List.replicate (4 * 1024) ({} : DDSpan) else k.memory
  let free := if k.memory.length - k.free < 1 then k.memory.length else k.free
  let converted := toDatadog span
  { k with
    memory := memory.set free converted
    free := free + 1
    byTrace := k.byTrace.insert converted.traceID ((k.byTrace.getD converted.traceID []) ++ [free]) }

/-- datadog/converter.go:138-149. The second result: the batch, if there is one, and whether it was put into the channel (or discarded). -/
def Sink.flush (k : Sink) (flush : Bool) (now : Time) : Sink × Option (Bool × ByTrace) :=
  if flush ∧ k.spanCount > 0 then
    let k' := { k with spanCount := 0, byTrace := ∅, lastFlushTime := some now }
    -- the channel has room for 8 batches
    if k.grouped.length < 8 then ({ k' with grouped := k.grouped ++ [k.byTrace] }, some (true, k.byTrace)) else (k', some (false, k.byTrace))
  else (k, none)

/-- datadog/converter.go:72-131: a trace is received. `now` is the time of a flush. -/
def Sink.receive (k : Sink) (trace : List Span) (now : Time) : Sink × Option (Bool × ByTrace) :=
  let k := trace.foldl Sink.addSpan k
  let k := { k with spanCount := k.spanCount + trace.length }
  k.flush (decide (k.spanCount ≥ 1000)) now

/-- datadog/converter.go:135. `since` is the time read by `time.Since` (the time since the zero time is longer than any interval here). -/
def Sink.due (k : Sink) (since : Time) : Bool :=
  match k.lastFlushTime with
  | none => true
  | some t => decide (since - t ≥ 1800000000)

/-- datadog/converter.go:133-135: a tick. -/
def Sink.tick (k : Sink) (since now : Time) : Sink × Option (Bool × ByTrace) := k.flush (k.due since) now

/-- datadog/converter.go:24: `submitTraces` receives the next batch. -/
def Sink.takeBatch (k : Sink) : Option (ByTrace × Sink) :=
  match k.grouped with
  | [] => none
  | b :: rest => some (b, { k with grouped := rest })

/-- datadog/converter.go:25-48, one batch: the traces sent to the transport (or logged, with `DD_LOG_TRACES`), if any; the map is iterated in any order. -/
def submitBatch (memory : List DDSpan) (range : List (UInt64 × List Nat)) : Option (List (List DDSpan)) :=
  let traces := range.foldl (fun traces e => traces ++ [e.2.map fun p => memory.getD p {}]) []
  if traces.length > 0 then some traces else none

end Verif
