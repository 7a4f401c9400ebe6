import Verif.Model.Sink

/-!
# What the sink does with spans
-/

namespace Verif

/-- A span and the span sent to Datadog for it. -/
structure Reported (s : Span) (d : DDSpan) : Prop where
  spanID : d.spanID.toBitVec = s.id.toBitVec
  traceID : d.traceID.toBitVec = s.trace.toBitVec
  parentID : d.parentID.toBitVec = s.parent.toBitVec
  service : d.service = s.service ∧ d.name = s.service
  resource : d.resource = if s.name = [] then b!"(resource empty)" else s.name
  start : d.start = s.timestamp
  duration : d.duration.toInt = max 1000 s.duration.toInt
  tags : d.tags = s.tags
  sampled : d.sampled = true
  error : d.error = 1 ∧ (∃ v, (s.tags.getD ∅)[b!"error"]? = some v ∧ v ≠ b!"false" ∧ v ≠ b!"0") ∨
    d.error = 0 ∧ ¬ ∃ v, (s.tags.getD ∅)[b!"error"]? = some v ∧ v ≠ b!"false" ∧ v ≠ b!"0"

/-- The spans of a list, with this trace id as it is sent to Datadog. -/
def ofTrace (key : UInt64) (spans : List Span) : List Span := spans.filter fun s => s.trace.toUInt64 = key

/-- In this memory, the map groups exactly these spans by their trace. -/
def Grouping (memory : List DDSpan) (b : ByTrace) (spans : List Span) : Prop :=
  ∀ key, (b[key]? = none ∧ ofTrace key spans = []) ∨
    ∃ ptrs, b[key]? = some ptrs ∧ ofTrace key spans ≠ [] ∧ ptrs.map (fun p => memory.getD p {}) = (ofTrace key spans).map toDatadog

/-- The traces given to `SendTraces` for these spans: each has all spans with one trace id, in order; different lists are of different traces; together they are
the reports of the spans. -/
structure Call (spans : List Span) (traces : List (List DDSpan)) : Prop where
  groups : ∀ t ∈ traces, ∃ key, t ≠ [] ∧ t = (ofTrace key spans).map toDatadog
  distinct : (traces.map fun t => t.head?.map (·.traceID)).Nodup
  all : traces.flatten.Perm (spans.map toDatadog)

/-- The sink and its sender, with everything that happened. -/
structure SinkRun where
  sink : Sink := {}
  /-- the traces received -/
  received : List (List Span) := []
  /-- the batches that were flushed, in order, and whether they were put into the channel or discarded -/
  log : List (Bool × ByTrace) := []
  /-- when they were flushed -/
  times : List Time := []
  /-- the batches the sender took out of the channel -/
  handed : List ByTrace := []

/-- A trace is received. -/
def SinkRun.receive (w : SinkRun) (trace : List Span) (now : Time) : SinkRun :=
  { w with sink := (w.sink.receive trace now).1, received := w.received ++ [trace], log := w.log ++ (w.sink.receive trace now).2.toList
           times := w.times ++ (w.sink.receive trace now).2.toList.map fun _ => now }

/-- A tick. -/
def SinkRun.tick (w : SinkRun) (since now : Time) : SinkRun :=
  { w with sink := (w.sink.tick since now).1, log := w.log ++ (w.sink.tick since now).2.toList
           times := w.times ++ (w.sink.tick since now).2.toList.map fun _ => now }

/-- The states that any schedule leads to. -/
inductive SinkRun.Reachable : SinkRun → Prop
  | init : Reachable {}
  | receive {w} (trace : List Span) (now : Time) : Reachable w → Reachable (w.receive trace now)
  | tick {w} (since now : Time) : Reachable w → Reachable (w.tick since now)
  | take {w b k} : Reachable w → w.sink.takeBatch = some (b, k) → Reachable { w with sink := k, handed := w.handed ++ [b] }

/-- `chunks` are the spans of the batches, `current` those that were not flushed yet. -/
structure Partition (w : SinkRun) (chunks : List (List Span)) (current : List Span) : Prop where
  /-- in this order they are all the spans received; no trace is divided between batches -/
  whole : ∃ (groups : List (List (List Span))) (rest : List (List Span)), w.received = groups.flatten ++ rest ∧ chunks = groups.map List.flatten ∧ current = rest.flatten
  count : chunks.length = w.log.length
  /-- every batch groups the spans of its chunk by trace -/
  batches : ∀ (i : Nat) (c : List Span) (e : Bool × ByTrace), chunks[i]? = some c → w.log[i]? = some e → Grouping w.sink.memory e.2 c
  current : Grouping w.sink.memory w.sink.byTrace current
  /-- the sender gets exactly those that are not discarded, in order -/
  sent : (w.log.filter (·.1)).map (·.2) = w.handed ++ w.sink.grouped

end Verif
