import Verif.Model.Collector
import Verif.Model.Forward
import Verif.Model.Handlers
import Verif.Model.Ring
import Verif.Spec.Sink

/-!
# main.go: MainWithRouting, without Kafka

All goroutines and channels: the handlers, the collector (`ErrorCorrectSpans`), the forwarder, the sink with its sender, and the reader of the admin buffer. Every step of
the system is a step of one of them; which one is next is arbitrary.
-/

namespace Verif

structure System (κ : Type) where
  /-- the requests, and the channel `httpInputSpans` -/
  http : Http := {}
  /-- the collector, with its history -/
  world : World
  /-- the traces that the current tick of the collector still has to send -/
  outbox : List (List Span) := []
  /-- the channel `processedSpans`, the forwarder, and the channels of its two targets: the sink (0) and the admin buffer (1) -/
  forwarder : Forwarder κ
  /-- the trace that the sink received last, until it is processed -/
  sinkBusy : Option SliceRef := none
  sink : SinkRun := {}
  /-- the batch being sent, and the lists given to `SendTraces` so far -/
  sending : Option ByTrace := none
  sent : List (List (List DDSpan)) := []
  /-- the trace that the reader of the buffer received last -/
  ringBusy : Option SliceRef := none
  ring : Ring := Ring.new 2048

/-- The capacities of the channels to the sink and the buffer, main.go:87, 96. -/
def targetCaps : List Nat := [256, 256]

/-- main.go:52-176, at the start. -/
def System.init {κ : Type} (k : κ) (now : Time) : System κ := { world := { clock := now }, forwarder := Forwarder.init k 2 }

/-- The steps of the pipeline proper. -/
inductive System.Step {κ : Type} (conv : κ → Span → Option Span × κ) : System κ → System κ → Prop
  /-- a handler pushes a span, or answers -/
  | http {s : System κ} {h : Http} {e : Option (Nat × Span)} : s.http.Step 256 h e → Step conv s { s with http := h }
  /-- the collector receives a span; it does not while it is sending traces -/
  | collect {s : System κ} {x : Span} {rest : List Span} (now1 now2 : Time) : s.outbox = [] → s.http.channel = x :: rest → s.world.clock ≤ now1 → now1 ≤ now2 →
      Step conv s { s with http := { s.http with channel := rest }, world := s.world.receive now1 now2 x }
  /-- the collector sends a finished trace; the channel has a capacity of 64 -/
  | emit {s : System κ} {t : List Span} {rest : List (List Span)} : s.outbox = t :: rest → s.forwarder.source.length < 64 →
      Step conv s { s with outbox := rest, forwarder := s.forwarder.arrive t }
  | forward {s : System κ} {f : Forwarder κ} : s.forwarder.Own conv targetCaps f → Step conv s { s with forwarder := f }
  /-- the sink receives a trace, … -/
  | sinkTake {s : System κ} {f : Forwarder κ} {r : SliceRef} : s.sinkBusy = none → s.forwarder.Receive 0 r f → Step conv s { s with forwarder := f, sinkBusy := some r }
  /-- … and later reads it -/
  | sinkRead {s : System κ} {r : SliceRef} (now : Time) : s.sinkBusy = some r →
      Step conv s { s with sinkBusy := none, sink := s.sink.receive (s.forwarder.heap.read r) now }
  | ringTake {s : System κ} {f : Forwarder κ} {r : SliceRef} : s.ringBusy = none → s.forwarder.Receive 1 r f → Step conv s { s with forwarder := f, ringBusy := some r }
  | ringRead {s : System κ} {r : SliceRef} {ring : Ring} : s.ringBusy = some r → s.ring.pushTrace (s.forwarder.heap.read r) = some ring →
      Step conv s { s with ringBusy := none, ring := ring }

/-- What the environment and the sender to Datadog do. -/
inductive System.Event {κ : Type} : System κ → System κ → Prop
  /-- a tick of the collector -/
  | tick {s : System κ} (i : TickInput) : s.outbox = [] → i.Valid s.world.c → s.world.clock ≤ i.now1 →
      Event s { s with world := s.world.tick i, outbox := emittedOf (s.world.c.tick i).2 }
  /-- a tick of the sink -/
  | sinkTick {s : System κ} (since now : Time) : s.sinkBusy = none → Event s { s with sink := s.sink.tick since now }
  /-- the sender takes a batch, … -/
  | senderTake {s : System κ} {b : ByTrace} {k : Sink} : s.sending = none → s.sink.sink.takeBatch = some (b, k) →
      Event s { s with sending := some b, sink := { s.sink with sink := k, handed := s.sink.handed ++ [b] } }
  /-- … and later sends it -/
  | senderSend {s : System κ} {b : ByTrace} {range : List (UInt64 × List Nat)} : s.sending = some b → IsRange range b →
      Event s { s with sending := none, sent := s.sent ++ (submitBatch s.sink.sink.memory range).toList }

/-- The states that any schedule leads to, and the outcomes of the parsers for all requests so far. -/
inductive System.Reachable {κ : Type} (conv : κ → Span → Option Span × κ) (k : κ) : List Parsed → System κ → Prop
  | init (now : Time) : Reachable conv k [] (System.init k now)
  | request {outcomes s} (o : Parsed) : Reachable conv k outcomes s →
      Reachable conv k (outcomes ++ [o]) { s with http := { s.http with conns := s.http.conns ++ [Conn.start o] } }
  | step {outcomes s s'} : Reachable conv k outcomes s → s.Step conv s' → Reachable conv k outcomes s'
  | event {outcomes s s'} : Reachable conv k outcomes s → s.Event s' → Reachable conv k outcomes s'

end Verif
