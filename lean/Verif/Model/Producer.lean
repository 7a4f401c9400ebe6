import Verif.Model.Cluster

/-!
# main.go:62-70, balance/sender.go: the producer while Kafka can be reached and while it cannot

`Model/Cluster` passes messages on to Kafka without an end. Here is what sarama (v1.26.1) does between its dispatcher and the brokers, with the configuration of main.go:

* one goroutine for the topic takes the messages of the dispatcher from a channel, determines the partition of each, and gives it to the goroutine of the partition, again by a channel. Both
  channels have room for `ChannelBufferSize` messages, which main.go:70 sets to 64;
* the goroutine of a partition passes a message on to the one of the broker, which collects all messages of a second (main.go:68) and sends them, without waiting for an answer (main.go:67);
* if there is no broker for the partition, also not after some retries, then the goroutine of the partition returns the message as an error on the unbuffered channel `Errors()`
  (`partitionProducer.dispatch`, `returnError`). Nobody receives from this channel (`NewSender` does not start a goroutine for it), so the goroutine waits for ever.

Not modelled: that messages which a broker already has get lost when it fails (`Model/Cluster` has losses), or are returned as errors, too, by the goroutine of the broker, so that all
its partitions wait.
-/

namespace Verif

/-- main.go:70 `ChannelBufferSize`. -/
def channelBufferSize : Nat := 64

/-- A proxy up to Kafka, with the inside of the producer. -/
structure KafkaProducer where
  /-- the requests, the sender, and the dispatcher; `inflight` is the channel to the goroutine of the topic -/
  front : Front := {}
  /-- whether Kafka can be reached -/
  up : Bool := true
  /-- the message that the goroutine of the topic took last, and its partition -/
  held : Option (Nat × Message) := none
  /-- the channel to the goroutine of each partition -/
  queues : Nat → List Message := fun _ => []
  /-- the message that the goroutine of a partition tries to return as an error -/
  failed : Nat → Option Message := fun _ => none
  /-- the messages that brokers are about to get -/
  buffers : Nat → List Message := fun _ => []

/-- A function with another value at one point. -/
def setAt {α : Type} (f : Nat → α) (p : Nat) (v : α) : Nat → α := fun q => if q = p then v else f q

/-- One step; the last argument is the message that gets into the topic, if one does. -/
inductive KafkaProducer.Step (part : List UInt8 → Nat) : KafkaProducer → KafkaProducer → Option (List UInt8 × List UInt8) → Prop
  /-- a handler, the sender or the dispatcher; the dispatcher needs room in the channel -/
  | front {o : KafkaProducer} {g : Front} : o.front.Step part g none → g.inflight.length ≤ channelBufferSize → Step part o { o with front := g } none
  /-- the goroutine of the topic takes a message, and determines its partition -/
  | partition {o : KafkaProducer} {m : Message} {rest : List Message} : o.front.inflight = m :: rest → o.held = none →
      Step part o { o with front := { o.front with inflight := rest }, held := some (part (o.front.pool.heap.deref m.key), m) } none
  /-- it gives it to the goroutine of the partition, if the channel has room -/
  | enqueue {o : KafkaProducer} {p : Nat} {m : Message} : o.held = some (p, m) → (o.queues p).length < channelBufferSize →
      Step part o { o with held := none, queues := setAt o.queues p (o.queues p ++ [m]) } none
  /-- the goroutine of a partition passes a message on to the one of the broker -/
  | pass {o : KafkaProducer} {p : Nat} {m : Message} {rest : List Message} : o.up = true → o.failed p = none → o.queues p = m :: rest →
      Step part o { o with queues := setAt o.queues p rest, buffers := setAt o.buffers p (o.buffers p ++ [m]) } none
  /-- or it finds no broker, and wants to return the message; there is no step that takes it -/
  | fail {o : KafkaProducer} {p : Nat} {m : Message} {rest : List Message} : o.up = false → o.failed p = none → o.queues p = m :: rest →
      Step part o { o with queues := setAt o.queues p rest, failed := setAt o.failed p (some m) } none
  /-- a message gets into the topic -/
  | write {o : KafkaProducer} {p : Nat} {m : Message} {rest : List Message} : o.up = true → o.buffers p = m :: rest →
      Step part o { o with buffers := setAt o.buffers p rest } (some (o.front.pool.heap.deref m.key, o.front.pool.heap.deref m.value))

/-- Kafka can be reached, or not. -/
def KafkaProducer.turn (o : KafkaProducer) (up : Bool) : KafkaProducer := { o with up := up }

/-- A request arrives. -/
def KafkaProducer.request (o : KafkaProducer) (r : Parsed) : KafkaProducer :=
  { o with front := { o.front with http := { o.front.http with conns := o.front.http.conns ++ [Conn.start r] } } }

end Verif
