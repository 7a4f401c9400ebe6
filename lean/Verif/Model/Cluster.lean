import Verif.Model.System
import Verif.Model.Balance

/-!
# main.go: MainWithRouting with Kafka, for any number of proxies on one topic

In front, a proxy sends all spans of its requests to Kafka; behind, it processes what the consumer group assigns to it. Kafka and sarama (v1.26.1) are the environment:

* a topic has partitions, each a log of messages; the partition of a message is some function of its key;
* the producer has one goroutine ("dispatcher") that takes the messages from the unbuffered channel `Input()`. A message with more than `MaxMessageBytes` it returns as an error on the
  unbuffered channel `Errors()` (since `Producer.Return.Errors` is set by default). Nobody receives from this channel, in all of main.go and balance/*.go. Messages of the same
  partition stay in order, unless they get lost (`RequiredAcks` is `NoResponse`);
* a partition is assigned to at most one consumer of the group at a time; its messages are consumed in order.
-/

namespace Verif

/-- The bytes a message counts, in sarama's `ProducerMessage.byteSize`, for the version set in main.go:63. -/
def messageSize (key value : List UInt8) : Nat := 36 + key.length + value.length

/-- main.go:69 `MaxMessageBytes`. -/
def maxMessageBytes : Nat := 768 * 1024

/-- A proxy up to Kafka. -/
structure Front where
  /-- the requests, and the channel `httpInputSpans` -/
  http : Http := {}
  pool : Pool := {}
  /-- the message that `Sender.sendSpan` wants to send on `Input()` -/
  offered : Option Message := none
  /-- the message that the dispatcher took last -/
  dispatching : Option Message := none
  /-- messages on their way to Kafka -/
  inflight : List Message := []

/-- One step in front of Kafka; the last argument is the message that gets into the topic, if one does. -/
inductive Front.Step (part : List UInt8 → Nat) : Front → Front → Option (List UInt8 × List UInt8) → Prop
  | http {f : Front} {h : Http} {e : Option (Nat × Span)} : f.http.Step 256 h e → Step part f { f with http := h } none
  /-- the pool makes a new encoder -/
  | new (f : Front) : Step part f { f with pool := { f.pool with encoders := f.pool.encoders ++ [{}] } } none
  /-- balance/sender.go:26-34: the sender receives a span and encodes it; the tags are iterated in any order -/
  | send {f : Front} {x : Span} {rest : List Span} {j : Nat} {enc enc' : Encoder} {ord : List (Str × Str)} {h : Heap} {m : Message} : f.offered = none → f.http.channel = x :: rest →
      f.pool.encoders[j]? = some enc → IsRange ord (x.tags.getD ∅) → encode f.pool.heap enc x ord = some (h, enc', m) →
      Step part f { f with http := { f.http with channel := rest }, offered := some m,
                           pool := { heap := h, encoders := f.pool.encoders.set j enc', sent := f.pool.sent ++ [(x, ord, m)] } } none
  /-- balance/sender.go:33: the dispatcher takes the message -/
  | input {f : Front} {m : Message} : f.offered = some m → f.dispatching = none → Step part f { f with offered := none, dispatching := some m } none
  /-- the dispatcher passes a message on, if it is not too large. There is no step for a message that is too large: the dispatcher waits for someone to take the error -/
  | dispatch {f : Front} {m : Message} : f.dispatching = some m → messageSize (f.pool.heap.deref m.key) (f.pool.heap.deref m.value) ≤ maxMessageBytes →
      Step part f { f with dispatching := none, inflight := f.inflight ++ [m] } none
  /-- a message gets to the topic, if it is the first one of its partition -/
  | produce {f : Front} {m : Message} {l l' : List Message} : f.inflight = l ++ m :: l' →
      (∀ x ∈ l, part (f.pool.heap.deref x.key) ≠ part (f.pool.heap.deref m.key)) →
      Step part f { f with inflight := l ++ l' } (some (f.pool.heap.deref m.key, f.pool.heap.deref m.value))

/-- balance/receiver.go:75-95: a running `ConsumeClaim`. While it executes the callback (main.go:145: `kafkaInputSpans <- span`), `busy` is the number of this execution: what is done with the
span is the same as for a request with a single span, so the executions are the connections of the `System` behind. -/
structure Claim where
  partition : Nat
  offset : Nat
  busy : Option Nat := none

/-- A proxy: the part in front of Kafka and the part behind; `kafkaInputSpans` is the channel of `back`. -/
structure Instance (κ : Type) where
  front : Front := {}
  claims : List Claim := []
  back : System κ

structure Cluster (κ : Type) where
  instances : List (Instance κ) := []
  /-- the values in each partition -/
  topic : Nat → List (List UInt8) := fun _ => []

/-- A value is appended to a partition. -/
def appendTopic (topic : Nat → List (List UInt8)) (p : Nat) (v : List UInt8) : Nat → List (List UInt8) := fun q => if q = p then topic q ++ [v] else topic q

/-- What gets into the topic. -/
def deliverTopic (part : List UInt8 → Nat) (topic : Nat → List (List UInt8)) : Option (List UInt8 × List UInt8) → Nat → List (List UInt8)
  | none => topic
  | some (key, value) => appendTopic topic (part key) value

/-- One step of a proxy behind Kafka; the last argument is the span for which the callback was called. -/
inductive Instance.Step {κ : Type} (conv : κ → Span → Option Span × κ) (topic : Nat → List (List UInt8)) : Instance κ → Instance κ → Option Span → Prop
  /-- receiver.go:83-87: a message that cannot be decoded -/
  | skip {n : Instance κ} {j : Nat} {cl : Claim} {v : List UInt8} : n.claims[j]? = some cl → cl.busy = none → (topic cl.partition)[cl.offset]? = some v → decodeKafkaMessage v = none →
      Step conv topic n { n with claims := n.claims.set j { cl with offset := cl.offset + 1 } } none
  /-- receiver.go:89: the callback is called -/
  | call {n : Instance κ} {j : Nat} {cl : Claim} {v : List UInt8} {x : Span} : n.claims[j]? = some cl → cl.busy = none → (topic cl.partition)[cl.offset]? = some v →
      decodeKafkaMessage v = some x →
      Step conv topic n { n with claims := n.claims.set j { cl with offset := cl.offset + 1, busy := some n.back.http.conns.length }
                                 back := { n.back with http := { n.back.http with conns := n.back.http.conns ++ [Conn.start (.spans [x])] } } } (some x)
  /-- receiver.go:91: the callback returned; the message is marked -/
  | mark {n : Instance κ} {j : Nat} {cl : Claim} {i : Nat} : n.claims[j]? = some cl → cl.busy = some i → n.back.http.conns[i]? = some (.answered 202) →
      Step conv topic n { n with claims := n.claims.set j { cl with busy := none } } none
  | back {n : Instance κ} {b : System κ} : n.back.Step conv b → Step conv topic n { n with back := b } none
  | event {n : Instance κ} {b : System κ} : n.back.Event b → Step conv topic n { n with back := b } none

/-- What the proxies and the producer do. -/
inductive Cluster.Step {κ : Type} (conv : κ → Span → Option Span × κ) (part : List UInt8 → Nat) : Cluster κ → Cluster κ → Prop
  | front {c : Cluster κ} {i : Nat} {n : Instance κ} {f : Front} {e : Option (List UInt8 × List UInt8)} : c.instances[i]? = some n → n.front.Step part f e →
      Step conv part c { instances := c.instances.set i { n with front := f }, topic := deliverTopic part c.topic e }
  | back {c : Cluster κ} {i : Nat} {n n' : Instance κ} {x : Option Span} : c.instances[i]? = some n → n.Step conv c.topic n' x →
      Step conv part c { c with instances := c.instances.set i n' }

/-- What may happen at any time. -/
inductive Cluster.Upheaval {κ : Type} (k : κ) : Cluster κ → Cluster κ → Prop
  /-- a new proxy -/
  | start {c : Cluster κ} (now : Time) : Upheaval k c { c with instances := c.instances ++ [{ back := System.init k now }] }
  /-- a proxy crashes, everything in its memory is lost, and it is restarted -/
  | crash {c : Cluster κ} (i : Nat) (now : Time) : Upheaval k c { c with instances := c.instances.set i { back := System.init k now } }
  /-- a message gets lost -/
  | lose {c : Cluster κ} {i : Nat} {n : Instance κ} {l l' : List Message} {m : Message} : c.instances[i]? = some n → n.front.inflight = l ++ m :: l' →
      Upheaval k c { c with instances := c.instances.set i { n with front := { n.front with inflight := l ++ l' } } }
  /-- a partition is assigned, from any offset on -/
  | assign {c : Cluster κ} {i : Nat} {n : Instance κ} (p o : Nat) : c.instances[i]? = some n → (∀ n' ∈ c.instances, ∀ cl ∈ n'.claims, cl.partition ≠ p) →
      Upheaval k c { c with instances := c.instances.set i { n with claims := n.claims ++ [{ partition := p, offset := o }] } }
  /-- a claim ends -/
  | revoke {c : Cluster κ} {i : Nat} {n : Instance κ} {l l' : List Claim} {cl : Claim} : c.instances[i]? = some n → n.claims = l ++ cl :: l' → cl.busy = none →
      Upheaval k c { c with instances := c.instances.set i { n with claims := l ++ l' } }

/-- The states that any history leads to; with the outcomes of the parsers for the requests to all proxies, and the values that others than the proxies wrote to the topic. -/
inductive Cluster.Reachable {κ : Type} (conv : κ → Span → Option Span × κ) (k : κ) (part : List UInt8 → Nat) : List Parsed → List (List UInt8) → Cluster κ → Prop
  | init : Reachable conv k part [] [] {}
  | request {outcomes foreign c} {i : Nat} {n : Instance κ} (o : Parsed) : Reachable conv k part outcomes foreign c → c.instances[i]? = some n →
      Reachable conv k part (outcomes ++ [o]) foreign
        { c with instances := c.instances.set i { n with front := { n.front with http := { n.front.http with conns := n.front.http.conns ++ [Conn.start o] } } } }
  | foreign {outcomes foreign c} (p : Nat) (v : List UInt8) : Reachable conv k part outcomes foreign c →
      Reachable conv k part outcomes (foreign ++ [v]) { c with topic := appendTopic c.topic p v }
  | step {outcomes foreign c c'} : Reachable conv k part outcomes foreign c → c.Step conv part c' → Reachable conv k part outcomes foreign c'
  | upheaval {outcomes foreign c c'} : Reachable conv k part outcomes foreign c → c.Upheaval k c' → Reachable conv k part outcomes foreign c'

end Verif
