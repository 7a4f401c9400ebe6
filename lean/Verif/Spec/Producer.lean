import Verif.Model.Producer
import Verif.Spec.Oversize
import Verif.Spec.FairFront

/-!
# A proxy while Kafka can be reached and while it cannot
-/

namespace Verif

open Spec

/-- What a proxy may become; with the outcomes of the parsers of the requests in between, and what it writes to the topic. -/
inductive KafkaProducer.Later (part : List UInt8 → Nat) (o : KafkaProducer) : List Parsed → List (List UInt8 × List UInt8) → KafkaProducer → Prop
  | refl : Later part o [] [] o
  | request {outcomes topic g} (r : Parsed) : Later part o outcomes topic g → Later part o (outcomes ++ [r]) topic (g.request r)
  | turn {outcomes topic g} (up : Bool) : Later part o outcomes topic g → Later part o outcomes topic (g.turn up)
  | step {outcomes topic g g' e} : Later part o outcomes topic g → g.Step part g' e → Later part o outcomes (topic ++ e.toList) g'

/-- The histories of a proxy. -/
def KafkaProducer.Reachable (part : List UInt8 → Nat) (outcomes : List Parsed) (topic : List (List UInt8 × List UInt8)) (o : KafkaProducer) : Prop :=
  KafkaProducer.Later part {} outcomes topic o

/-- No goroutine waits for ever. -/
def KafkaProducer.Sound (o : KafkaProducer) : Prop := ∀ p, o.failed p = none

/-- Everything was answered and is in the topic. -/
def KafkaProducer.Idle (o : KafkaProducer) : Prop := o.front.Idle ∧ o.held = none ∧ (∀ p, o.queues p = []) ∧ ∀ p, o.buffers p = []

/-- The messages in one partition. -/
def messagesIn (part : List UInt8 → Nat) (p : Nat) (topic : List (List UInt8 × List UInt8)) : List (List UInt8 × List UInt8) := topic.filter fun e => decide (part e.1 = p)

/-- The goroutine of a partition waits for ever, its channel is full, and the goroutine of the topic has another message for it. -/
def KafkaProducer.Blocked (o : KafkaProducer) (p : Nat) : Prop :=
  (∃ m, o.failed p = some m) ∧ (o.queues p).length = channelBufferSize ∧ ∃ m, o.held = some (p, m)

/-- Steps left before everything is in the topic, with `n` partitions. -/
def KafkaProducer.work (n : Nat) (o : KafkaProducer) : Nat :=
  4 * o.front.work + 3 * o.held.toList.length + ((List.range n).map fun p => 2 * (o.queues p).length + (o.buffers p).length).sum

end Verif
