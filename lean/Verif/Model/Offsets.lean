import Verif.Model.BinaryError
import Verif.Model.Balance

/-!
# balance/receiver.go and main.go:62-71: the offsets of one partition

What happens with one partition over all sessions of all proxies: messages are written, Kafka deletes old ones (the retention of main.go:118-123), a proxy is assigned the partition and runs
`ConsumeClaim`, and offsets are committed. sarama (v1.26.1) with the configuration of main.go is the environment:

* `Consumer.Offsets.Initial` keeps its default, `OffsetNewest`: a claim starts at the committed offset if there is one, and otherwise behind the last message
  (`consumerGroupSession.consume`);
* if the committed offset is out of range (Kafka has deleted the message), the claim starts behind the last message, too (`newConsumerGroupClaim`);
* `MarkMessage` only notes the offset; what is noted is committed from time to time, and at the end of a session, if nothing fails.

Not modelled: that Kafka forgets the committed offsets of a group that nobody used for some days.
-/

namespace Verif

/-- Where `ConsumeClaim` is (receiver.go:80-92). -/
inductive ClaimPhase
  /-- line 80: it waits for the next message -/
  | reading
  /-- line 89: it is in the callback -/
  | calling (s : Span)
  /-- line 91: the callback has returned -/
  | marking

/-- A claim of the partition. -/
structure Reading where
  /-- the offset of the message that it reads next, or works on -/
  next : Nat
  phase : ClaimPhase := .reading
  /-- what the offset manager of sarama will commit -/
  mark : Option Nat := none

/-- A partition. -/
structure KafkaPartition where
  /-- all messages that were ever written to it; the offset of a message is its index -/
  log : List (List UInt8) := []
  /-- the offset of the oldest message that Kafka still has -/
  lowest : Nat := 0
  committed : Option Nat := none
  session : Option Reading := none
  /-- the calls of the callback that returned, of all proxies -/
  delivered : List (Nat × Span) := []
  /-- the warnings of line 85, of all proxies, with the offset of the message (which is not in the text) -/
  warnings : List (Nat × Str) := []
  /-- ghost field: where the last claim started that did not start at the committed offset; nothing reads it -/
  since : Nat := 0

/-- The offset that a claim starts at. -/
def KafkaPartition.start (p : KafkaPartition) : Nat :=
  match p.committed with
  | some o => if p.lowest ≤ o ∧ o ≤ p.log.length then o else p.log.length
  | none => p.log.length

inductive KafkaPartition.Step : KafkaPartition → KafkaPartition → Prop
  | write {p : KafkaPartition} (v : List UInt8) : Step p { p with log := p.log ++ [v] }
  /-- Kafka deletes old messages -/
  | delete {p : KafkaPartition} {n : Nat} : p.lowest ≤ n → n ≤ p.log.length → Step p { p with lowest := n }
  /-- the partition is assigned to some proxy -/
  | claim {p : KafkaPartition} : p.session = none →
      Step p { p with session := some { next := p.start, mark := p.committed }, since := if p.committed = some p.start then p.since else p.start }
  /-- lines 82-87 -/
  | skip {p : KafkaPartition} {r : Reading} {v : List UInt8} {line : Str} : p.session = some r → r.phase = .reading → p.lowest ≤ r.next → p.log[r.next]? = some v → decodeKafkaMessage v = none →
      consumeLog v = some line → Step p { p with session := some { r with next := r.next + 1 }, warnings := p.warnings ++ [(r.next, line)] }
  /-- lines 82, 89 -/
  | call {p : KafkaPartition} {r : Reading} {v : List UInt8} {s : Span} : p.session = some r → r.phase = .reading → p.lowest ≤ r.next → p.log[r.next]? = some v → decodeKafkaMessage v = some s →
      Step p { p with session := some { r with phase := .calling s } }
  /-- line 89: the callback returns -/
  | returns {p : KafkaPartition} {r : Reading} {s : Span} : p.session = some r → r.phase = .calling s →
      Step p { p with session := some { r with phase := .marking }, delivered := p.delivered ++ [(r.next, s)] }
  /-- line 91; sarama takes the larger one of two offsets -/
  | mark {p : KafkaPartition} {r : Reading} : p.session = some r → r.phase = .marking →
      Step p { p with session := some { next := r.next + 1, mark := some (max (r.mark.getD 0) (r.next + 1)) } }
  /-- what was marked is committed -/
  | commit {p : KafkaPartition} {r : Reading} : p.session = some r → Step p { p with committed := r.mark }
  /-- line 94 -/
  | done {p : KafkaPartition} {r : Reading} : p.session = some r → r.phase = .reading → Step p { p with session := none }
  /-- the proxy crashes, or loses the connection -/
  | crash {p : KafkaPartition} : Step p { p with session := none }

inductive KafkaPartition.Steps (p : KafkaPartition) : KafkaPartition → Prop
  | refl : Steps p p
  | step {q r : KafkaPartition} : Steps p q → q.Step r → Steps p r

end Verif
