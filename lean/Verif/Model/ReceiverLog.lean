import Verif.Model.Consume
import Verif.Model.BinaryError
import Verif.Model.Verbose

/-!
# balance/receiver.go: the log of a consumer

`Model/Consume.lean` has the goroutine of `Consume` and the function that closes it. Here are the lines which it, `Setup` and `ConsumeClaim` write (those with the prefix `balance`), for a logger with any level.

sarama's `ConsumerGroup.Consume` is the environment: it fails with any error before `Setup` is called, or calls it once, and then `ConsumeClaim` for each claimed partition; when all these have returned it
returns, with or without an error.
-/

namespace Verif

/-- A partition of a topic. (The library has an `int32` for its number.) -/
abbrev TopicPartition := Str × Int64

/-- Where the goroutine is. -/
inductive ReceiverPhase
  /-- line 28 -/
  | select
  /-- line 34: in `consumerGroup.Consume`, before `Setup` -/
  | joining
  /-- line 34: after `Setup`, with these claims, for some of which `ConsumeClaim` is running -/
  | working (claims running : List TopicPartition)
  /-- lines 30-31 -/
  | finished

structure Receiver where
  phase : ReceiverPhase := .select
  cancelled : Bool := false
  log : List Str := []
  /-- ghost field: the messages that were read; nothing reads it -/
  messages : List (TopicPartition × List UInt8) := []
  /-- ghost field: how many sessions ended with an error; nothing reads it -/
  failures : Nat := 0

/-- `session.Claims()` -/
abbrev SessionClaims := Std.ExtTreeMap Str (List Int64)

/-- Partition after partition. -/
def partitionsOf (range : List (Str × List Int64)) : List TopicPartition := range.flatMap fun e => e.2.map fun p => (e.1, p)

/-- lines 59-63: what `Setup` writes; `range` is the order in which the loop gets the topics. -/
def setupLines (generation : Int64) (range : List (Str × List Int64)) : List Str :=
  (b!"Member of consumer group with generation id " ++ encodeNumber generation) ::
  range.flatMap fun e => e.2.map fun p => b!"  * claimed " ++ e.1 ++ b!":" ++ encodeNumber p

/-- line 35 -/
def sessionError (err : Str) : Str := b!"Error during consumer group session: " ++ err

/-- The log after these lines. -/
def written (level lineLevel : Nat) (log lines : List Str) : List Str := if lineLevel ≤ level then log ++ lines else log

inductive Receiver.Step (level : Nat) : Receiver → Receiver → Prop
  /-- lines 29-31 -/
  | finish {r : Receiver} : r.phase = .select → r.cancelled = true → Step level r { r with phase := .finished }
  /-- lines 33-34 -/
  | join {r : Receiver} : r.phase = .select → r.cancelled = false → Step level r { r with phase := .joining }
  /-- lines 34-35: no session -/
  | joinFails {r : Receiver} (err : Str) : r.phase = .joining →
      Step level r { r with phase := .select, log := written level warnLevel r.log [sessionError err], failures := r.failures + 1 }
  /-- line 34: no session, and no error (the context was cancelled) -/
  | joinEnds {r : Receiver} : r.phase = .joining → Step level r { r with phase := .select }
  /-- lines 58-67 -/
  | setup {r : Receiver} (generation : Int64) {claims : SessionClaims} {range : List (Str × List Int64)} : r.phase = .joining → IsRange range claims →
      Step level r { r with phase := .working (partitionsOf claims.toList) (partitionsOf claims.toList), log := written level debugLevel r.log (setupLines generation range) }
  /-- lines 82-87: a message that cannot be decoded -/
  | refuse {r : Receiver} {claims running : List TopicPartition} {p : TopicPartition} {v : List UInt8} {line : Str} : r.phase = .working claims running → p ∈ running → consumeLog v = some line →
      Step level r { r with log := written level warnLevel r.log [line], messages := r.messages ++ [(p, v)] }
  /-- lines 82, 89-91: another message -/
  | accept {r : Receiver} {claims running : List TopicPartition} {p : TopicPartition} {v : List UInt8} : r.phase = .working claims running → p ∈ running → consumeLog v = none →
      Step level r { r with messages := r.messages ++ [(p, v)] }
  /-- line 94 -/
  | claimEnd {r : Receiver} {claims before after : List TopicPartition} {p : TopicPartition} : r.phase = .working claims (before ++ p :: after) →
      Step level r { r with phase := .working claims (before ++ after) }
  /-- lines 70-72: `Cleanup` writes nothing, and `consumerGroup.Consume` returns without an error -/
  | leave {r : Receiver} {claims : List TopicPartition} : r.phase = .working claims [] → Step level r { r with phase := .select }
  /-- lines 34-35: it returns with an error -/
  | leaveFails {r : Receiver} {claims : List TopicPartition} (err : Str) : r.phase = .working claims [] →
      Step level r { r with phase := .select, log := written level warnLevel r.log [sessionError err], failures := r.failures + 1 }
  /-- line 42 -/
  | close {r : Receiver} : Step level r { r with cancelled := true }

inductive Receiver.Steps (level : Nat) (r : Receiver) : Receiver → Prop
  | refl : Steps level r r
  | step {q s : Receiver} : Steps level r q → q.Step level s → Steps level r s

end Verif
