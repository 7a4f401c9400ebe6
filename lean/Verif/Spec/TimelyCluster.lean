import Verif.Spec.FairCluster
import Verif.Spec.Timely

/-!
# Proxies that share a Kafka topic, with a clock, in which everybody is in time
-/

namespace Verif

open Spec

variable {κ : Type} {conv : κ → Span → Option Span × κ} {k : κ} {part : List UInt8 → Nat} {assignment : List (List Nat)}

/-- How long things take. -/
structure Delays where
  /-- until what was accepted is in the topic -/
  write : Time
  /-- until what is in the topic was read -/
  read : Time
  /-- until the goroutines behind Kafka have done what there is to do -/
  work : Time
  /-- between two ticks of a collector -/
  collector : Time
  /-- between two ticks of a sink -/
  sink : Time
  /-- a call of the transport -/
  call : Time

/-- The time at every state: it does not go back, and the readings of the clocks of a proxy until then are not later. -/
structure System.ClockSeq (s : Nat → System κ) (time : Nat → Time) : Prop where
  mono : ∀ n, time n ≤ time (n + 1)
  collector : ∀ n, (s n).world.clock ≤ time n
  flushes : ∀ n, ∀ t ∈ (s n).sink.times, t ≤ time n

/-- When a collector receives a span, it reads times that are not before that state. -/
def System.CollectorClockSeq (s : Nat → System κ) (time : Nat → Time) : Prop :=
  ∀ n, (s (n + 1)).world.received ≠ (s n).world.received → ∃ (now1 now2 : Time) (x : Span), (s (n + 1)).world = (s n).world.receive now1 now2 x ∧ time n ≤ now1 ∧ now1 ≤ now2

/-- The clock of a sink: when it flushes it reads the time of this step; at a tick it reads a time that is not later. -/
structure System.SinkClockSeq (s : Nat → System κ) (time : Nat → Time) : Prop where
  reads : ∀ n, (s (n + 1)).sink.times = (s n).sink.times ∨ (s (n + 1)).sink.times = (s n).sink.times ++ [time (n + 1)]
  ticks : ∀ n, (s (n + 1)).sink.log ≠ (s n).sink.log → (s (n + 1)).sink.received = (s n).sink.received → ∃ since, since ≤ time (n + 1) ∧ (s n).sink.sink.due since = true

/-- In every period of this length the collector handles a tick. -/
def System.CollectorTicksSeq (s : Nat → System κ) (time : Nat → Time) (period : Time) : Prop :=
  ∀ T, time 0 ≤ T → ∃ (m : Nat) (i : TickInput), T ≤ i.now1 ∧ time (m + 1) ≤ T + period ∧ i.Valid (s m).world.c ∧
    s (m + 1) = { (s m) with world := (s m).world.tick i, outbox := emittedOf ((s m).world.c.tick i).2 } ∧ (s m).world.clock ≤ i.now1

/-- In every period of this length the sink handles a tick. -/
def System.SinkTicksSeq (s : Nat → System κ) (time : Nat → Time) (period : Time) : Prop :=
  ∀ T, time 0 ≤ T → ∃ (m : Nat) (since now : Time), T ≤ since ∧ since ≤ time (m + 1) ∧ time (m + 1) ≤ T + period ∧
    s (m + 1) = { (s m) with sink := (s m).sink.tick since now }

/-- At any time, all that is to be done behind Kafka by the goroutines other than the sender is done after this delay. -/
def System.ResponsiveSeq (s : Nat → System κ) (time : Nat → Time) (delay : Time) : Prop := ∀ n, ∃ q, n ≤ q ∧ time q ≤ time n + delay ∧ ¬ (s q).Pending

/-- Whenever there is a batch to be sent, a call of the transport returns after at most this time. -/
def System.SendsSeq (s : Nat → System κ) (time : Nat → Time) (limit : Time) : Prop :=
  ∀ n, (s n).sending ≠ none ∨ (s n).sink.sink.grouped ≠ [] → ∃ m, n ≤ m ∧ time (m + 1) ≤ time n + limit ∧ (s m).SenderSends (s (m + 1))

/-- At any time, all that a proxy accepted is in the topic after this delay. -/
def Front.WritesIn (f : Nat → Front) (time : Nat → Time) (delay : Time) : Prop := ∀ n, ∃ q, n ≤ q ∧ time q ≤ time n + delay ∧ (f q).Idle

/-- At any time, a claim has read all that is in its partition, and handed it over, after this delay. -/
def Instance.ReadsIn (topic : Nat → Nat → List (List UInt8)) (s : Nat → Instance κ) (time : Nat → Time) (delay : Time) : Prop :=
  ∀ (n p : Nat), ∃ q, n ≤ q ∧ time q ≤ time n + delay ∧ ∀ cl ∈ (s q).claims, cl.partition = p → cl.busy = none ∧ (topic n p).length ≤ cl.offset

/-- Everybody is in time. -/
structure ClusterExecution.InTime (r : ClusterExecution conv k part assignment) (time : Nat → Time) (d : Delays) : Prop where
  clock : ∀ i s, r.Proxy i s → System.ClockSeq (fun n => (s n).back) time
  writes : ∀ i s, r.Proxy i s → Front.WritesIn (fun n => (s n).front) time d.write
  reads : ∀ i s, r.Proxy i s → Instance.ReadsIn (fun n => (r.state n).topic) s time d.read
  works : ∀ i s, r.Proxy i s → System.ResponsiveSeq (fun n => (s n).back) time d.work
  ticks : ∀ i s, r.Proxy i s → System.CollectorTicksSeq (fun n => (s n).back) time d.collector
  sinkTicks : ∀ i s, r.Proxy i s → System.SinkTicksSeq (fun n => (s n).back) time d.sink
  calls : 0 ≤ d.call
  sends : ∀ i s, r.Proxy i s → System.SendsSeq (fun n => (s n).back) time d.call

end Verif
