import Verif.Spec.FairSender

/-!
# Executions with a clock, in which everybody is in time
-/

namespace Verif

open Spec

variable {κ : Type} {conv : κ → Span → Option Span × κ} {k : κ}

/-- The time at every state of an execution: it does not go back, and the readings of the clock until then are not later. -/
structure Execution.Clock (r : Execution conv k) (time : Nat → Time) : Prop where
  mono : ∀ n, time n ≤ time (n + 1)
  collector : ∀ n, (r.state n).world.clock ≤ time n
  flushes : ∀ n, ∀ t ∈ (r.state n).sink.times, t ≤ time n

/-- The clock of the sink: when it flushes it reads the time of this step; at a tick it reads a time that is not later. -/
structure Execution.SinkClock (r : Execution conv k) (time : Nat → Time) : Prop where
  reads : ∀ n, (r.state (n + 1)).sink.times = (r.state n).sink.times ∨ (r.state (n + 1)).sink.times = (r.state n).sink.times ++ [time (n + 1)]
  ticks : ∀ n, (r.state (n + 1)).sink.log ≠ (r.state n).sink.log → (r.state (n + 1)).sink.received = (r.state n).sink.received →
    ∃ since, since ≤ time (n + 1) ∧ (r.state n).sink.sink.due since = true

/-- The clock of the collector: when it receives a span, it reads times that are not before that state. -/
def Execution.CollectorClock (r : Execution conv k) (time : Nat → Time) : Prop :=
  ∀ n, (r.state (n + 1)).world.received ≠ (r.state n).world.received → ∃ (now1 now2 : Time) (x : Span), (r.state (n + 1)).world = (r.state n).world.receive now1 now2 x ∧ time n ≤ now1 ∧ now1 ≤ now2

/-- In every period of this length the collector handles a tick. -/
def Execution.CollectorTicks (r : Execution conv k) (time : Nat → Time) (period : Time) : Prop :=
  ∀ T, time 0 ≤ T → ∃ (m : Nat) (i : TickInput), T ≤ i.now1 ∧ time (m + 1) ≤ T + period ∧ i.Valid (r.state m).world.c ∧
    r.state (m + 1) = { (r.state m) with world := (r.state m).world.tick i, outbox := emittedOf ((r.state m).world.c.tick i).2 } ∧ (r.state m).world.clock ≤ i.now1

/-- In every period of this length the sink handles a tick. -/
def Execution.SinkTicksIn (r : Execution conv k) (time : Nat → Time) (period : Time) : Prop :=
  ∀ T, time 0 ≤ T → ∃ (m : Nat) (since now : Time), T ≤ since ∧ since ≤ time (m + 1) ∧ time (m + 1) ≤ T + period ∧
    r.state (m + 1) = { (r.state m) with sink := (r.state m).sink.tick since now }

/-- At any time, all that is to be done by the goroutines other than the sender is done after this delay. -/
def Execution.Responsive (r : Execution conv k) (time : Nat → Time) (delay : Time) : Prop :=
  ∀ n, ∃ q, n ≤ q ∧ time q ≤ time n + delay ∧ ¬ (r.state q).Pending

/-- Whenever there is a batch to be sent, a call of the transport returns after at most this time. -/
def Execution.SendsIn (r : Execution conv k) (time : Nat → Time) (limit : Time) : Prop :=
  ∀ n, (r.state n).sending ≠ none ∨ (r.state n).sink.sink.grouped ≠ [] → ∃ m, n ≤ m ∧ time (m + 1) ≤ time n + limit ∧ (r.state m).SenderSends (r.state (m + 1))

end Verif
