import Verif.Spec.FairCluster
import Verif.Spec.Intact

/-!
# A trace that is posted in pieces to several proxies
-/

namespace Verif

open Spec

variable {κ : Type} {conv : κ → Span → Option Span × κ} {k : κ} {part : List UInt8 → Nat} {assignment : List (List Nat)}

/-- Only the proxies write to the topic: it never grows while no proxy does anything. -/
def ClusterExecution.Closed (r : ClusterExecution conv k part assignment) : Prop :=
  ∀ n p v, r.state (n + 1) ≠ { r.state n with topic := appendTopic (r.state n).topic p v }

/-- The spans of a trace in all requests to all proxies that were accepted so far. -/
def ClusterExecution.posted (r : ClusterExecution conv k part assignment) (t : Id) (n : Nat) : List Span :=
  spansOfTrace t (acceptedSpans ((List.range assignment.length).flatMap (r.requests n)))

/-- Behind Kafka, the sender to Datadog gets its turns, … -/
structure System.SenderFairSeq (s : Nat → System κ) : Prop where
  take : Weakly (fun n => ∃ s', (s n).SenderTakes s') fun n => (s n).SenderTakes (s (n + 1))
  send : Weakly (fun n => ∃ s', (s n).SenderSends s') fun n => (s n).SenderSends (s (n + 1))

/-- … and the sink gets ticks, again and again. -/
def System.SinkTicksAgain (s : Nat → System κ) : Prop :=
  ∀ (n : Nat) (T : Time), ∃ (m : Nat) (since now : Time), n ≤ m ∧ T ≤ since ∧ (s m).sinkBusy = none ∧ s (m + 1) = { (s m) with sink := (s m).sink.tick since now }

end Verif
