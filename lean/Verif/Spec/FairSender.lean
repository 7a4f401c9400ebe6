import Verif.Spec.Fair
import Verif.Spec.Sink

/-!
# Infinite executions in which also the sender to Datadog is not forgotten
-/

namespace Verif

open Spec

variable {κ : Type} {conv : κ → Span → Option Span × κ} {k : κ}

/-- The sender takes a batch. -/
inductive System.SenderTakes : System κ → System κ → Prop
  | mk {s : System κ} {b : ByTrace} {k : Sink} : s.sending = none → s.sink.sink.takeBatch = some (b, k) →
      SenderTakes s { s with sending := some b, sink := { s.sink with sink := k, handed := s.sink.handed ++ [b] } }

/-- The sender sends it: `SendTraces` returns, with an error or without. -/
inductive System.SenderSends : System κ → System κ → Prop
  | mk {s : System κ} {b : ByTrace} {range : List (UInt64 × List Nat)} : s.sending = some b → IsRange range b →
      SenderSends s { s with sending := none, sent := s.sent ++ (submitBatch s.sink.sink.memory range).toList }

/-- The sender takes what waits for it; every call of the transport returns. -/
structure Execution.SenderFair (r : Execution conv k) : Prop where
  take : ∀ n, ∃ m, n ≤ m ∧ (¬ (∃ s', (r.state m).SenderTakes s') ∨ (r.state m).SenderTakes (r.state (m + 1)))
  send : ∀ n, ∃ m, n ≤ m ∧ (¬ (∃ s', (r.state m).SenderSends s') ∨ (r.state m).SenderSends (r.state (m + 1)))

/-- The sink gets ticks, again and again, and the clock goes on. -/
def Execution.SinkTicks (r : Execution conv k) : Prop :=
  ∀ (n : Nat) (T : Time), ∃ (m : Nat) (since now : Time), n ≤ m ∧ T ≤ since ∧ (r.state m).sinkBusy = none ∧
    r.state (m + 1) = { (r.state m) with sink := (r.state m).sink.tick since now }

/-- The chunks whose batches were put into the channel to the sender, and not discarded. -/
def acceptedOf : List (List Span) → List (Bool × ByTrace) → List (List Span)
  | c :: cs, (true, _) :: l => c :: acceptedOf cs l
  | _ :: cs, (false, _) :: l => acceptedOf cs l
  | [], _ => []
  | _ :: _, [] => []

/-- The calls of the transport so far are for the accepted chunks, in order. -/
def SentFits (sent : List (List (List DDSpan))) (accepted : List (List Span)) : Prop :=
  ∀ (i : Nat) (call : List (List DDSpan)), sent[i]? = some call → ∃ chunk, accepted[i]? = some chunk ∧ Call chunk call

end Verif
