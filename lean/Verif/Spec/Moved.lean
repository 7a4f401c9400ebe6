import Verif.Spec.Recovery
import Verif.Spec.Pieces

/-!
# Traces while partitions move from proxy to proxy
-/

namespace Verif

open Spec

variable {κ : Type} {conv : κ → Span → Option Span × κ} {k : κ} {part : List UInt8 → Nat}

/-- Before, nothing of this trace was posted to a proxy, nor written to the topic by others. -/
def Recovery.New (r : Recovery conv k part) (t : Id) : Prop :=
  ∃ outcomes foreign, Cluster.Reachable conv k part outcomes foreign (r.state 0) ∧ ∀ x, FromTopic outcomes foreign x → x.trace ≠ t

/-- From now on, nobody but the proxies writes something of this trace to the topic. -/
def Recovery.ClosedFor (r : Recovery conv k part) (t : Id) : Prop :=
  ∀ n p v x, r.state (n + 1) = { r.state n with topic := appendTopic (r.state n).topic p v } → decodeKafkaMessage v = some x → x.trace ≠ t

/-- The spans of a trace in all requests to all proxies that were accepted from now on. -/
def Recovery.posted (r : Recovery conv k part) (t : Id) (n : Nat) : List Span :=
  spansOfTrace t (acceptedSpans ((List.range (r.state 0).instances.length).flatMap (r.requests n)))

end Verif
