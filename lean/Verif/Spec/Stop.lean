import Verif.Spec.Timely
import Verif.Model.Cluster

/-!
# The end of the process

main.go:183-195: when `Serve` returns, `MainWithRouting` runs its deferred functions (profiling, and closing the consumer group, C71) and returns; then the process ends. It waits for no other goroutine, and nothing
else is closed or flushed. So what the channels, the collector, and the sink hold at that time is gone: of a state, there remain the answers and the calls of the transport.
-/

namespace Verif

open Spec

variable {κ : Type} {conv : κ → Span → Option Span × κ} {k : κ}

/-- What remains of a proxy. -/
structure Remains where
  answers : List (Option Nat)
  calls : List (List (List DDSpan))

def System.stop (s : System κ) : Remains where
  answers := s.http.conns.map fun
    | .answered code => some code
    | _ => none
  calls := s.sent

/-- The trace, converted, is as a whole in a call of the transport. -/
def Remains.Has (x : Remains) (trace : List Span) : Prop := ∃ chunk, trace <:+: chunk ∧ ∃ call ∈ x.calls, Call chunk call

/-- The trace was in a batch that was discarded because eight others were waiting. -/
def System.Discarded (s : System κ) (trace : List Span) : Prop :=
  ∃ (chunks : List (List Span)) (current : List Span) (i : Nat) (chunk : List Span) (b : ByTrace), Partition s.sink chunks current ∧ chunks[i]? = some chunk ∧ trace <:+: chunk ∧
    s.sink.log[i]? = some (false, b)

end Verif
