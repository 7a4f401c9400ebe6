import Verif.Spec.Sink

/-!
# The memory that the sink keeps alive

Spans for Datadog are made 4096 at a time (`make([]tracer.Span, 4*1024)`). In Go such a block stays in memory as long as there is a pointer to any of its spans.
-/

namespace Verif.Spec

/-- This batch has a pointer to a span of the n-th block. -/
def Touches (b : ByTrace) (n : Nat) : Prop := ∃ (key : UInt64) (ptrs : List Nat), b[key]? = some ptrs ∧ ∃ p ∈ ptrs, 4096 * n ≤ p ∧ p < 4096 * (n + 1)

/-- The batches that somebody still refers to: the one that is collected, those in the channel, and the one the sender took last. -/
def liveBatches (w : SinkRun) : List ByTrace := w.sink.byTrace :: (w.sink.grouped ++ w.handed.getLast?.toList)

/-- The n-th block cannot be freed: it is the one of which the free spans are taken, or some batch has a pointer to it. -/
def LiveBlock (w : SinkRun) (n : Nat) : Prop := 4096 * (n + 1) = w.sink.memory.length ∨ ∃ b ∈ liveBatches w, Touches b n

end Verif.Spec
