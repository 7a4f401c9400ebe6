import Verif.Model.System

/-!
# Which goroutine accesses which memory
-/

namespace Verif

/-- The goroutines behind the collector. -/
inductive Actor
  | forwarder
  | sink
  | viewer
  | sender
deriving DecidableEq

/-- A place in memory: a span in an array, or a `tracer.Span` of the sink. -/
inductive Place
  | span (addr index : Nat)
  | report (pointer : Nat)
deriving DecidableEq

/-- The pointers of a batch. -/
def ByTrace.points (b : ByTrace) (p : Nat) : Prop := ∃ (key : UInt64) (ptrs : List Nat), b[key]? = some ptrs ∧ p ∈ ptrs

variable {κ : Type}

/-- What a goroutine may write until its next operation on a channel: the forwarder, which can take the next trace, every place of its array; the sink, which works on a trace,
every `tracer.Span` that it did not use yet. -/
inductive System.Writes (s : System κ) : Actor → Place → Prop
  | convert {r : SliceRef} {rest : List SliceRef} {i : Nat} : s.forwarder.source = r :: rest → s.forwarder.sending = none → Writes s .forwarder (.span r.addr i)
  | report {r : SliceRef} {p : Nat} : s.sinkBusy = some r → s.sink.sink.free ≤ p → Writes s .sink (.report p)

/-- What a goroutine may read until its next operation on a channel. -/
inductive System.Reads (s : System κ) : Actor → Place → Prop
  | convert {r : SliceRef} {rest : List SliceRef} {i : Nat} : s.forwarder.source = r :: rest → s.forwarder.sending = none → Reads s .forwarder (.span r.addr i)
  | sink {r : SliceRef} {i : Nat} : s.sinkBusy = some r → Reads s .sink (.span r.addr i)
  | viewer {r : SliceRef} {i : Nat} : s.ringBusy = some r → Reads s .viewer (.span r.addr i)
  | sender {b : ByTrace} {p : Nat} : s.sending = some b → b.points p → Reads s .sender (.report p)

/-- What is in a channel, or in the hands of the forwarder or the sink, to be read by another goroutine later. -/
inductive System.Waits (s : System κ) : Place → Prop
  | passing {r : SliceRef} {j i : Nat} : s.forwarder.sending = some (r, j) → Waits s (.span r.addr i)
  | queue {q : List SliceRef} {r : SliceRef} {i : Nat} : q ∈ s.forwarder.queues → r ∈ q → Waits s (.span r.addr i)
  | batch {p : Nat} : s.sink.sink.byTrace.points p → Waits s (.report p)
  | grouped {b : ByTrace} {p : Nat} : b ∈ s.sink.sink.grouped → b.points p → Waits s (.report p)

/-- The place has this content. -/
inductive System.Holds (s : System κ) : Place → Span ⊕ DDSpan → Prop
  | span {addr i : Nat} {cells : List Span} {x : Span} : s.forwarder.heap[addr]? = some cells → cells[i]? = some x → Holds s (.span addr i) (.inl x)
  | report {p : Nat} {d : DDSpan} : s.sink.sink.memory[p]? = some d → Holds s (.report p) (.inr d)

end Verif
