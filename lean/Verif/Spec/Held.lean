import Verif.Model.System

/-!
# How many spans the proxy holds
-/

namespace Verif

/-- The number of spans in a batch. -/
def ByTrace.weight (b : ByTrace) : Nat := (b.toList.map fun e => e.2.length).sum

/-- The length of the array that this slice keeps alive. -/
def SpanHeap.cells (h : SpanHeap) (r : SliceRef) : Nat := (h.getD r.addr []).length

/-- The lengths of the arrays that these slices keep alive. -/
def SpanHeap.cellsOf (h : SpanHeap) (l : List SliceRef) : Nat := (l.map h.cells).sum

variable {κ : Type}

/-- The spans in the trees of the collector. -/
def System.collected (s : System κ) : Nat := (s.world.c.traces.toList.map fun e => e.2.spans.length).sum

/-- The spans of the traces that the collector finished and did not send yet. -/
def System.leaving (s : System κ) : Nat := (s.outbox.map List.length).sum

/-- The spans in all channels and in the goroutines behind the collector: the channel `httpInputSpans`; the channel `processedSpans`, the trace that is being forwarded, the
channels of the targets and the traces they work on; the admin buffer; the batch of the sink, the channel of batches and the batch that is being sent. -/
def System.onTheWay (s : System κ) : Nat :=
  s.http.channel.length
  + (s.forwarder.heap.cellsOf s.forwarder.source + s.forwarder.heap.cellsOf (s.forwarder.sending.map Prod.fst).toList
    + s.forwarder.heap.cellsOf s.forwarder.queues.flatten + s.forwarder.heap.cellsOf s.sinkBusy.toList + s.forwarder.heap.cellsOf s.ringBusy.toList)
  + s.ring.spans.length
  + (s.sink.sink.byTrace.weight + (s.sink.sink.grouped.map ByTrace.weight).sum + (s.sending.toList.map ByTrace.weight).sum)

/-- No trace had 65536 spans at once: the counter of a trace did not overflow. -/
structure World.Fits (w : World) : Prop where
  pending : ∀ (k : Id) (t : Tree), w.c.traces[k]? = some t → t.spans.length < 65536
  removed : ∀ r ∈ w.removed, r.tree.spans.length < 65536

/-- A run to `s`: after the tick of the collector before the last one `a` spans were received, after the last one `b`. (0, if there was none.) -/
inductive System.Marks {κ : Type} (conv : κ → Span → Option Span × κ) (k : κ) : Nat → Nat → System κ → Prop
  | init (now : Time) : Marks conv k 0 0 (System.init k now)
  | request {a b : Nat} {s : System κ} (o : Parsed) : Marks conv k a b s → Marks conv k a b { s with http := { s.http with conns := s.http.conns ++ [Conn.start o] } }
  | step {a b : Nat} {s s' : System κ} : Marks conv k a b s → s.Step conv s' → Marks conv k a b s'
  | event {a b : Nat} {s s' : System κ} : Marks conv k a b s → s.Event s' → s'.world = s.world → Marks conv k a b s'
  | tick {a b : Nat} {s : System κ} (i : TickInput) : Marks conv k a b s → s.outbox = [] → i.Valid s.world.c → s.world.clock ≤ i.now1 →
      Marks conv k b s.world.received.length { s with world := s.world.tick i, outbox := emittedOf (s.world.c.tick i).2 }

end Verif
