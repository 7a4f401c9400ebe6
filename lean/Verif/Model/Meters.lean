import Verif.Model.Collector
import Verif.Model.Balance

/-!
# Two more metrics: `spans.merged` (correct.go) and `kafka.span.size` (balance/encoder.go)

`mergeSpansInPlace` marks the first one, and it is called by `AddSpan` only. `AddSpan` is called for a span that is received and for a fake root.

The counter that decides which sizes get into the histogram is shared by all encoders and incremented atomically; the model executes the calls of `Encode` one after the other, as
`Pool.Step` does. The histogram keeps a random sample of its values (the library); here are all values that it gets.
-/

namespace Verif

/-- correct.go:81-97 and 548: how often the meter is marked by `AddSpan`. -/
def Tree.addSpanMerges (t : Tree) (new : Span) : Nat :=
  match getSpanRef t.spans new.id with
  | none => 0
  | some _ => 1

/-- correct.go:176-192. -/
def Collector.receiveMerges (c : Collector) (now1 : Time) (span : Span) : Nat :=
  if span.trace = 0 ∨ span.id = 0 then 0
  else if c.blacklist.contains span.trace then 0
  else ((c.traces[span.trace]?).getD (newTree now1 span.trace)).addSpanMerges span

/-- correct.go:258-266. -/
def withFakeRootMerges (t : Tree) : Nat :=
  match pick t.spans (roots t.spans) with
  | first :: second :: rest => if allTheSameParent (first :: second :: rest) then t.addSpanMerges (createFakeRoot first (second :: rest)) else 0
  | _ => 0

/-- correct.go:227-285: one iteration of the loop of `finishTraces`. -/
def finishMerges (deadlineUpdate deadlineStarted : Time) (e : Id × Tree) : Nat :=
  let traceTooLarge := e.2.tooLarge
  let updatedRecently := decide (e.2.updated > deadlineUpdate)
  let traceTooOld := decide (e.2.started < deadlineStarted)
  if !traceTooLarge && !traceTooOld && updatedRecently then 0
  else if traceTooLarge then 0
  else if traceTooOld then 0
  else withFakeRootMerges e.2

/-- correct.go:200-306 `finishTraces`. -/
def Collector.tickMerges (c : Collector) (i : TickInput) : Nat :=
  let bt := bufferTime (spanCountOf c.traces.toList)
  (i.order.map (finishMerges (i.now1 - bt) (i.now2 - 5 * bt))).sum

/-- The histories of the collector, with the count of the meter. -/
inductive Metered : World → Nat → Prop
  | init (now : Time) : Metered { clock := now } 0
  | receive {w : World} {n : Nat} (now1 now2 : Time) (s : Span) : Metered w n → w.clock ≤ now1 → now1 ≤ now2 →
      Metered (w.receive now1 now2 s) (n + w.c.receiveMerges now1 s)
  | tick {w : World} {n : Nat} (i : TickInput) : Metered w n → i.Valid w.c → w.clock ≤ i.now1 → Metered (w.tick i) (n + w.c.tickMerges i)

/-- balance/encoder.go:13 `metricSampleCounter`, and the values given to the histogram so far. -/
structure SizeMeter where
  counter : UInt64 := 0
  samples : List Nat := []

/-- balance/encoder.go:66-68. -/
def SizeMeter.count (m : SizeMeter) (len : Nat) : SizeMeter :=
  let counter := m.counter + 1
  { counter := counter, samples := if counter % 128 = 0 then m.samples ++ [len] else m.samples }

/-- The histories of the pool, with the histogram. The length of the buffer is that of the slice for the value (line 70). -/
inductive Sampled : Pool → SizeMeter → Prop
  | init : Sampled {} {}
  | new {p : Pool} {m : SizeMeter} : Sampled p m → Sampled { p with encoders := p.encoders ++ [{}] } m
  | encode {p : Pool} {m : SizeMeter} {j : Nat} {enc enc' : Encoder} {span : Span} {ord : List (Str × Str)} {h : Heap} {msg : Message} : Sampled p m →
      p.encoders[j]? = some enc → encode p.heap enc span ord = some (h, enc', msg) →
      Sampled { heap := h, encoders := p.encoders.set j enc', sent := p.sent ++ [(span, ord, msg)] } (m.count (h.deref msg.value).length)

end Verif
