import Verif.Model.Collector
import Verif.Model.Sink
import Verif.Model.Encode

/-!
# The log lines of the collector and of the sink (correct.go, datadog/converter.go)

The lines at the levels `Warn` and `Info`; those at the level `Debug` are not written unless the log level is changed (the trees that are printed then: `Model/Debug.lean`). Each
line is its message; time stamp, level and the field `prefix` are added by logrus.

Assumptions about libraries: `%d` of a number is its decimal notation, `%s` of an id calls its method `String` (`idString`).
-/

namespace Verif

/-- `%d` of a number that is not negative. -/
def numberText (n : Nat) : Str := decimalDigits (n + 1) n

/-- correct.go:227-285: what one iteration of the loop of `finishTraces` logs (lines 241 and 250; the other lines have the level `Debug`). -/
def finishLine (deadlineUpdate deadlineStarted : Time) (e : Id × Tree) : List Str :=
  let traceTooLarge := e.2.tooLarge
  let updatedRecently := decide (e.2.updated > deadlineUpdate)
  let traceTooOld := decide (e.2.started < deadlineStarted)
  if !traceTooLarge && !traceTooOld && updatedRecently then []
  else if traceTooLarge then [b!"Trace " ++ idString e.1 ++ b!" with " ++ numberText e.2.nodeCount.toNat ++ b!" nodes is too large."]
  else if traceTooOld then [b!"Trace " ++ idString e.1 ++ b!" with " ++ numberText e.2.nodeCount.toNat ++ b!" nodes is too old"]
  else []

/-- correct.go:387-433: what `discardSuspiciousTraces` logs (lines 411 and 432). -/
def discardLines (sorted : List (Id × Tree)) (c : Collector) : List Str :=
  let spanCount := totalNodes c.traces.toList
  if spanCount < maxSpans then []
  else
    let r := discardLoop sorted spanCount c [] 0 0
    [b!"Need to discard about " ++ numberText (spanCount - maxSpans).toNat ++ b!" spans",
     b!"Too many spans, discarded " ++ numberText r.2.2.2 ++ b!" trace with " ++ numberText r.2.2.1 ++ b!" spans"]

/-- correct.go:200-306: what `finishTraces` logs (line 293 and the above). -/
def Collector.tickLines (c : Collector) (i : TickInput) : List Str :=
  let spanCount := spanCountOf c.traces.toList
  let bt := bufferTime spanCount
  i.order.flatMap (finishLine (i.now1 - bt) (i.now2 - 5 * bt)) ++
    if spanCount > maxSpans then
      (b!"There are currently " ++ numberText spanCount ++ b!" in-flight spans, removing some traces now") :: discardLines i.sorted (c.finishLoop i).1
    else []

/-- datadog/converter.go:138-143: what is logged at a flush. -/
def Sink.flushLines (k : Sink) (flush : Bool) : List Str :=
  if flush ∧ k.spanCount > 0 then
    if k.grouped.length < 8 then []
    else [b!"Discarding " ++ numberText k.byTrace.size ++ b!" traces, sending to datadog would block."]
  else []

/-- datadog/converter.go:72-143: what is logged when a trace is received. -/
def Sink.receiveLines (k : Sink) (trace : List Span) : List Str :=
  let k := trace.foldl Sink.addSpan k
  let k := { k with spanCount := k.spanCount + trace.length }
  k.flushLines (decide (k.spanCount ≥ 1000))

/-- datadog/converter.go:133-143: what is logged at a tick. -/
def Sink.tickLines (k : Sink) (since : Time) : List Str := k.flushLines (k.due since)

/-- datadog/converter.go:25-47: what is logged for one batch, if `DD_LOG_TRACES` is not set. `refused` is the text of the error of the transport, if there is one; it is not part of the
message but a field of the line. -/
def submitLines (range : List (UInt64 × List Nat)) (refused : Option Str) : List Str :=
  let r := range.foldl (fun r e => (r.1 + e.2.length, r.2 + 1)) (0, 0)
  if r.2 > 0 then
    (b!"Sending " ++ numberText r.1 ++ b!" spans in traces " ++ numberText r.2 ++ b!" traces") ::
      if refused.isSome then [b!"Error reporting spans to datadog"] else []
  else []

end Verif
