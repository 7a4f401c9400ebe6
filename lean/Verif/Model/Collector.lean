import Verif.Model.Tree

/-!
# correct.go: the collector goroutine `ErrorCorrectSpans`

One `select` round of the goroutine is one step: receiving a span or a tick. Clock readings and map
iteration orders are arguments of the steps. The goroutine owns its state, so a blocking send on the
output channel only delays it: a tick yields the list of traces it sends, in order.
Simplification: `int` counters of spans are unbounded.
-/

namespace Verif

/-- correct.go:26-54: the meters and gauges written by the collector (all but `spans.merged`, see `Model/Meters.lean`). -/
structure Metrics where
  tracesFinished : Nat := 0
  tracesFinishedSize : List Nat := []
  tracesWithoutRoot : Nat := 0
  tracesTooLarge : Nat := 0
  tracesTooOld : Nat := 0
  tracesInflight : Nat := 0
  tracesCorrected : Nat := 0
  tracesDiscarded : Nat := 0
  spansDiscarded : Nat := 0
  spansInflight : Nat := 0
  receivedBlacklistedSpan : Nat := 0

/-- correct.go:159, 165: the local variables of `ErrorCorrectSpans`, and the metrics. The map `traces`
holds pointers to trees that nobody else has; the model holds the trees themselves. -/
structure Collector where
  traces : Std.ExtTreeMap Id Tree := ∅
  blacklist : Std.ExtTreeMap Id Unit := ∅
  metrics : Metrics := {}

/-- correct.go:14 `maxSpans`. -/
def maxSpans : Nat := 100000

/-- correct.go:206, 227 `traceTooLarge` (a comparison of `uint16`). -/
def Tree.tooLarge (t : Tree) : Bool := decide (t.nodeCount > 8 * 1024)

/-- correct.go:16-24 `bufferConfigs`; `time.Second` is 10^9 nanoseconds. -/
def bufferConfigs : List (Nat × Time) :=
  [(0, 8 * 1000000000), (40000, 6 * 1000000000), (60000, 4 * 1000000000), (80000, 2 * 1000000000)]

/-- correct.go:213-219. -/
def bufferTime (spanCount : Nat) : Time :=
  bufferConfigs.foldl (fun bt config => if spanCount ≥ config.1 then config.2 else bt) 0

/-- correct.go:201-211; the order of the iteration does not matter for a sum. -/
def spanCountOf (l : List (Id × Tree)) : Nat :=
  l.foldl (fun n e => if !e.2.tooLarge then n + e.2.nodeCount.toNat else n) 0

/-- correct.go:176-192: what the collector does with a received span. `now1` is the reading of the clock
in `newTree` (if it is called), `now2` the one in `AddSpan`. -/
def Collector.receive (c : Collector) (now1 now2 : Time) (span : Span) : Collector :=
  if span.trace = 0 ∨ span.id = 0 then c
  else if c.blacklist.contains span.trace then
    { c with metrics := { c.metrics with receivedBlacklistedSpan := c.metrics.receivedBlacklistedSpan + 1 } }
  else
    let trace := (c.traces[span.trace]?).getD (newTree now1 span.trace)
    { c with traces := c.traces.insert span.trace (trace.addSpan now2 span) }

/-- What happened to a trace that left the collector. `stuck` stands for a timing correction that does
not return. -/
inductive Fate
  | tooLarge
  | tooOld
  | noRoot
  | discarded
  | stuck
  | emitted (spans : List Span)

/-- A trace that left the collector: its id, the tree when it was removed (before a fake root is added),
and what happened to it. (A record for the statements; the code has no such type.) -/
structure Removal where
  id : Id
  tree : Tree
  fate : Fate

/-- correct.go:258-266: injection of a fake root. -/
def withFakeRoot (nowFake : Time) (t : Tree) : Tree :=
  match pick t.spans (roots t.spans) with
  | first :: second :: rest =>
    if allTheSameParent (first :: second :: rest) then
      t.addSpan nowFake (createFakeRoot first (second :: rest))
    else t
  | _ => t

/-- correct.go:257-282: what happens to a trace that is neither too large nor too old. -/
def finishTree (nowFake : Time) (t : Tree) : Fate :=
  let t := withFakeRoot nowFake t
  match roots t.spans with
  | [r] =>
    match correctTree t.spans.length { spans := t.spans } r none 0 with
    | some st => .emitted st.spans
    | none => .stuck
  | _ => .noRoot

/-- correct.go:227-285: one iteration of the loop of `finishTraces`. The accumulated list has the
removed traces, in order. -/
def finishOne (deadlineUpdate deadlineStarted : Time) (nowFake : Id → Time)
    (st : Collector × List Removal) (e : Id × Tree) : Collector × List Removal :=
  let c := st.1
  let traceID := e.1
  let trace := e.2
  let traceTooLarge := trace.tooLarge
  let updatedRecently := decide (trace.updated > deadlineUpdate)
  let traceTooOld := decide (trace.started < deadlineStarted)
  if !traceTooLarge && !traceTooOld && updatedRecently then st
  else
    let m := { c.metrics with tracesFinishedSize := c.metrics.tracesFinishedSize ++ [trace.nodeCount.toNat] }
    let c := { c with traces := c.traces.erase traceID, metrics := m }
    if traceTooLarge then
      ({ c with blacklist := c.blacklist.insert traceID ()
                metrics := { m with tracesTooLarge := m.tracesTooLarge + 1 } },
       st.2 ++ [⟨traceID, trace, .tooLarge⟩])
    else if traceTooOld then
      ({ c with blacklist := c.blacklist.insert traceID ()
                metrics := { m with tracesTooOld := m.tracesTooOld + 1 } },
       st.2 ++ [⟨traceID, trace, .tooOld⟩])
    else
      match finishTree (nowFake traceID) trace with
      | .emitted spans =>
        ({ c with metrics :=
            { m with tracesCorrected := m.tracesCorrected + 1, tracesFinished := m.tracesFinished + 1 } },
         st.2 ++ [⟨traceID, trace, .emitted spans⟩])
      | .noRoot =>
        ({ c with metrics := { m with tracesWithoutRoot := m.tracesWithoutRoot + 1 } },
         st.2 ++ [⟨traceID, trace, .noRoot⟩])
      | fate => (c, st.2 ++ [⟨traceID, trace, fate⟩])

/-- correct.go:395-399: the number of spans in all trees. -/
def totalNodes (l : List (Id × Tree)) : Int :=
  l.foldl (fun n e => n + e.2.nodeCount.toNat) 0

/-- correct.go:413-427: the loop of `discardSuspiciousTraces` over the sorted traces. The last two
components count the discarded spans and traces (`discardSpanCount`, `discardTraceCount`). -/
def discardLoop : List (Id × Tree) → (spanCount : Int) → Collector → List Removal → Nat → Nat →
    Collector × List Removal × Nat × Nat
  | [], _, c, rem, ds, dt => (c, rem, ds, dt)
  | (id, tree) :: rest, spanCount, c, rem, ds, dt =>
    if spanCount < maxSpans then (c, rem, ds, dt)
    else
      discardLoop rest (spanCount - tree.nodeCount.toNat) { c with traces := c.traces.erase id }
        (rem ++ [⟨id, tree, .discarded⟩]) (ds + tree.nodeCount.toNat) (dt + 1)

/-- correct.go:387-433 `discardSuspiciousTraces`; `sorted` is the result of `sort.Slice`. Both meters
are marked with the number of spans, as in the code (lines 429 and 430). -/
def discardSuspicious (sorted : List (Id × Tree)) (c : Collector) : Collector × List Removal :=
  let spanCount := totalNodes c.traces.toList
  if spanCount < maxSpans then (c, [])
  else
    let r := discardLoop sorted spanCount c [] 0 0
    let discardSpanCount := r.2.2.1
    ({ r.1 with metrics :=
        { r.1.metrics with
          spansDiscarded := r.1.metrics.spansDiscarded + discardSpanCount
          tracesDiscarded := r.1.metrics.tracesDiscarded + discardSpanCount } }, r.2.1)

/-- correct.go:299-305: trimming of the blacklist. -/
def trimBlacklist : List (Id × Unit) → Std.ExtTreeMap Id Unit → Std.ExtTreeMap Id Unit
  | [], bl => bl
  | (id, _) :: rest, bl => if bl.size < 1024 then bl else trimBlacklist rest (bl.erase id)

/-- What the environment decides during a tick: the clock readings (lines 223, 224 and in `AddSpan` of a
fake root), and the orders of line 226, of `sort.Slice` (407) and of line 299. -/
structure TickInput where
  now1 : Time
  now2 : Time
  nowFake : Id → Time
  order : List (Id × Tree)
  sorted : List (Id × Tree)
  blOrder : List (Id × Unit)

/-- correct.go:200-285: the counting and the loop over the traces. -/
def Collector.finishLoop (c : Collector) (i : TickInput) : Collector × List Removal :=
  let bt := bufferTime (spanCountOf c.traces.toList)
  i.order.foldl (finishOne (i.now1 - bt) (i.now2 - 5 * bt) i.nowFake) (c, [])

/-- correct.go:287-295: gauges, load shedding. -/
def Collector.shed (c : Collector) (i : TickInput) : Collector × List Removal :=
  let spanCount := spanCountOf c.traces.toList
  let r := c.finishLoop i
  let c' := { r.1 with metrics :=
    { r.1.metrics with spansInflight := spanCount, tracesInflight := r.1.traces.size } }
  if spanCount > maxSpans then
    let d := discardSuspicious i.sorted c'
    (d.1, r.2 ++ d.2)
  else (c', r.2)

/-- correct.go:200-306 `finishTraces`. -/
def Collector.tick (c : Collector) (i : TickInput) : Collector × List Removal :=
  let r := c.shed i
  ({ r.1 with blacklist := trimBlacklist i.blOrder r.1.blacklist }, r.2)

/-- The inputs of a tick that can occur: every map is iterated over in some order of its entries,
`sort.Slice` gives a permutation without an inversion, and the clock is monotonic. -/
structure TickInput.Valid (i : TickInput) (c : Collector) : Prop where
  order : IsRange i.order c.traces
  sorted : IsRange i.sorted (c.finishLoop i).1.traces
  desc : i.sorted.Pairwise (fun a b => a.2.nodeCount ≥ b.2.nodeCount)
  blOrder : IsRange i.blOrder (c.shed i).1.blacklist
  clock : i.now1 ≤ i.now2

/-- The traces sent to the output channel, in order. -/
def emittedOf (l : List Removal) : List (List Span) :=
  l.filterMap fun r => match r.fate with
    | .emitted spans => some spans
    | _ => none

/-- The collector with its history: all spans received, the ones that were refused because of the
blacklist, everything that left, and the latest clock reading. -/
structure World where
  c : Collector := {}
  received : List Span := []
  refused : List Span := []
  removed : List Removal := []
  clock : Time

/-- A span is received. -/
def World.receive (w : World) (now1 now2 : Time) (s : Span) : World :=
  { w with
    c := w.c.receive now1 now2 s
    received := w.received ++ [s]
    refused := if ¬ (s.trace = 0 ∨ s.id = 0) ∧ w.c.blacklist.contains s.trace then w.refused ++ [s] else w.refused
    clock := now2 }

/-- A tick. -/
def World.tick (w : World) (i : TickInput) : World :=
  let r := w.c.tick i
  { w with c := r.1, removed := w.removed ++ r.2, clock := i.now2 }

/-- correct.go:158-198: every history of the collector, from its start at any time. -/
inductive Reachable : World → Prop
  | init (now : Time) : Reachable { clock := now }
  | receive {w : World} (now1 now2 : Time) (s : Span) : Reachable w → w.clock ≤ now1 → now1 ≤ now2 →
      Reachable (w.receive now1 now2 s)
  | tick {w : World} (i : TickInput) : Reachable w → i.Valid w.c → w.clock ≤ i.now1 → Reachable (w.tick i)

end Verif
