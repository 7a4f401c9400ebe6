import Verif.Model.Collector

/-!
# How much the collector does

The same loops as in `Model/Tree.lean` and `Model/Collector.lean`, counting: calls, iterations, the elements of a slice that are moved (`append` counts as if it always
had to copy the slice), and the tags that are set. Not counted: what `sort.Slice` does, the printing of traces (only with the debug log), waiting for the channels.
-/

namespace Verif

/-- The iterations of `sort.Search`. -/
def sortSearchSteps (f : Nat → Bool) (i j : Nat) : Nat :=
  if h : i < j then
    let m := (i + j) / 2
    1 + if !f m then sortSearchSteps f (m + 1) j else sortSearchSteps f i m
  else 0
termination_by j - i
decreasing_by all_goals omega

/-- correct.go:553-563 `GetSpanRef`. -/
def getSpanRefSteps (spans : List Span) (spanId : Id) : Nat := 1 + sortSearchSteps (idAtLeast spans spanId) 0 spans.length

/-- correct.go:565-573 `Append`: the search, the growth of the slice, and the spans behind the new one. -/
def spansAppendSteps (spans : List Span) (span : Span) : Nat :=
  1 + sortSearchSteps (idAtLeast spans span.id) 0 spans.length + spans.length + (spans.length - sortSearch spans.length (idAtLeast spans span.id))

/-- correct.go:490-549 `mergeSpansInPlace`: the tags that are set. -/
def mergeSpansSteps (upd new : Span) : Nat :=
  1 + if tsIsValid new.timings.SR || tsIsValid new.timings.SS then (tagsList new.tags).length
    else (tagsList new.tags).length + (tagsList upd.tags).length

/-- correct.go:81-97 `AddSpan`. -/
def Tree.addSpanSteps (t : Tree) (new : Span) : Nat :=
  getSpanRefSteps t.spans new.id +
    match getSpanRef t.spans new.id with
    | none => spansAppendSteps t.spans new
    | some idx =>
      match t.spans[idx]? with
      | some upd => mergeSpansSteps upd new
      | none => 0

/-- correct.go:176-192. -/
def Collector.receiveSteps (c : Collector) (now1 : Time) (span : Span) : Nat :=
  if span.trace = 0 ∨ span.id = 0 then 1
  else if c.blacklist.contains span.trace then 1
  else 1 + ((c.traces[span.trace]?).getD (newTree now1 span.trace)).addSpanSteps span

/-- correct.go:120-130 `ChildrenOf`. -/
def childrenOfSteps (spans : List Span) : Nat := spans.length

/-- correct.go:132-156 `Roots`: two loops over the spans. -/
def rootsSteps (spans : List Span) : Nat := 1 + spans.length + spans.length

/-- correct.go:332-340 `allTheSameParent`: it returns at the first span with another parent. -/
def sameParentSteps (parent : Id) : List Span → Nat
  | [] => 0
  | s :: rest => 1 + if parent == s.parent then sameParentSteps parent rest else 0

/-- correct.go:435-488 `correctTreeTimings`: each call, and what `ChildrenOf` looks at. -/
def correctSteps : (fuel : Nat) → CorrectState → (node : Nat) → (parent : Option Nat) → Duration → Nat
  | 0, _, _, _, _ => 0
  | fuel + 1, st, node, parent, offset =>
    match st.spans[node]? with
    | none => 0
    | some n =>
      let pstart := parent.bind fun p => (st.spans[p]?).map (·.timestamp)
      let r := correctNode n pstart offset
      let st : CorrectState := { spans := st.spans.set node r.1, visits := node :: st.visits }
      1 + childrenOfSteps st.spans +
        ((childrenOf st.spans r.1.id).foldl (fun (x : Option CorrectState × Nat) child =>
          match x.1 with
          | none => x
          | some st => (correctTree fuel st child (some node) r.2, x.2 + correctSteps fuel st child (some node) r.2)) (some st, 0)).2

/-- correct.go:257-266: the roots, and the injection of a fake root. -/
def withFakeRootSteps (nowFake : Time) (t : Tree) : Nat :=
  rootsSteps t.spans +
    match pick t.spans (roots t.spans) with
    | first :: second :: rest =>
      sameParentSteps first.parent (first :: second :: rest) +
        if allTheSameParent (first :: second :: rest) then
          let root := createFakeRoot first (second :: rest)
          (second :: rest).length + t.addSpanSteps root + rootsSteps (t.addSpan nowFake root).spans
        else 0
    | _ => 0

/-- correct.go:257-282. -/
def finishTreeSteps (nowFake : Time) (t : Tree) : Nat :=
  withFakeRootSteps nowFake t +
    let t := withFakeRoot nowFake t
    match roots t.spans with
    | [r] => correctSteps t.spans.length { spans := t.spans } r none 0
    | _ => 0

/-- correct.go:227-285: one iteration of the loop of `finishTraces`. -/
def finishOneSteps (deadlineUpdate deadlineStarted : Time) (nowFake : Id → Time) (e : Id × Tree) : Nat :=
  let traceTooLarge := e.2.tooLarge
  let updatedRecently := decide (e.2.updated > deadlineUpdate)
  let traceTooOld := decide (e.2.started < deadlineStarted)
  1 + if !traceTooLarge && !traceTooOld && updatedRecently then 0
    else if traceTooLarge then 0
    else if traceTooOld then 0
    else finishTreeSteps (nowFake e.1) e.2

/-- correct.go:413-427. -/
def discardSteps : List (Id × Tree) → (spanCount : Int) → Nat
  | [], _ => 0
  | (_, tree) :: rest, spanCount => 1 + if spanCount < maxSpans then 0 else discardSteps rest (spanCount - tree.nodeCount.toNat)

/-- correct.go:387-433 `discardSuspiciousTraces`: the loop over the map, and the one over the sorted traces. -/
def discardSuspiciousSteps (sorted : List (Id × Tree)) (c : Collector) : Nat :=
  let spanCount := totalNodes c.traces.toList
  1 + c.traces.size + if spanCount < maxSpans then 0 else discardSteps sorted spanCount

/-- correct.go:299-305. -/
def trimSteps : List (Id × Unit) → Std.ExtTreeMap Id Unit → Nat
  | [], _ => 0
  | (id, _) :: rest, bl => 1 + if bl.size < 1024 then 0 else trimSteps rest (bl.erase id)

/-- correct.go:200-306 `finishTraces`. -/
def Collector.tickSteps (c : Collector) (i : TickInput) : Nat :=
  let spanCount := spanCountOf c.traces.toList
  let bt := bufferTime spanCount
  1 + c.traces.size + bufferConfigs.length + (i.order.map (finishOneSteps (i.now1 - bt) (i.now2 - 5 * bt) i.nowFake)).sum +
    (if spanCount > maxSpans then discardSuspiciousSteps i.sorted (c.finishLoop i).1 else 0) + trimSteps i.blOrder (c.shed i).1.blacklist

end Verif
