import Verif.Model.Warnings
import Verif.Model.Debug

/-!
# Everything that a tick of the collector writes to the log, at every level (correct.go)

`Model/Warnings.lean` has the lines of the default level. Here the level of the logger is a parameter. The lines of `debugPrintTrace` are those of `Model/Debug.lean`.

`log` (main.go:26) is an entry, not a logger: `log.Level` is not the level of the logger but that of the line which the entry is used for. An entry made by `logrus.WithField`
has the zero value, `PanicLevel`. Writing a line sets the field in a copy (logrus 1.4.2, `func (entry Entry) log`), so that the entry itself keeps the zero value.

Assumption about the library: a line is written if its level is at most that of the logger.
-/

namespace Verif

/-- `logrus.WarnLevel`, `logrus.DebugLevel`. (`InfoLevel` is 4, `TraceLevel` is 6.) -/
def warnLevel : Nat := 3
def debugLevel : Nat := 5

/-- The field `Level` of `log`. -/
def entryLevel : Nat := 0

/-- A line that is written: a text, or a line of a printed tree. -/
inductive Written
  | text (line : Str)
  | tree (line : LogLine)

/-- `log.Warnf`, for a logger with this level. -/
def warnf (level : Nat) (line : Str) : List Written := if warnLevel ≤ level then [.text line] else []

/-- `log.Debugf`. -/
def debugf (level : Nat) (line : Str) : List Written := if debugLevel ≤ level then [.text line] else []

/-- correct.go:342-385 `debugPrintTrace`: `GetLevel` is the level of the logger. (The recursion is at most seven calls deep, `C72_returns`.) -/
def printTrace (level : Nat) (spans : List Span) : List Written :=
  ((debugPrintTrace (decide (level = debugLevel)) (maxLevel + 1) spans).getD []).map .tree

/-- `fmtFrac` of package time: the fraction `v/10**prec` without trailing zeros, and `v/10**prec` as a whole number. `print` tells whether a digit was written already. -/
def fmtFrac : (prec : Nat) → (print : Bool) → Nat → Str → Str × Nat
  | 0, print, v, s => (if print then c!"." :: s else s, v)
  | prec + 1, print, v, s =>
    let print := print || v % 10 != 0
    fmtFrac prec print (v / 10) (if print then UInt8.ofNat (48 + v % 10) :: s else s)

/-- `Duration.String` of package time. -/
def durationText (d : Int64) : Str :=
  let u := d.toInt.natAbs
  let text :=
    if u < 1000000000 then
      if u = 0 then b!"0s"
      else
        let r :=
          if u < 1000 then fmtFrac 0 false u b!"ns"
          else if u < 1000000 then fmtFrac 3 false u (0xC2 :: 0xB5 :: b!"s")
          else fmtFrac 6 false u b!"ms"
        numberText r.2 ++ r.1
    else
      let r := fmtFrac 9 false u b!"s"
      let s := numberText (r.2 % 60) ++ r.1
      let m := r.2 / 60
      if m > 0 then
        let s := numberText (m % 60) ++ c!"m" :: s
        let h := m / 60
        if h > 0 then numberText h ++ c!"h" :: s else s
      else s
  if d < 0 then c!"-" :: text else text

/-- correct.go:459-463, 480-482: what `correctTreeTimings` writes about one node. `entry` is `log.Level`. -/
def timingLines (entry level : Nat) (node : Span) (parent : Option Span) (offset : Duration) : List Written :=
  let n := if offset ≠ 0 then { node with timestamp := node.timestamp + offset } else node
  let cs := n.timings.CS
  let cr := n.timings.CR
  let ss := n.timings.SS
  let sr := n.timings.SR
  let both := cr ≠ 0 ∧ cs ≠ 0 ∧ sr ≠ 0 ∧ ss ≠ 0
  let screw := (cr + cs) / 2 - (sr + ss) / 2
  let n := if both then { n with timestamp := cs + offset } else n
  (if both then
    if entry ≥ debugLevel then
      if screw < -25000000 ∨ screw > 25000000 then debugf level (b!"Found time screw of " ++ durationText screw ++ b!" for span '" ++ n.name ++ b!"'") else []
    else []
  else []) ++
  match parent with
  | some p =>
    if toMillis n.timestamp < year2020Millis then
      if entry ≥ debugLevel then debugf level (b!"Timestamp of '" ++ n.name ++ b!"' is broken, taking timestamp from parent " ++ p.name) else []
    else []
  | none => []

/-- correct.go:435-488 `correctTreeTimings`, as `correctTree`, with the lines that it writes. -/
def correctTreeW (entry level : Nat) : (fuel : Nat) → CorrectState × List Written → (node : Nat) → (parent : Option Nat) → Duration → Option (CorrectState × List Written)
  | 0, _, _, _, _ => none
  | fuel + 1, st, node, parent, offset =>
    match st.1.spans[node]? with
    | none => some st
    | some n =>
      let p := parent.bind fun p => st.1.spans[p]?
      let r := correctNode n (p.map (·.timestamp)) offset
      let st : CorrectState × List Written := ({ spans := st.1.spans.set node r.1, visits := node :: st.1.visits }, st.2 ++ timingLines entry level n p offset)
      (childrenOf st.1.spans r.1.id).foldlM (fun st child => correctTreeW entry level fuel st child (some node) r.2) st

/-- correct.go:257-276: what is written about a trace that is neither too large nor too old. `entry` is `log.Level`. -/
def rootLinesW (entry level : Nat) (nowFake : Time) (traceID : Id) (trace : Tree) : List Written :=
  let inject := decide ((roots trace.spans).length > 1) && allTheSameParent (pick trace.spans (roots trace.spans))
  let t := withFakeRoot nowFake trace
  (if inject then debugf level b!"Missing root, injecting fake-root span" ++ printTrace level t.spans else []) ++
  match roots t.spans with
  | [r] => ((correctTreeW entry level t.spans.length ({ spans := t.spans }, []) r none 0).map (·.2)).getD []
  | _ => debugf level (b!"No unique root for trace " ++ idString traceID ++ b!" with " ++ numberText t.nodeCount.toNat ++ b!" spans") ++ printTrace level t.spans

/-- correct.go:227-285: what one iteration of the loop of `finishTraces` writes. -/
def finishWritten (entry level : Nat) (deadlineUpdate deadlineStarted : Time) (nowFake : Id → Time) (e : Id × Tree) : List Written :=
  let traceTooLarge := e.2.tooLarge
  let updatedRecently := decide (e.2.updated > deadlineUpdate)
  let traceTooOld := decide (e.2.started < deadlineStarted)
  if !traceTooLarge && !traceTooOld && updatedRecently then []
  else if traceTooLarge then
    warnf level (b!"Trace " ++ idString e.1 ++ b!" with " ++ numberText e.2.nodeCount.toNat ++ b!" nodes is too large.") ++ printTrace level e.2.spans
  else if traceTooOld then
    warnf level (b!"Trace " ++ idString e.1 ++ b!" with " ++ numberText e.2.nodeCount.toNat ++ b!" nodes is too old") ++ printTrace level e.2.spans
  else rootLinesW entry level (nowFake e.1) e.1 e.2

/-- correct.go:200-306: what `finishTraces` writes. -/
def Collector.tickWritten (level : Nat) (c : Collector) (i : TickInput) : List Written :=
  let spanCount := spanCountOf c.traces.toList
  let bt := bufferTime spanCount
  debugf level (b!"Checking for expired spans with bufferTime=" ++ durationText (Int64.ofInt bt) ++ b!" (" ++ numberText spanCount ++ b!" spans)") ++
  i.order.flatMap (finishWritten entryLevel level (i.now1 - bt) (i.now2 - 5 * bt) i.nowFake) ++
    if spanCount > maxSpans then
      warnf level (b!"There are currently " ++ numberText spanCount ++ b!" in-flight spans, removing some traces now") ++
        (discardLines i.sorted (c.finishLoop i).1).flatMap (warnf level)
    else []

end Verif
