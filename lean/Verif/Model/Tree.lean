import Verif.Model.Span

/-!
# correct.go: the trace under assembly (`tree`), merging, roots, fake root, timing correction

`time.Time` is an unbounded integer number of nanoseconds; each reading of the clock is an argument.
Pointers into `tree.spans` are indices into the list of spans.
-/

namespace Verif

/-- A reading of the clock in nanoseconds (`time.Time`). -/
abbrev Time := Int

/-- correct.go:58-66 `tree`, and 551 `SpanSlice`. `nodeCount` is a `uint16` as in the code.
`members` is a ghost field: the spans given to `AddSpan` for this tree, in order; the code has no such
field and no definition of the model reads it. -/
structure Tree where
  traceId : Id
  spans : List Span := []
  started : Time
  updated : Time
  nodeCount : UInt16 := 0
  members : List Span := []

/-- correct.go:68-75 `newTree`. -/
def newTree (now : Time) (traceId : Id) : Tree :=
  { traceId := traceId, started := now, updated := now }

/-- The test given to `sort.Search` in `GetSpanRef` and `Append` (correct.go:554-556, 566-568).
The index is always in range, see `sortSearch_congr`. -/
def idAtLeast (spans : List Span) (spanId : Id) (i : Nat) : Bool :=
  match spans[i]? with
  | some s => decide (spanId ≥ s.id)
  | none => false

/-- correct.go:553-563 `GetSpanRef`: the index of the span, if found. -/
def getSpanRef (spans : List Span) (spanId : Id) : Option Nat :=
  let idx := sortSearch spans.length (idAtLeast spans spanId)
  match spans[idx]? with
  | some s => if s.id = spanId then some idx else none
  | none => none

/-- Go's `copy(l[d:], l[s:])` within one slice, for `d ≤ l.length` (it behaves as if the source was
saved first). -/
def copyWithin (l : List Span) (d s : Nat) : List Span :=
  let n := min (l.length - d) (l.length - s)
  l.take d ++ (l.drop s).take n ++ l.drop (d + n)

/-- correct.go:565-573 `Append`. -/
def spansAppend (spans : List Span) (span : Span) : List Span :=
  let idx := sortSearch spans.length (idAtLeast spans span.id)
  let grown := spans ++ [({ } : Span)]
  (copyWithin grown (idx + 1) idx).set idx span

/-- `for key, value := range tags { span.AddTag(key, value) }` for the iteration order `ord`. -/
def addTags (s : Span) (ord : List (Str × Str)) : Span :=
  ord.foldl (fun s e => s.addTag e.1 e.2) s

/-- correct.go:490-549 `mergeSpansInPlace`; `ordNew` and `ordClient` are the orders in which the tag
maps of `newSpan` and (in the second branch) of the updated span are iterated. -/
def mergeSpansOrd (ordNew ordClient : List (Str × Str)) (upd new : Span) : Span :=
  if tsIsValid new.timings.SR || tsIsValid new.timings.SS then
    let s := upd
    let s := if new.service ≠ [] then { s with service := new.service } else s
    let s := if new.name ≠ [] then { s with name := new.name } else s
    let s := addTags s ordNew
    let s := if tsIsValid new.timings.SR then { s with timings := { s.timings with SR := new.timings.SR } } else s
    if tsIsValid new.timings.SS then { s with timings := { s.timings with SS := new.timings.SS } } else s
  else
    let s := upd
    let s := if s.service = [] then { s with service := new.service } else s
    let s := if s.name = [] then { s with name := new.name } else s
    let s := { s with tags := none }
    let s := addTags s ordNew
    let s := addTags s ordClient
    let s := if tsIsValid new.timings.CS then { s with timings := { s.timings with CS := new.timings.CS } } else s
    if tsIsValid new.timings.CR then { s with timings := { s.timings with CR := new.timings.CR } } else s

/-- `range` over a possibly nil map in the canonical order. -/
def tagsList (t : Option TagMap) : List (Str × Str) := (t.getD ∅).toList

/-- `mergeSpansInPlace` with the canonical iteration orders; `mergeSpansOrd_eq` shows that the orders
do not matter. -/
def mergeSpans (upd new : Span) : Span :=
  mergeSpansOrd (tagsList new.tags) (tagsList upd.tags) upd new

/-- correct.go:92-96: what `AddSpan` does to the span that already has the id. -/
def addToExisting (upd new : Span) : Span :=
  mergeSpans (if idIsUnknown upd.parent then { upd with parent := new.parent } else upd) new

/-- correct.go:81-97 `AddSpan`. -/
def Tree.addSpan (t : Tree) (now : Time) (new : Span) : Tree :=
  let t := { t with updated := now, members := t.members ++ [new] }
  match getSpanRef t.spans new.id with
  | none => { t with spans := spansAppend t.spans new, nodeCount := t.nodeCount + 1 }
  | some idx => { t with spans := t.spans.modify idx (addToExisting · new) }

/-- correct.go:120-130 `ChildrenOf`, as indices. -/
def childrenOf (spans : List Span) (spanId : Id) : List Nat :=
  (List.range spans.length).filter fun i =>
    match spans[i]? with
    | some s => s.parent == spanId && !s.isRoot
    | none => false

/-- correct.go:132-156 `Roots`, as indices. -/
def roots (spans : List Span) : List Nat :=
  (List.range spans.length).filter fun i =>
    match spans[i]? with
    | some s => s.isRoot || !(spans.any fun q => q.id == s.parent)
    | none => false

/-- The spans that a list of pointers into `tree.spans` points to (the pointers are always valid). -/
def pick (l : List Span) (is : List Nat) : List Span := is.filterMap (l[·]?)

/-- correct.go:332-340 `allTheSameParent`. -/
def allTheSameParent : List Span → Bool
  | [] => true
  | s :: rest => (s :: rest).all fun q => s.parent == q.parent

/-- correct.go:308-330 `createFakeRoot` of a non-empty list of spans (`first :: rest`). -/
def createFakeRoot (first : Span) (rest : List Span) : Span :=
  let b := rest.foldl (fun (b : Timestamp × Timestamp) s =>
    let lo := if s.timestamp < b.1 then s.timestamp else b.1
    let ts := tsAdd s.timestamp s.duration
    let hi := if ts > b.2 then ts else b.2
    (lo, hi)) (first.timestamp, tsAdd first.timestamp first.duration)
  { newRootSpan b!"fake-root" first.trace first.parent with
    service := b!"fake-root", timestamp := b.1, duration := b.2 - b.1 }

/-- correct.go:476 `1577836800_000`, 2020-01-01 in milliseconds. -/
def year2020Millis : Int64 := 1577836800000

/-- correct.go:436-483: the update of one node; gives the node and the offset for the children.
`parentStart` is the timestamp of the parent, if there is a parent. -/
def correctNode (node : Span) (parentStart : Option Timestamp) (offset : Duration) : Span × Duration :=
  let node := if offset ≠ 0 then { node with timestamp := node.timestamp + offset } else node
  let cs := node.timings.CS
  let cr := node.timings.CR
  let ss := node.timings.SS
  let sr := node.timings.SR
  let r : Span × Duration :=
    if cr ≠ 0 ∧ cs ≠ 0 ∧ sr ≠ 0 ∧ ss ≠ 0 then
      let screw := (cr + cs) / 2 - (sr + ss) / 2
      ({ node with timestamp := cs + offset, duration := cr - cs }, offset + screw)
    else (node, offset)
  match parentStart with
  | some p => if toMillis r.1.timestamp < year2020Millis then ({ r.1 with timestamp := p }, r.2) else r
  | none => r

/-- The mutable state of `correctTreeTimings`: the spans of the tree, and the ghost list of the nodes
it was called on (most recent first). -/
structure CorrectState where
  spans : List Span
  visits : List Nat := []

/-- correct.go:435-488 `correctTreeTimings`. `node` and `parent` are pointers into the spans of the
tree. The recursion depth is limited by `fuel`; `none` means that the fuel did not suffice. -/
def correctTree : (fuel : Nat) → CorrectState → (node : Nat) → (parent : Option Nat) → Duration →
    Option CorrectState
  | 0, _, _, _, _ => none
  | fuel + 1, st, node, parent, offset =>
    match st.spans[node]? with
    | none => some st
    | some n =>
      let pstart := parent.bind fun p => (st.spans[p]?).map (·.timestamp)
      let r := correctNode n pstart offset
      let st : CorrectState := { spans := st.spans.set node r.1, visits := node :: st.visits }
      (childrenOf st.spans r.1.id).foldlM (fun st child => correctTree fuel st child (some node) r.2) st

end Verif
