import Verif.Model.Collector

/-!
# correct.go with pointers: the slices of the collector in memory

Everywhere else in this model a trace under assembly has a list of spans. In Go, `tree.spans` is a slice: an array that other slices may share, a length and a capacity. `Append` moves spans within the array or to a
new array, and `GetSpanRef`, `Roots` and `ChildrenOf` return pointers into the array, through which spans are changed. A trace is sent without copying it, and the receiver overwrites it in place
(main.go:185 `trace[:0]`). Here all arrays are in one memory. `none` is a panic: a pointer to nothing, or an index out of range (or too little fuel for the recursion).

Metrics and log lines are left out; the tags of a span are a value, see `Model/TagHeap` for them.
-/

namespace Verif.Ref

/-- All arrays of spans, by address. The length of an array never changes. -/
abbrev Heap := List (List Span)

/-- A slice `[]proxy.Span` that begins at the begin of its array. Nil has the capacity 0. -/
structure Slice where
  arr : Nat := 0
  len : Nat := 0
  cap : Nat := 0

/-- `*proxy.Span`: an array and an index. -/
abbrev Ptr := Nat × Nat

/-- `*p`. -/
def load (h : Heap) (p : Ptr) : Option Span := (h[p.1]?).bind (·[p.2]?)

/-- `*p = s`. -/
def store (h : Heap) (p : Ptr) (s : Span) : Option Heap :=
  match h[p.1]? with
  | some a => if p.2 < a.length then some (h.set p.1 (a.set p.2 s)) else none
  | none => none

/-- The elements of a slice. -/
def Slice.read (h : Heap) (s : Slice) : List Span := ((h[s.arr]?).getD []).take s.len

/-- `append(*spans, proxy.Span{})`: in the array if there is room, else in a new array with room for `extra` more. -/
def grow (extra : Nat) (h : Heap) (s : Slice) : Option (Heap × Slice) :=
  if s.len < s.cap then (store h (s.arr, s.len) ({} : Span)).map fun h => (h, { s with len := s.len + 1 })
  else some (h ++ [s.read h ++ List.replicate (extra + 1) ({} : Span)], ⟨h.length, s.len + 1, s.len + 1 + extra⟩)

/-- `copy((*spans)[idx+1:], (*spans)[idx:])`. -/
def shift (h : Heap) (s : Slice) (idx : Nat) : Option Heap :=
  if idx + 1 ≤ s.len then
    match h[s.arr]? with
    | some a => some (h.set s.arr (copyWithin (a.take s.len) (idx + 1) idx ++ a.drop s.len))
    | none => none
  else none

/-- correct.go:565-573 `Append`. -/
def insertSpan (extra : Nat) (h : Heap) (s : Slice) (span : Span) : Option (Heap × Slice) :=
  let idx := sortSearch s.len (idAtLeast (s.read h) span.id)
  match grow extra h s with
  | none => none
  | some (h, s) =>
    match shift h s idx with
    | none => none
    | some h => (store h (s.arr, idx) span).map fun h => (h, s)

/-- correct.go:58-66 `tree`. -/
structure PTree where
  traceId : Id
  slice : Slice := {}
  started : Time
  updated : Time
  nodeCount : UInt16 := 0

/-- correct.go:553-563 `GetSpanRef`. -/
def getRef (h : Heap) (s : Slice) (id : Id) : Option Ptr := (getSpanRef (s.read h) id).map fun i => (s.arr, i)

/-- correct.go:132-156 `Roots`. -/
def rootRefs (h : Heap) (s : Slice) : List Ptr := (roots (s.read h)).map fun i => (s.arr, i)

/-- correct.go:120-130 `ChildrenOf`. -/
def childRefs (h : Heap) (s : Slice) (id : Id) : List Ptr := (childrenOf (s.read h) id).map fun i => (s.arr, i)

/-- correct.go:92-94: a parent that was unknown is now known. -/
def adopt (h : Heap) (p : Ptr) (parent : Id) : Option Heap :=
  (load h p).bind fun span => if idIsUnknown span.parent then store h p { span with parent := parent } else some h

/-- correct.go:96 `mergeSpansInPlace(span, newSpan)`. -/
def merge (h : Heap) (p : Ptr) (new : Span) : Option Heap := (load h p).bind fun span => store h p (mergeSpans span new)

/-- correct.go:81-97 `AddSpan`. -/
def addSpan (extra : Nat) (h : Heap) (t : PTree) (now : Time) (new : Span) : Option (Heap × PTree) :=
  let t := { t with updated := now }
  match getRef h t.slice new.id with
  | none => (insertSpan extra h t.slice new).map fun r => (r.1, { t with slice := r.2, nodeCount := t.nodeCount + 1 })
  | some p => (adopt h p new.parent).bind fun h => (merge h p new).map fun h => (h, t)

/-- correct.go:475-483: the rule for broken times of a node that has a parent. -/
def repair (h : Heap) (node : Ptr) : Option Ptr → Option Heap
  | none => some h
  | some parent =>
    (load h node).bind fun n =>
      if toMillis n.timestamp < year2020Millis then (load h parent).bind fun q => store h node { n with timestamp := q.timestamp }
      else some h

/-- correct.go:435-488 `correctTreeTimings`; the spans of the tree are those of `s`. -/
def correct (s : Slice) : (fuel : Nat) → Heap → (node : Ptr) → (parent : Option Ptr) → Duration → Option Heap
  | 0, _, _, _, _ => none
  | fuel + 1, h, node, parent, offset =>
    (load h node).bind fun n =>
      let r := correctNode n none offset
      (store h node r.1).bind fun h =>
        (repair h node parent).bind fun h =>
          (load h node).bind fun n =>
            (childRefs h s n.id).foldlM (fun h child => correct s fuel h child (some node) r.2) h

/-- correct.go:257-266: the tree and its roots, after a root was made up if needed. -/
def fakeRoot (extra : Nat) (nowFake : Time) (h : Heap) (t : PTree) : Option (Heap × PTree × List Ptr) :=
  let rs := rootRefs h t.slice
  (rs.mapM (load h)).bind fun spans =>
    match spans with
    | first :: second :: rest =>
      if allTheSameParent (first :: second :: rest) then
        (addSpan extra h t nowFake (createFakeRoot first (second :: rest))).map fun r => (r.1, r.2, rootRefs r.1 r.2.slice)
      else some (h, t, rs)
    | _ => some (h, t, rs)

/-- correct.go:257-282: what happens to a trace that is neither too large nor too old, and the slice that is sent, if any. -/
def finish (extra : Nat) (nowFake : Time) (h : Heap) (t : PTree) : Option (Heap × Option Slice) :=
  (fakeRoot extra nowFake h t).bind fun r =>
    match r.2.2 with
    | [root] => (correct r.2.1.slice r.2.1.slice.len r.1 root none 0).map fun h => (h, some r.2.1.slice)
    | _ => some (r.1, none)

/-- The collector and the memory. `sent` is a record of what was sent, with the spans at that time. -/
structure PWorld where
  heap : Heap := []
  traces : Std.ExtTreeMap Id PTree := ∅
  blacklist : Std.ExtTreeMap Id Unit := ∅
  sent : List (Slice × List Span) := []

/-- correct.go:171-192: a span is received. -/
def PWorld.receive (extra : Nat) (p : PWorld) (now1 now2 : Time) (span : Span) : Option PWorld :=
  if span.trace = 0 ∨ span.id = 0 then some p
  else if p.blacklist.contains span.trace then some p
  else
    let t := (p.traces[span.trace]?).getD { traceId := span.trace, started := now1, updated := now1 }
    (addSpan extra p.heap t now2 span).map fun r => { p with heap := r.1, traces := p.traces.insert span.trace r.2 }

/-- correct.go:227-285: one iteration of the loop of `finishTraces`. -/
def PWorld.finishOne (extra : Id → Nat) (deadlineUpdate deadlineStarted : Time) (nowFake : Id → Time) (p : PWorld) (id : Id) : Option PWorld :=
  match p.traces[id]? with
  | none => some p
  | some t =>
    let traceTooLarge := decide (t.nodeCount > 8 * 1024)
    let updatedRecently := decide (t.updated > deadlineUpdate)
    let traceTooOld := decide (t.started < deadlineStarted)
    if !traceTooLarge && !traceTooOld && updatedRecently then some p
    else
      let p := { p with traces := p.traces.erase id }
      if traceTooLarge then some { p with blacklist := p.blacklist.insert id () }
      else if traceTooOld then some { p with blacklist := p.blacklist.insert id () }
      else
        (finish (extra id) (nowFake id) p.heap t).map fun r =>
          match r.2 with
          | some s => { p with heap := r.1, sent := p.sent ++ [(s, s.read r.1)] }
          | none => { p with heap := r.1 }

/-- correct.go:203-208: the number of spans, without those of traces that are too large. -/
def PWorld.count (p : PWorld) (ids : List Id) : Nat :=
  ids.foldl (fun n id => match p.traces[id]? with
    | some t => if !decide (t.nodeCount > 8 * 1024) then n + t.nodeCount.toNat else n
    | none => n) 0

/-- correct.go:395-399: the number of all spans. -/
def PWorld.total (p : PWorld) (ids : List Id) : Int :=
  ids.foldl (fun n id => match p.traces[id]? with
    | some t => n + t.nodeCount.toNat
    | none => n) 0

/-- correct.go:413-427: the loop of `discardSuspiciousTraces`. -/
def discardLoop : List Id → Int → PWorld → PWorld
  | [], _, p => p
  | id :: rest, n, p =>
    if n < maxSpans then p
    else
      match p.traces[id]? with
      | some t => discardLoop rest (n - t.nodeCount.toNat) { p with traces := p.traces.erase id }
      | none => discardLoop rest n p

/-- correct.go:387-433 `discardSuspiciousTraces`. -/
def discard (ids : List Id) (p : PWorld) : PWorld :=
  let n := p.total ids
  if n < maxSpans then p else discardLoop ids n p

/-- correct.go:287-305: what `finishTraces` does after the loop. `n` is the number of spans from before it. -/
def PWorld.endTick (n : Nat) (i : TickInput) (p : PWorld) : PWorld :=
  let p := if n > maxSpans then discard (i.sorted.map (·.1)) p else p
  { p with blacklist := trimBlacklist i.blOrder p.blacklist }

/-- correct.go:200-306 `finishTraces`. Of the orders in `i`, only the ids are used. -/
def PWorld.tick (extra : Id → Nat) (i : TickInput) (p : PWorld) : Option PWorld :=
  let ids := i.order.map (·.1)
  let n := p.count ids
  let bt := bufferTime n
  (ids.foldlM (PWorld.finishOne extra (i.now1 - bt) (i.now2 - 5 * bt) i.nowFake) p).map (PWorld.endTick n i)

/-- What the other goroutines may do meanwhile: they make arrays, and write whatever they want to arrays that they have, which are all but those of the pending traces. -/
def PWorld.Others (p : PWorld) (h : Heap) : Prop :=
  p.heap.length ≤ h.length ∧ ∀ (k : Id) (t : PTree), p.traces[k]? = some t → t.slice.cap ≠ 0 → h[t.slice.arr]? = p.heap[t.slice.arr]?

/-- Where the collector is: it waits for a span or a tick, or is in the loop of `finishTraces`, with `n` spans counted and the traces that are still to be looked at. -/
inductive Phase
  | waiting
  | ticking (i : TickInput) (extra : Id → Nat) (n : Nat) (rest : List Id)

/-- All executions of the collector with pointers, beside the same execution of the collector without. Other goroutines may be at work after each trace that is sent. -/
inductive Beside : PWorld → Phase → World → Prop
  | start (now : Time) (h : Heap) : Beside { heap := h } .waiting { clock := now }
  | receive {p p' : PWorld} {w : World} (now1 now2 : Time) (s : Span) (extra : Nat) : Beside p .waiting w → w.clock ≤ now1 → now1 ≤ now2 → p.receive extra now1 now2 s = some p' →
      Beside p' .waiting (w.receive now1 now2 s)
  | tick {p : PWorld} {w : World} (i : TickInput) (extra : Id → Nat) : Beside p .waiting w → i.Valid w.c → w.clock ≤ i.now1 →
      Beside p (.ticking i extra (p.count (i.order.map (·.1))) (i.order.map (·.1))) w
  | finish {p p' : PWorld} {w : World} {i : TickInput} {extra : Id → Nat} {n : Nat} {id : Id} {rest : List Id} : Beside p (.ticking i extra n (id :: rest)) w →
      p.finishOne extra (i.now1 - bufferTime n) (i.now2 - 5 * bufferTime n) i.nowFake id = some p' → Beside p' (.ticking i extra n rest) w
  | done {p : PWorld} {w : World} {i : TickInput} {extra : Id → Nat} {n : Nat} : Beside p (.ticking i extra n []) w → Beside (p.endTick n i) .waiting (w.tick i)
  | others {p : PWorld} {ph : Phase} {w : World} (h : Heap) : Beside p ph w → p.Others h → Beside { p with heap := h } ph w

/-- The loop of `finishTraces` after some traces, without pointers: what is left, and what was removed. -/
def finishSome (c : Collector) (i : TickInput) (looked : List (Id × Tree)) : Collector × List Removal :=
  let bt := bufferTime (spanCountOf c.traces.toList)
  looked.foldl (Verif.finishOne (i.now1 - bt) (i.now2 - 5 * bt) i.nowFake) (c, [])

end Verif.Ref
