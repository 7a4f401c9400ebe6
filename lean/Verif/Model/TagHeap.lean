import Verif.Model.Collector

/-!
# Tag maps as references

Everywhere else in this model the tags of a span are a value. In Go, a map is a reference: a span that is copied shares its map with the copy, and `AddTag` writes to the map in place. Here
the maps are in a heap, and spans have addresses. The control flow does not depend on tags, and is taken from the collector (`World`).
-/

namespace Verif

/-- A map, and how often it was written: two writes of the same value are one write too many for a goroutine that reads the map. -/
structure TagCell where
  tags : TagMap := ∅
  writes : Nat := 0

/-- All maps made so far, by address. -/
abbrev TagHeap := List TagCell

/-- `m[key] = value`. -/
def TagCell.write (c : TagCell) (key value : Str) : TagCell := ⟨c.tags.insert key value, c.writes + 1⟩

/-- A `proxy.Span` whose field `Tags` is an address, or nil. (The field `tags` of `val` is not used.) -/
structure RSpan where
  val : Span := {}
  ref : Option Nat := none

/-- The span as seen through the heap. -/
def RSpan.read (h : TagHeap) (s : RSpan) : Span := { s.val with tags := s.ref.map fun a => (h.getD a {}).tags }

/-- proxy/span.go:51-57 `AddTag`: a nil map is replaced by a new one; then the map is written in place. -/
def addTagR (h : TagHeap) (s : RSpan) (key value : Str) : TagHeap × RSpan :=
  match s.ref with
  | none => (h ++ [({} : TagCell).write key value], { s with ref := some h.length })
  | some a => (h.set a ((h.getD a {}).write key value), s)

/-- `for key, value := range tags { span.AddTag(key, value) }` for the iteration order `ord`. -/
def addTagsR (h : TagHeap) (s : RSpan) : List (Str × Str) → TagHeap × RSpan
  | [] => (h, s)
  | e :: ord => addTagsR (addTagR h s e.1 e.2).1 (addTagR h s e.1 e.2).2 ord

/-- correct.go:490-549 `mergeSpansInPlace`. `clientTags := spanToUpdate.Tags` (line 527) copies the address; `ordClient` is the order in which that map is iterated. -/
def mergeR (ordNew ordClient : List (Str × Str)) (h : TagHeap) (upd new : RSpan) : TagHeap × RSpan :=
  if tsIsValid new.val.timings.SR || tsIsValid new.val.timings.SS then
    let s := upd
    let s := if new.val.service ≠ [] then { s with val := { s.val with service := new.val.service } } else s
    let s := if new.val.name ≠ [] then { s with val := { s.val with name := new.val.name } } else s
    let r := addTagsR h s ordNew
    let s := r.2
    let s := if tsIsValid new.val.timings.SR then { s with val := { s.val with timings := { s.val.timings with SR := new.val.timings.SR } } } else s
    let s := if tsIsValid new.val.timings.SS then { s with val := { s.val with timings := { s.val.timings with SS := new.val.timings.SS } } } else s
    (r.1, s)
  else
    let s := upd
    let s := if s.val.service = [] then { s with val := { s.val with service := new.val.service } } else s
    let s := if s.val.name = [] then { s with val := { s.val with name := new.val.name } } else s
    let s := { s with ref := none }
    let r := addTagsR h s ordNew
    let r := addTagsR r.1 r.2 ordClient
    let s := r.2
    let s := if tsIsValid new.val.timings.CS then { s with val := { s.val with timings := { s.val.timings with CS := new.val.timings.CS } } } else s
    let s := if tsIsValid new.val.timings.CR then { s with val := { s.val with timings := { s.val.timings with CR := new.val.timings.CR } } } else s
    (r.1, s)

/-- correct.go:565-573 `Append`; see `copyWithin`. -/
def appendR (spans : List RSpan) (span : RSpan) : List RSpan :=
  let idx := sortSearch spans.length (idAtLeast (spans.map RSpan.val) span.val.id)
  let grown := spans ++ [({} : RSpan)]
  let n := min (grown.length - (idx + 1)) (grown.length - idx)
  (grown.take (idx + 1) ++ (grown.drop idx).take n ++ grown.drop (idx + 1 + n)).set idx span

/-- correct.go:81-97 `AddSpan`. -/
def addSpanR (ordNew ordClient : List (Str × Str)) (h : TagHeap) (spans : List RSpan) (new : RSpan) : TagHeap × List RSpan :=
  match getSpanRef (spans.map RSpan.val) new.val.id with
  | none => (h, appendR spans new)
  | some idx =>
    let upd := spans.getD idx {}
    let upd := if idIsUnknown upd.val.parent then { upd with val := { upd.val with parent := new.val.parent } } else upd
    let r := mergeR ordNew ordClient h upd new
    (r.1, spans.set idx r.2)

/-- The maps, the spans of the pending traces, and the traces that were sent. -/
structure TagState where
  heap : TagHeap := []
  pending : Std.ExtTreeMap Id (List RSpan) := ∅
  delivered : List (List RSpan) := []

/-- A decoder makes a new map for the tags of a span (codec/binary.go:32, json-v1.go:97, hyperjson/bind.go:51 for version 2, `AddTag` for jaeger), or none. The maps are not pooled, and
the spans are not used by the goroutine that decoded them once they are sent to the collector. -/
def decodeR (h : TagHeap) (s : Span) : TagHeap × RSpan :=
  match s.tags with
  | none => (h, { val := s })
  | some m => (h ++ [⟨m, 0⟩], { val := s, ref := some h.length })

/-- A span is decoded and received, correct.go:166-190. `c` decides whether it is kept. -/
def TagState.receive (st : TagState) (c : Collector) (ordNew ordClient : List (Str × Str)) (s : Span) : TagState :=
  let d := decodeR st.heap s
  if s.trace = 0 ∨ s.id = 0 ∨ c.blacklist.contains s.trace then { st with heap := d.1 }
  else
    let r := addSpanR ordNew ordClient d.1 ((st.pending[s.trace]?).getD []) d.2
    { st with heap := r.1, pending := st.pending.insert s.trace r.2 }

/-- A trace leaves. Emitted spans are those of the trace, with their maps and corrected times, and possibly a fake root, which has no map (correct.go:308-330, 435-488 do not touch tags). -/
def TagState.remove (st : TagState) (r : Removal) : TagState :=
  let spans := (st.pending[r.id]?).getD []
  match r.fate with
  | .emitted out =>
    { st with
      pending := st.pending.erase r.id
      delivered := st.delivered ++ [out.map fun s => { val := s, ref := (spans.find? fun q => q.val.id == s.id).bind RSpan.ref }] }
  | _ => { st with pending := st.pending.erase r.id }

/-- One step of the collector, with the maps. -/
inductive TagStep : World × TagState → World × TagState → Prop
  | receive {w st} (now1 now2 : Time) (s : Span) (ordNew ordClient : List (Str × Str)) : w.clock ≤ now1 → now1 ≤ now2 →
      IsRange ordNew (s.tags.getD ∅) →
      (∀ l q, st.pending[s.trace]? = some l → q ∈ l → q.val.id = s.id → IsRange ordClient ((q.read st.heap).tags.getD ∅)) →
      TagStep (w, st) (w.receive now1 now2 s, st.receive w.c ordNew ordClient s)
  | tick {w st} (i : TickInput) : i.Valid w.c → w.clock ≤ i.now1 → TagStep (w, st) (w.tick i, (w.c.tick i).2.foldl TagState.remove st)

/-- Every history of the collector, with the maps. -/
inductive TagRun : World × TagState → Prop
  | init (now : Time) : TagRun ({ clock := now }, {})
  | step {p q} : TagRun p → TagStep p q → TagRun q

end Verif
