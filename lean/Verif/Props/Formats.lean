import Verif.Proofs.Formats

/-!
# C119, C120: the formats agree, and names, services and tags are only passed on
-/

namespace Verif

open Spec

/-! ## C119 -/

/-- C119: the same facts, with times, give the same span in all formats, up to the tag with the name of the format. -/
theorem C119_same {f : Facts} (hf : f.Timed) {s t : Span} (hs : WrittenAs f s) (ht : WrittenAs f t) : SameTo anyFormat s t :=
  shown_same (shown hf hs) (shown hf ht)

/-- C119: what the span is like. -/
theorem C119_values {f : Facts} (hf : f.Timed) {s : Span} (hs : WrittenAs f s) :
    s.id = f.id ∧ s.trace = f.trace ∧ s.parent = f.parent ∧ s.name = f.name ∧ s.service = f.service ∧
    s.timestamp.toInt = 1000 * f.start.toNat ∧ s.duration.toInt = 1000 * f.duration.toNat ∧
    (s.timings = match f.role with
      | .client => { CS := s.timestamp, CR := s.timestamp + s.duration }
      | .server => { SR := s.timestamp, SS := s.timestamp + s.duration }
      | .neither => {}) ∧
    ∀ key, key ≠ b!"protocolVersion" → (s.tags.getD ∅)[key]? = f.tag key := by
  have h := shown hf hs
  have hb := hf.stop
  refine ⟨h.id, h.trace, h.parent, h.name, h.service, ?_, ?_, ?_, h.tag⟩
  · rw [h.timestamp, C66_exact _ (by omega)]
  · rw [h.duration, C66_exact _ (by omega)]
  · rw [h.timings, h.timestamp, h.duration]
    cases f.role <;> rfl

/-- C119: so the collector does the same with spans that come in other formats: the same traces leave at the same time for the same reasons, with the same spans up to this tag. -/
theorem C119_traces {start : Time} {l l' : List Happening} (h : Pairwise₂ SameFacts l l') {w : World} (hw : After start l w) :
    ∃ w', After start l' w' ∧ SameWorld (fun _ => SameTo anyFormat) (fun _ _ => SameTo anyFormat) w w' := by
  refine same_after (simulates_sameTo anyFormat) hw ?_
  clear hw
  induction h with
  | nil => exact .nil
  | cons h1 _ ih =>
    refine .cons ?_ ih
    cases h1 with
    | receive hf hs ht => exact .receive (C119_same hf hs ht).trace (C119_same hf hs ht)
    | tick => exact .tick

namespace FormatWitness

def facts : Facts :=
  { id := 7, trace := 5, parent := 6, name := b!"get", service := b!"web", start := 1600000000000000, duration := 250, role := .client,
    tag := fun key => if key = b!"a" then some b!"1" else none }

def inV1 : SpanV1 :=
  { traceId := 5, id := 7, parentId := 6, name := b!"get", timestamp := 1600000000000000, duration := 250
    annotations := [{ timestamp := 1600000000000250, value := b!"cr" }, { timestamp := 1600000000000000, value := b!"cs" }, {}, {}]
    binaryAnnotations := { cells := [{ key := b!"a", value := b!"1", endpoint := { serviceName := b!"web" } }], len := 1 } }

def inV2 : SpanV2 :=
  { traceId := 5, id := 7, parentId := 6, name := b!"get", timestamp := 1600000000000000, duration := 250, kind := b!"CLIENT"
    endpoint := { serviceName := b!"web" }, tags := some (({} : TagMap).insert b!"a" b!"1") }

def inJaeger : JaegerSpan :=
  { traceId := 5, spanId := 7, operationName := b!"get", references := [(b!"CHILD_OF", 6), (b!"FOLLOWS_FROM", 9)], timestamp := 1600000000000000, duration := 250
    processId := b!"p1", tags := [(b!"internal.span.format", .string b!"proto"), (b!"span.kind", .string b!"client"), (b!"a", .string b!"1"), (b!"n", .other)] }

def procs : TagMap := ({} : TagMap).insert b!"p1" b!"web"

theorem timed : facts.Timed := ⟨by decide, by decide, by decide⟩

theorem hV1 : InV1 facts inV1 := by
  refine ⟨rfl, rfl, rfl, rfl, rfl, rfl, by decide, ?_, ?_⟩
  · intro key _
    show _ = if key = b!"a" then some b!"1" else none
    by_cases hk : key = b!"a"
    · subst hk; decide
    · rw [if_neg hk, last?_none]
      · rfl
      · intro a ha
        have : a = { key := b!"a", value := b!"1", endpoint := { serviceName := b!"web" } } := by simpa [inV1, GoSlice.elems] using ha
        subst this
        simpa using fun e => hk e.symm
  · show Annotated inV1 b!"cs" _ ∧ Annotated inV1 b!"cr" _ ∧ Unannotated inV1 b!"sr" ∧ Unannotated inV1 b!"ss"
    unfold Annotated Unannotated
    decide

theorem hV2 : InV2 facts inV2 := by
  refine ⟨rfl, rfl, rfl, rfl, rfl, rfl, rfl, ?_, ?_⟩
  · intro key _
    show (({} : TagMap).insert b!"a" b!"1")[key]? = if key = b!"a" then some b!"1" else none
    rw [Std.ExtTreeMap.getElem?_insert]
    by_cases hk : key = b!"a"
    · subst hk; simp
    · rw [if_neg hk, if_neg (by simpa using fun e => hk e.symm)]
      simp
  · show KindClient _
    exact C30_witness.1

theorem hJaeger : InJaeger facts procs inJaeger := by
  refine ⟨rfl, rfl, by decide, rfl, rfl, rfl, by decide +kernel, ?_, ?_, by decide⟩
  · intro key _ h1 h2
    show _ = if key = b!"a" then some b!"1" else none
    by_cases hk : key = b!"a"
    · subst hk; decide
    · rw [if_neg hk, last?_none]
      · rfl
      · have : stringTags inJaeger = [(b!"internal.span.format", b!"proto"), (b!"span.kind", b!"client"), (b!"a", b!"1")] := by decide
        rw [this]
        intro t ht
        simp only [List.mem_cons, List.not_mem_nil, or_false] at ht
        rcases ht with rfl | rfl | rfl
        · simpa using fun e => h2 e.symm
        · simpa using fun e => h1 e.symm
        · simpa using fun e => hk e.symm
  · show KindClient _
    have : kindJaeger inJaeger = b!"client" := by decide
    rw [this, ← equalFold_client]
    decide

end FormatWitness

open FormatWitness in
/-- A client span with a tag, in the three formats. -/
theorem C119_witness : facts.Timed ∧ WrittenAs facts inV1.toSpan ∧ WrittenAs facts inV2.toSpan ∧ WrittenAs facts (inJaeger.toSpan procs) :=
  ⟨timed, .v1 hV1, .v2 hV2, .jaeger hJaeger⟩

/-- Without a duration they differ: of a client span in version 1 whose annotations have the same time, the end is the start; in version 2 it is a millisecond later. -/
theorem C119_no_duration :
    let v1 : SpanV1 := { id := 7, traceId := 5, parentId := 6, timestamp := 10, annotations := [{ timestamp := 10, value := b!"cs" }, { timestamp := 10, value := b!"cr" }, {}, {}] }
    let v2 : SpanV2 := { id := 7, traceId := 5, parentId := 6, timestamp := 10, kind := b!"client" }
    (v1.toSpan.duration, v2.toSpan.duration) = (1000000, 1000000) ∧ (v1.toSpan.timings.CR, v2.toSpan.timings.CR) = (10000, 1010000) := by
  decide +kernel

/-- Without a parent they differ: the parent is 0 in the Zipkin formats, and the span itself in the jaeger format. -/
theorem C119_no_parent (v2 : SpanV2) (v1 : SpanV1) (v : JaegerSpan) (procs : TagMap) (h2 : v2.parentId = 0) (h1 : v1.parentId = 0) (h : v.references = []) :
    v2.toSpan.parent = 0 ∧ v1.toSpan.parent = 0 ∧ (v.toSpan procs).parent = v.spanId := by
  refine ⟨(C64_v2_fields v2).2.2.1.trans h2, (C64_v1_fields v1).2.2.1.trans h1, ?_⟩
  obtain ⟨e1, _, _, _, e5, _⟩ := C32_jaeger v procs
  rw [← e1]
  exact (e5 (by rw [h]; intro r hr; cases hr)).1

/-- The spans of a trace, received at the start, and a tick after nine seconds. -/
def FormatWitness.world (l : List Span) : World := l.foldl (fun w s => w.receive 0 0 s) { clock := 0 }

/-- The first tick after nine seconds. -/
def FormatWitness.input (l : List Span) : TickInput :=
  { now1 := 9000000000, now2 := 9000000000, nowFake := fun _ => 0, order := (world l).c.traces.toList, sorted := [], blOrder := [] }

open FormatWitness in
/-- So two spans without a parent in one trace are sent below a root that is made up if they come in version 2, and not at all if they come in the jaeger format. -/
theorem C119_two_roots :
    let v2 (id : Id) : SpanV2 := { id := id, traceId := 5, timestamp := 1600000000000000, duration := 250 }
    let jaeger (id : Id) : JaegerSpan := { spanId := id, traceId := 5, timestamp := 1600000000000000, duration := 250 }
    let zipkin := [(v2 7).toSpan, (v2 8).toSpan]
    let jaegers := [(jaeger 7).toSpan ∅, (jaeger 8).toSpan ∅]
    (emittedOf ((world zipkin).c.tick (input zipkin)).2).map (fun t => t.map Span.id) = [[8, 7, 0]] ∧
    (emittedOf ((world jaegers).c.tick (input jaegers)).2).map (fun t => t.map Span.id) = [] ∧
    ((world jaegers).c.tick (input jaegers)).2.map (fun r => r.id) = [5] := by
  decide +kernel

/-! ## C120 -/

/-- C120: whoever looks at some of the values that programs give to their spans (the times, the names, the services, some of the tags) sees the same traces leave the collector at
the same time for the same reasons, with the spans at the same places, whatever the other values are: each of these values has an influence on itself only, and none on what happens to a trace. -/
theorem C120_passed_on (o : Observer) {start : Time} {l l' : List Happening} (h : Pairwise₂ (SameHappening fun _ => SameTo o) l l') {w : World} (hw : After start l w) :
    ∃ w', After start l' w' ∧ SameWorld (fun _ => SameTo o) (fun _ _ => SameTo o) w w' := same_after (simulates_sameTo o) hw h

/-- These are all histories of the collector. -/
theorem C120_all (w : World) : Reachable w ↔ ∃ start l, After start l w :=
  ⟨exists_after, fun ⟨_, _, h⟩ => h.reachable⟩

open FormatWitness in
/-- Two halves of a call with other names, services and tags: for somebody who looks at the tag `a` only, the same is sent; but it is not the same span. -/
theorem C120_witness :
    let o : Observer := { times := True, name := False, service := False, tag := fun key => key = b!"a" }
    let half (parent : Id) (times : Timings) (name : Str) (key value : Str) : Span :=
      { id := 7, trace := 5, parent := parent, name := name, timestamp := 1600000000000000000, duration := 1000, timings := times,
        tags := some ((({} : TagMap).insert b!"a" b!"1").insert key value) }
    let client := half 7 { CS := 1600000000000000000, CR := 1600000000000001000 }
    let server := half 7 { SR := 1600000000000000100, SS := 1600000000000000300 }
    let l := [server b!"x" b!"b" b!"2", client b!"y" b!"c" b!"3"]
    let l' := [server b!"" b!"d" b!"4", client b!"z" b!"b" b!"5"]
    SameTo o (server b!"x" b!"b" b!"2") (server b!"" b!"d" b!"4") ∧ SameTo o (client b!"y" b!"c" b!"3") (client b!"z" b!"b" b!"5") ∧
    (emittedOf ((world l).c.tick (input l)).2).map (fun t => t.map fun s => s.name :: (s.tags.getD ∅).toList.flatMap fun e => [e.1, e.2]) =
      [[[b!"x", b!"a", b!"1", b!"b", b!"2", b!"c", b!"3"]]] ∧
    (emittedOf ((world l').c.tick (input l')).2).map (fun t => t.map fun s => s.name :: (s.tags.getD ∅).toList.flatMap fun e => [e.1, e.2]) =
      [[[b!"z", b!"a", b!"1", b!"b", b!"5", b!"d", b!"4"]]] := by
  refine ⟨⟨rfl, rfl, rfl, Iff.rfl, fun _ => rfl, fun _ => rfl, fun _ => rfl, fun h => h.elim, fun h => h.elim, ?_⟩, ⟨rfl, rfl, rfl, Iff.rfl, fun _ => rfl, fun _ => rfl, fun _ => rfl, fun h => h.elim, fun h => h.elim, ?_⟩, ?_, ?_⟩
  · rintro key rfl; decide +kernel
  · rintro key rfl; decide +kernel
  · decide +kernel
  · decide +kernel

end Verif
