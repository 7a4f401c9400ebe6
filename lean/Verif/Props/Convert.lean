import Verif.Proofs.Convert

/-!
# Properties of the conversion of the formats to spans (C29 to C32, C64 to C66)
-/

namespace Verif

open Spec

/-! ## C29: duration and protocol -/

theorem orMillisecond_ne (d : Int64) : orMillisecond d ≠ 0 := by
  unfold orMillisecond
  split
  · decide
  · assumption

/-- Every span that a parser returns has a duration, and the tag `protocolVersion` names its format. -/
theorem C29_duration_and_protocol :
    (∀ newCap fuel r buf l, parseJsonV2 newCap fuel r buf = .spans l →
      ∀ s ∈ l, s.duration ≠ 0 ∧ s.tag b!"protocolVersion" = some b!"json v2") ∧
    (∀ newCap fuel r buf pool l, (parseJsonV1 newCap fuel r buf pool).1 = .spans l →
      ∀ s ∈ l, s.duration ≠ 0 ∧ s.tag b!"protocolVersion" = some b!"json v1") ∧
    (∀ decoded, ∀ s ∈ jaegerSpans decoded, s.duration ≠ 0 ∧ s.tag b!"protocolVersion" = some b!"jaeger") := by
  refine ⟨?_, ?_, ?_⟩
  · intro newCap fuel r buf l h s hs
    unfold parseJsonV2 at h
    split at h <;> try contradiction
    injection h with h
    subst h
    obtain ⟨v, _, rfl⟩ := List.mem_map.mp hs
    obtain ⟨_, _, _, _, _, _, h7, _, h9, _⟩ := toSpanV2_spec v
    exact ⟨by rw [h9]; exact orMillisecond_ne _, by rw [h7]; rfl⟩
  · intro newCap fuel r buf pool l h s hs
    unfold parseJsonV1 at h
    split at h <;> try contradiction
    injection h with h
    subst h
    obtain ⟨v, _, rfl⟩ := List.mem_map.mp hs
    obtain ⟨_, _, _, _, _, _, h7, _, _, h10⟩ := toSpanV1_spec v
    exact ⟨by rw [h10]; exact orMillisecond_ne _, by rw [h7]; rfl⟩
  · intro decoded s hs
    obtain ⟨d, _, hs⟩ := List.mem_flatMap.mp hs
    obtain ⟨v, _, rfl⟩ := List.mem_map.mp hs
    obtain ⟨_, _, _, _, _, _, h7, _, h9, _⟩ := toSpanJaeger_spec v d.processes
    exact ⟨by rw [h9]; exact orMillisecond_ne _, by rw [h7]; rfl⟩

/-- A v1 span with a tag that claims another protocol, and with a duration that wraps around to 0. -/
theorem C29_witness :
    let v : SpanV1 := { binaryAnnotations := { cells := [{ key := b!"protocolVersion", value := b!"mine" }], len := 1 }, duration := 2 ^ 61 }
    v.toSpan.tag b!"protocolVersion" = some b!"json v1" ∧ v.toSpan.duration = 1000000 := by
  decide +kernel

/-! ## C30: kind and timings -/

/-- For v2 and jaeger spans: client timings exactly for clients, server timings exactly for servers. -/
theorem C30_timings :
    (∀ v : SpanV2,
      (KindClient v.kind → v.toSpan.timings.CS = v.toSpan.timestamp ∧ v.toSpan.timings.CR = v.toSpan.timestamp + v.toSpan.duration) ∧
      (¬ KindClient v.kind → v.toSpan.timings.CS = 0 ∧ v.toSpan.timings.CR = 0) ∧
      (KindServer v.kind → v.toSpan.timings.SR = v.toSpan.timestamp ∧ v.toSpan.timings.SS = v.toSpan.timestamp + v.toSpan.duration) ∧
      (¬ KindServer v.kind → v.toSpan.timings.SR = 0 ∧ v.toSpan.timings.SS = 0)) ∧
    (∀ (v : JaegerSpan) (procs : TagMap),
      let s := v.toSpan procs
      (KindClient (kindJaeger v) → s.timings.CS = s.timestamp ∧ s.timings.CR = s.timestamp + s.duration) ∧
      (¬ KindClient (kindJaeger v) → s.timings.CS = 0 ∧ s.timings.CR = 0) ∧
      (KindServer (kindJaeger v) → s.timings.SR = s.timestamp ∧ s.timings.SS = s.timestamp + s.duration) ∧
      (¬ KindServer (kindJaeger v) → s.timings.SR = 0 ∧ s.timings.SS = 0)) := by
  refine ⟨fun v => ?_, fun v procs => ?_⟩
  · obtain ⟨_, _, _, _, _, _, _, _, _, h⟩ := toSpanV2_spec v
    exact h
  · obtain ⟨_, _, _, _, _, _, _, _, _, h⟩ := toSpanJaeger_spec v procs
    exact h

/-- No span is both. -/
theorem C30_one_kind (kind : Str) : ¬ (KindClient kind ∧ KindServer kind) := by
  rintro ⟨h, h' | ⟨t, rfl, h'⟩⟩
  · cases kind with
    | nil => cases h
    | cons c s =>
      have h1 := (caseVariant_cons (by decide)).mp h
      have h2 := (caseVariant_cons (by decide)).mp h'
      rw [h1.1] at h2
      exact absurd h2.1 (by decide)
  · have h1 := (caseVariant_cons (by decide)).mp h
    exact absurd h1.1 (by decide)

/-- `CLIENT` and `cLient` are the kinds of clients, `SERVER` is that of a server, `producer` and `clients` are neither. -/
theorem C30_witness : KindClient b!"CLIENT" ∧ KindClient b!"cLient" ∧ KindServer b!"SERVER" ∧ ¬ KindClient b!"producer" ∧ ¬ KindServer b!"producer" ∧
    ¬ KindClient b!"clients" := by
  simp only [← equalFold_client, ← equalFold_server]
  decide

/-! ## C31: times of v1 spans -/

/-- Start and duration of a v1 span: from client send and receive if both are there; otherwise from server receive and send if
both are there; otherwise from the fields; without a duration, a millisecond. The timings are those of the annotations. -/
theorem C31_v1_times (v : SpanV1) :
    let s := v.toSpan
    let cs := timingV1 v b!"cs"
    let cr := timingV1 v b!"cr"
    let sr := timingV1 v b!"sr"
    let ss := timingV1 v b!"ss"
    s.timings = { CS := cs, CR := cr, SS := ss, SR := sr } ∧
    (0 < cs ∧ 0 < cr → s.timestamp = cs ∧ s.duration = orMillisecond (cr - cs)) ∧
    (¬ (0 < cs ∧ 0 < cr) → 0 < sr ∧ 0 < ss → s.timestamp = sr ∧ s.duration = orMillisecond (ss - sr)) ∧
    (¬ (0 < cs ∧ 0 < cr) → ¬ (0 < sr ∧ 0 < ss) → s.timestamp = nanos v.timestamp ∧ s.duration = orMillisecond (nanos v.duration)) := by
  obtain ⟨_, _, _, _, _, _, _, h8, h9, h10⟩ := toSpanV1_spec v
  refine ⟨h8, ?_, ?_, ?_⟩
  · intro h
    rw [h9, h10, if_pos h, if_pos h]
    exact ⟨rfl, rfl⟩
  · intro h h'
    rw [h9, h10, if_neg h, if_neg h, if_pos h', if_pos h']
    exact ⟨rfl, rfl⟩
  · intro h h'
    rw [h9, h10, if_neg h, if_neg h, if_neg h', if_neg h']
    exact ⟨rfl, rfl⟩

/-- A span with both pairs, one with only a server's, and one with half a pair. -/
theorem C31_witness :
    let a (value : Str) (timestamp : UInt64) : AnnotationV1 := { value, timestamp }
    let both : SpanV1 := { annotations := [a b!"cs" 10, a b!"sr" 12, a b!"ss" 17, a b!"cr" 20], timestamp := 1, duration := 99 }
    let server : SpanV1 := { annotations := [a b!"sr" 12, a b!"ss" 17, a b!"x" 1, {}], timestamp := 1, duration := 99 }
    let half : SpanV1 := { annotations := [a b!"sr" 12, {}, {}, {}], timestamp := 1, duration := 99 }
    (both.toSpan.timestamp, both.toSpan.duration) = (10000, 10000) ∧ (server.toSpan.timestamp, server.toSpan.duration) = (12000, 5000) ∧
    (half.toSpan.timestamp, half.toSpan.duration) = (1000, 99000) := by
  decide +kernel

/-! ## C32: jaeger parent and service -/

/-- A jaeger span's parent is its last `CHILD_OF` reference, or the span itself; its service is the name of its process. -/
theorem C32_jaeger (v : JaegerSpan) (procs : TagMap) :
    let s := v.toSpan procs
    s.id = v.spanId ∧ s.trace = v.traceId ∧ s.name = v.operationName ∧
    (∀ before after id, v.references = before ++ (b!"CHILD_OF", id) :: after → (∀ r ∈ after, r.1 ≠ b!"CHILD_OF") → s.parent = id) ∧
    ((∀ r ∈ v.references, r.1 ≠ b!"CHILD_OF") → s.parent = s.id ∧ s.isRoot) ∧
    (∀ name, procs[v.processId]? = some name → s.service = name) ∧
    (procs[v.processId]? = none → s.service = []) := by
  obtain ⟨h1, h2, h3, h4, h5, _⟩ := toSpanJaeger_spec v procs
  refine ⟨h1, h2, h4, ?_, ?_, ?_, ?_⟩
  · intro before after id hr hn
    rw [h3, parentJaeger, hr, last?]
    have hf : after.filter (fun r => decide (r.1 = b!"CHILD_OF")) = [] :=
      List.filter_eq_nil_iff.mpr (by intro r hr; simpa using hn r hr)
    rw [List.filter_append, List.filter_cons_of_pos (by simp), hf]
    simp
  · intro hn
    have : (v.toSpan procs).parent = (v.toSpan procs).id := by
      rw [h3, h1, parentJaeger, last?, List.filter_eq_nil_iff.mpr (by intro r hr; simpa using hn r hr)]
      rfl
    exact ⟨this, by simp only [Span.isRoot, this, beq_self_eq_true]⟩
  · intro name hn
    rw [h5, hn]
    rfl
  · intro hn
    rw [h5, hn]
    rfl

/-- A span with three references. -/
theorem C32_witness :
    let v : JaegerSpan := { spanId := 7, references := [(b!"CHILD_OF", 1), (b!"CHILD_OF", 2), (b!"FOLLOWS_FROM", 3)], processId := b!"p1" }
    ((v.toSpan (({} : TagMap).insert b!"p1" b!"web")).parent, (v.toSpan (({} : TagMap).insert b!"p1" b!"web")).service) = (2, b!"web") := by
  decide +kernel

/-! ## C64: identity, service and tags of v1 spans -/

/-- A v1 span keeps ids and name; its service is the first named one, of the annotations with a time, then of the binary annotations; its tags
are the binary annotations, where the last one with a key counts. -/
theorem C64_v1_fields (v : SpanV1) :
    let s := v.toSpan
    s.id = v.id ∧ s.trace = v.traceId ∧ s.parent = v.parentId ∧ s.name = v.name ∧ s.service = serviceV1 v ∧ ∀ key, s.tag key = tagV1 v key := by
  obtain ⟨h1, h2, h3, h4, h5, _, h7, _⟩ := toSpanV1_spec v
  exact ⟨h1, h2, h3, h4, h5, h7⟩

/-- A v2 span keeps ids, name, service and tags. -/
theorem C64_v2_fields (v : SpanV2) :
    let s := v.toSpan
    s.id = v.id ∧ s.trace = v.traceId ∧ s.parent = v.parentId ∧ s.name = v.name ∧ s.service = v.endpoint.serviceName ∧
    ∀ key, key ≠ b!"protocolVersion" → s.tag key = (v.tags.getD ∅)[key]? := by
  obtain ⟨h1, h2, h3, h4, h5, _, h7, _⟩ := toSpanV2_spec v
  exact ⟨h1, h2, h3, h4, h5, fun key hk => by rw [h7, if_neg hk]⟩

theorem C64_witness :
    let v : SpanV1 := {
      annotations := [{ timestamp := 0, endpoint := { serviceName := b!"untimed" } }, { timestamp := 1, value := b!"cs" }, {}, {}],
      binaryAnnotations := { cells := [{ key := b!"a", value := b!"1", endpoint := { serviceName := b!"web" } }, { key := b!"a", value := b!"2" },
        { key := b!"stale" }], len := 2 } }
    serviceV1 v = b!"web" ∧ tagV1 v b!"a" = some b!"2" ∧ tagV1 v b!"stale" = none := by
  decide +kernel

/-! ## C65: tags of jaeger spans -/

/-- The tags of a jaeger span are those with string values; `component` becomes `lc`; the last one with a key counts; `span.kind` and
`internal.span.format` are left out. -/
theorem C65_jaeger_tags (v : JaegerSpan) (procs : TagMap) (key : Str) : (v.toSpan procs).tag key = tagJaegerSpan v key := by
  obtain ⟨_, _, _, _, _, _, h7, _⟩ := toSpanJaeger_spec v procs
  exact h7 key

theorem C65_witness :
    let v : JaegerSpan := { tags := [(b!"lc", .string b!"a"), (b!"component", .string b!"b"), (b!"n", .other), (b!"span.kind", .string b!"client")] }
    tagJaegerSpan v b!"lc" = some b!"b" ∧ tagJaegerSpan v b!"n" = none ∧ tagJaegerSpan v b!"component" = none ∧ kindJaeger v = b!"client" := by
  decide +kernel

/-! ## C66: times are exact -/

/-- Microseconds up to the year 294247 are converted without loss. -/
theorem C66_exact (us : UInt64) (h : us.toNat ≤ 9223372036854775) : (nanos us).toInt = 1000 * us.toNat := by
  unfold nanos
  have h1 : us.toInt64.toInt = us.toNat := by
    show us.toBitVec.toInt = us.toNat
    rw [BitVec.toInt_eq_toNat_bmod]
    exact Int.bmod_eq_of_le (by rw [UInt64.toNat_toBitVec]; omega) (by rw [UInt64.toNat_toBitVec]; omega)
  rw [Int64.toInt_mul, h1]
  have : (1000 : Int64).toInt = 1000 := by decide
  rw [this, Int.bmod_eq_of_le (by omega) (by omega)]
  omega

/-- So they are for the three formats: start and a duration that is not 0. -/
theorem C66_times_exact :
    (∀ v : SpanV2, v.timestamp.toNat ≤ 9223372036854775 → v.toSpan.timestamp.toInt = 1000 * v.timestamp.toNat) ∧
    (∀ v : SpanV2, v.duration ≠ 0 → v.duration.toNat ≤ 9223372036854775 → v.toSpan.duration.toInt = 1000 * v.duration.toNat) ∧
    (∀ (v : JaegerSpan) procs, v.timestamp.toNat ≤ 9223372036854775 → (v.toSpan procs).timestamp.toInt = 1000 * v.timestamp.toNat) ∧
    (∀ (v : JaegerSpan) procs, v.duration ≠ 0 → v.duration.toNat ≤ 9223372036854775 →
      (v.toSpan procs).duration.toInt = 1000 * v.duration.toNat) ∧
    (∀ v : SpanV1, ¬ (0 < timingV1 v b!"cs" ∧ 0 < timingV1 v b!"cr") → ¬ (0 < timingV1 v b!"sr" ∧ 0 < timingV1 v b!"ss") →
      (v.timestamp.toNat ≤ 9223372036854775 → v.toSpan.timestamp.toInt = 1000 * v.timestamp.toNat) ∧
      (v.duration ≠ 0 → v.duration.toNat ≤ 9223372036854775 → v.toSpan.duration.toInt = 1000 * v.duration.toNat)) := by
  have dur : ∀ d : UInt64, d ≠ 0 → d.toNat ≤ 9223372036854775 → (orMillisecond (nanos d)).toInt = 1000 * d.toNat := by
    intro d h0 hd
    have he := C66_exact d hd
    have : nanos d ≠ 0 := by
      intro hz
      rw [hz] at he
      have h1 : (0 : Int64).toInt = 0 := by decide
      rw [h1] at he
      have : d.toNat = 0 := by omega
      exact h0 (UInt64.toNat_inj.mp this)
    unfold orMillisecond
    rw [if_neg this]
    exact he
  refine ⟨fun v h => ?_, fun v h0 h => ?_, fun v procs h => ?_, fun v procs h0 h => ?_, fun v n1 n2 => ⟨fun h => ?_, fun h0 h => ?_⟩⟩
  · obtain ⟨_, _, _, _, _, _, _, h8, _⟩ := toSpanV2_spec v
    rw [h8]; exact C66_exact _ h
  · obtain ⟨_, _, _, _, _, _, _, _, h9, _⟩ := toSpanV2_spec v
    rw [h9]; exact dur _ h0 h
  · obtain ⟨_, _, _, _, _, _, _, h8, _⟩ := toSpanJaeger_spec v procs
    rw [h8]; exact C66_exact _ h
  · obtain ⟨_, _, _, _, _, _, _, _, h9, _⟩ := toSpanJaeger_spec v procs
    rw [h9]; exact dur _ h0 h
  · rw [((C31_v1_times v).2.2.2 n1 n2).1]; exact C66_exact _ h
  · rw [((C31_v1_times v).2.2.2 n1 n2).2]; exact dur _ h0 h

/-- The bound cannot be larger: one more microsecond becomes negative. -/
theorem C66_witness : (nanos 9223372036854775).toInt = 9223372036854775000 ∧ (nanos 9223372036854776).toInt < 0 := by
  decide +kernel

end Verif
