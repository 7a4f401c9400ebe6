import Verif.Proofs.Sink

/-!
# The Datadog sink: C58–C60
-/

namespace Verif

/-- C58: the converted span. -/
theorem C58_reported (s : Span) : Reported s (toDatadog s) := toDatadog_reported s

/-- C58: the resource is never empty. -/
theorem C58_resource {s : Span} {d : DDSpan} (h : Reported s d) : d.resource ≠ [] := by
  rw [h.resource]
  by_cases hs : s.name = []
  · rw [if_pos hs]; decide
  · rw [if_neg hs]; exact hs

/-- C58: two spans are reported alike only if they agree in everything but timings, and in durations up to a microsecond and an empty name. -/
theorem C58_lossless {s s' : Span} (h : toDatadog s = toDatadog s') : s.id = s'.id ∧ s.trace = s'.trace ∧ s.parent = s'.parent ∧ s.service = s'.service ∧
    s.timestamp = s'.timestamp ∧ s.tags = s'.tags ∧ (s.name ≠ [] → s'.name ≠ [] → s.name = s'.name) ∧ (1000 ≤ s.duration.toInt → 1000 ≤ s'.duration.toInt → s.duration = s'.duration) := by
  have r := toDatadog_reported s
  have r' := toDatadog_reported s'
  rw [← h] at r'
  refine ⟨?_, ?_, ?_, r.service.1.symm.trans r'.service.1, r.start.symm.trans r'.start, r.tags.symm.trans r'.tags, fun h1 h2 => ?_, fun h1 h2 => ?_⟩
  · exact Int64.toBitVec_inj.mp (r.spanID.symm.trans r'.spanID)
  · exact Int64.toBitVec_inj.mp (r.traceID.symm.trans r'.traceID)
  · exact Int64.toBitVec_inj.mp (r.parentID.symm.trans r'.parentID)
  · have e := r.resource.symm.trans r'.resource
    rwa [if_neg h1, if_neg h2] at e
  · have e := r.duration.symm.trans r'.duration
    apply Int64.toInt_inj.mp
    omega

theorem C58_witness : (toDatadog { id := -1, trace := 5, service := b!"svc", duration := 3, tags := some (.ofList [(b!"error", b!"")]) }).spanID = 0xffffffffffffffff ∧
    (toDatadog { id := -1, trace := 5, duration := 3, tags := some (.ofList [(b!"error", b!"")]) }).error = 1 ∧
    (toDatadog { id := -1, trace := 5, duration := 3, tags := some (.ofList [(b!"error", b!"false")]) }).error = 0 ∧
    (toDatadog { id := -1, trace := 5, duration := -3 }).duration = 1000 := by decide +kernel

/-- C59: under every schedule the spans received are, in order, those of the batches and those not flushed yet; every batch groups its spans by trace
and keeps their order, and is either discarded or goes to the sender. This is what the memory holds at any later time. -/
theorem C59_partition {w : SinkRun} (h : SinkRun.Reachable w) : ∃ chunks current, Partition w chunks current := by
  obtain ⟨chunks, cur, inv⟩ := h.inv
  exact ⟨chunks, cur, inv.part⟩

/-- C59: a batch is discarded exactly if eight batches are waiting. -/
theorem C59_discard {w : SinkRun} (h : SinkRun.Reachable w) (since now : Time) {trace : List Span} {ok : Bool} {b : ByTrace}
    (hb : (w.sink.receive trace now).2 = some (ok, b) ∨ (w.sink.tick since now).2 = some (ok, b)) : ok = false ↔ w.sink.grouped.length = 8 := by
  obtain ⟨chunks, cur, inv⟩ := h.inv
  have key : ∀ (k : Sink) (f : Bool), k.grouped = w.sink.grouped → (k.flush f now).2 = some (ok, b) → (ok = false ↔ w.sink.grouped.length = 8) := by
    intro k f hk hf
    have hq := inv.queue
    rw [← hk] at hq ⊢
    unfold Sink.flush at hf
    by_cases h1 : f = true ∧ k.spanCount > 0
    · rw [if_pos h1] at hf
      by_cases h2 : k.grouped.length < 8
      · rw [if_pos h2] at hf
        simp only [Option.some.injEq, Prod.mk.injEq] at hf
        rw [← hf.1]
        constructor
        · intro h; cases h
        · intro h; omega
      · rw [if_neg h2] at hf
        simp only [Option.some.injEq, Prod.mk.injEq] at hf
        rw [← hf.1]
        constructor
        · intro _; omega
        · intro _; rfl
    · rw [if_neg h1] at hf; cases hf
  rcases hb with hb | hb
  · obtain ⟨_, _, _, h4, _, _⟩ := addSpans_spec trace inv.bound inv.part.current inv.below
    exact key { trace.foldl Sink.addSpan w.sink with spanCount := (trace.foldl Sink.addSpan w.sink).spanCount + trace.length } _ h4 hb
  · exact key w.sink _ rfl hb

/-- C59: the first batch is never discarded. -/
theorem C59_first {w : SinkRun} (h : SinkRun.Reachable w) (hl : w.log ≠ []) : w.handed ++ w.sink.grouped ≠ [] := by
  obtain ⟨chunks, cur, inv⟩ := h.inv
  rw [← inv.part.sent]
  exact fun e => inv.first hl (List.map_eq_nil_iff.mp e)

/-- C59: every batch of the sender is sent as a list of traces, whatever the order of the map: each list has all spans of the batch with
one trace id, in order; different lists are of different traces; and together they are the spans of one of the chunks. -/
theorem C59_sent {w : SinkRun} (h : SinkRun.Reachable w) {b : ByTrace} (hb : b ∈ w.handed) {range : List (UInt64 × List Nat)} (hr : IsRange range b) :
    ∃ chunks current chunk traces, Partition w chunks current ∧ chunk ∈ chunks ∧ submitBatch w.sink.memory range = some traces ∧
      (∀ t ∈ traces, ∃ key, t ≠ [] ∧ t = (ofTrace key chunk).map toDatadog) ∧
      (traces.map fun t => t.head?.map (·.traceID)).Nodup ∧
      traces.flatten.Perm (chunk.map toDatadog) := by
  obtain ⟨chunks, cur, inv⟩ := h.inv
  have hmem : ∃ e ∈ w.log, e.2 = b := by
    have : b ∈ (w.log.filter (·.1)).map (·.2) := by rw [inv.part.sent]; exact List.mem_append_left _ hb
    obtain ⟨e, he, rfl⟩ := List.mem_map.mp this
    exact ⟨e, (List.mem_filter.mp he).1, rfl⟩
  obtain ⟨e, he, rfl⟩ := hmem
  obtain ⟨i, hi, rfl⟩ := List.mem_iff_getElem.mp he
  have hic : i < chunks.length := by rw [inv.part.count]; exact hi
  have hg := inv.part.batches i _ _ (List.getElem?_eq_getElem hic) (List.getElem?_eq_getElem hi)
  have hch : chunks[i] ∈ chunks := List.getElem_mem hic
  generalize chunks[i] = chunk at hg hch
  have hne := inv.nonempty chunk hch
  obtain ⟨traces, h1, h2⟩ := submit_call hg hne hr
  exact ⟨chunks, cur, chunk, traces, inv.part, hch, h1, h2.groups, h2.distinct, h2.all⟩

/-- C60: between events fewer than 1000 spans are buffered; no batch is empty. -/
theorem C60_bounded {w : SinkRun} (h : SinkRun.Reachable w) : ∃ chunks current, Partition w chunks current ∧ current.length < 1000 ∧ w.sink.spanCount = current.length ∧
    (∀ c ∈ chunks, c ≠ []) ∧ w.sink.grouped.length ≤ 8 := by
  obtain ⟨chunks, cur, inv⟩ := h.inv
  exact ⟨chunks, cur, inv.part, inv.small, inv.count, inv.nonempty, inv.queue⟩

/-- C60: a tick flushes everything that is buffered, if nothing was flushed yet, or 1.8 seconds passed since the last flush; otherwise it does nothing. -/
theorem C60_tick {w : SinkRun} (h : SinkRun.Reachable w) (since now : Time) :
    ((∀ t, w.times.getLast? = some t → since - t ≥ 1800000000) → 0 < w.sink.spanCount →
      (w.tick since now).sink.spanCount = 0 ∧ (w.tick since now).sink.byTrace = ∅ ∧ ∃ ok, (w.tick since now).log = w.log ++ [(ok, w.sink.byTrace)]) ∧
    ((∃ t, w.times.getLast? = some t ∧ since - t < 1800000000) ∨ w.sink.spanCount = 0 → w.tick since now = w) := by
  obtain ⟨chunks, cur, inv⟩ := h.inv
  constructor
  · intro ht hc
    have hflush : w.sink.due since = true := by
      unfold Sink.due
      cases hl : w.sink.lastFlushTime with
      | none => rfl
      | some t => exact decide_eq_true (ht t (by rw [← inv.last, hl]))
    unfold SinkRun.tick Sink.tick
    dsimp only
    rw [hflush]
    unfold Sink.flush
    rw [if_pos ⟨rfl, hc⟩]
    by_cases hq : w.sink.grouped.length < 8
    · rw [if_pos hq]; exact ⟨rfl, rfl, true, rfl⟩
    · rw [if_neg hq]; exact ⟨rfl, rfl, false, rfl⟩
  · intro hn
    have hno : ∀ f : Bool, (f = true → w.sink.spanCount = 0) → w.sink.flush f now = (w.sink, none) := by
      intro f hf
      unfold Sink.flush
      rw [if_neg]
      rintro ⟨h1, h2⟩
      have := hf h1
      omega
    unfold SinkRun.tick Sink.tick
    rw [hno]
    · simp
    · rcases hn with ⟨t, ht, hlt⟩ | hn
      · unfold Sink.due
        rw [inv.last, ht]
        intro hh
        have hge : since - t ≥ 1800000000 := of_decide_eq_true hh
        exact absurd hge (Int.not_le.mpr hlt)
      · exact fun _ => hn

/-- C60: a trace that fills the buffer to 1000 spans or more is flushed at once, together with all that was buffered. -/
theorem C60_full {w : SinkRun} (h : SinkRun.Reachable w) {chunks current} (hp : Partition w chunks current) (trace : List Span) (now : Time) :
    (1000 ≤ w.sink.spanCount + trace.length → (w.receive trace now).sink.spanCount = 0 ∧ (w.receive trace now).log.length = w.log.length + 1) ∧
    (w.sink.spanCount + trace.length < 1000 → (w.receive trace now).sink.spanCount = w.sink.spanCount + trace.length ∧ (w.receive trace now).log = w.log) := by
  obtain ⟨_, _, inv⟩ := h.inv
  obtain ⟨_, _, _, _, h5, _⟩ := addSpans_spec trace inv.bound hp.current inv.below
  unfold SinkRun.receive Sink.receive
  dsimp only
  rw [h5]
  unfold Sink.flush
  dsimp only
  constructor
  · intro hl
    rw [if_pos ⟨by simpa using hl, by omega⟩]
    by_cases hq : (trace.foldl Sink.addSpan w.sink).grouped.length < 8
    · rw [if_pos hq]; simp
    · rw [if_neg hq]; simp
  · intro hl
    rw [if_neg (by simp; omega)]
    simp

theorem C60_witness : ∃ w, SinkRun.Reachable w ∧ w.log.length = 2 ∧ w.handed.length = 1 ∧ w.sink.grouped.length = 1 ∧ w.sink.spanCount = 2 ∧ w.times = [5, 1800000005] := by
  refine ⟨_, .receive [{ id := 4, trace := 2 }, { id := 5, trace := 3 }] 7 <| .tick 1800000005 1800000005 <| .receive [{ id := 3, trace := 2 }] 6 <| .tick 100 100 <|
    .take (.tick 1 5 <| .receive [{ id := 1, trace := 1 }, { id := 2, trace := 1 }] 0 <| .init) rfl, ?_⟩
  decide +kernel

end Verif
