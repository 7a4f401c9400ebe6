import Verif.Spec.Sink
import Verif.Proofs.Maps

/-!
# The sink
-/

namespace Verif

theorem toDatadog_reported (s : Span) : Reported s (toDatadog s) := by
  refine ⟨rfl, rfl, rfl, ⟨rfl, rfl⟩, rfl, rfl, ?_, rfl, rfl, ?_⟩
  · show (if s.duration < 1000 then (1000 : Int64) else s.duration).toInt = _
    by_cases h : s.duration < 1000
    · rw [if_pos h]
      have h' := Int64.lt_iff_toInt_lt.mp h
      have e : (1000 : Int64).toInt = 1000 := by decide
      rw [e] at h' ⊢
      omega
    · rw [if_neg h]
      have h' : ¬ s.duration.toInt < (1000 : Int64).toInt := fun hh => h (Int64.lt_iff_toInt_lt.mpr hh)
      have e : (1000 : Int64).toInt = 1000 := by decide
      rw [e] at h'
      omega
  · simp only [toDatadog]
    cases h : (s.tags.getD ∅)[b!"error"]? with
    | none => simp
    | some v =>
      by_cases hv : v ≠ b!"false" ∧ v ≠ b!"0"
      · left
        exact ⟨by simp only [if_pos hv], v, rfl, hv.1, hv.2⟩
      · right
        refine ⟨by simp only [if_neg hv], ?_⟩
        rintro ⟨v', h1, h2, h3⟩
        rw [Option.some.injEq] at h1; subst h1
        exact hv ⟨h2, h3⟩

/-- The pointers of a batch. -/
def PtrsBelow (free : Nat) (b : ByTrace) : Prop := ∀ (key : UInt64) ptrs, b[key]? = some ptrs → ∀ p ∈ ptrs, p < free

theorem Grouping.mono {mem mem' : List DDSpan} {free : Nat} {b : ByTrace} {spans : List Span} (h : Grouping mem b spans) (hb : PtrsBelow free b)
    (hm : ∀ p, p < free → mem'.getD p {} = mem.getD p {}) : Grouping mem' b spans := by
  intro key
  rcases h key with h | ⟨ptrs, h1, h2, h3⟩
  · exact .inl h
  · refine .inr ⟨ptrs, h1, h2, ?_⟩
    rw [← h3]
    exact List.map_congr_left fun p hp => hm p (hb key ptrs h1 p hp)

theorem PtrsBelow.mono {free free' : Nat} {b : ByTrace} (h : PtrsBelow free b) (hf : free ≤ free') : PtrsBelow free' b :=
  fun key ptrs hk p hp => Nat.lt_of_lt_of_le (h key ptrs hk p hp) hf

theorem grouping_empty (mem : List DDSpan) : Grouping mem ∅ [] := fun _ => .inl ⟨by simp, rfl⟩

/-- What a step keeps: the memory below `free`. -/
structure Kept (k k' : Sink) : Prop where
  free : k.free ≤ k'.free
  bound : k'.free ≤ k'.memory.length
  memory : ∀ p, p < k.free → k'.memory.getD p {} = k.memory.getD p {}

theorem ofTrace_snoc (key : UInt64) (l : List Span) (s : Span) :
    ofTrace key (l ++ [s]) = if s.trace.toUInt64 = key then ofTrace key l ++ [s] else ofTrace key l := by
  unfold ofTrace
  rw [List.filter_append]
  by_cases h : s.trace.toUInt64 = key
  · rw [if_pos h]; simp [h]
  · rw [if_neg h]; simp [h]

theorem addSpan_spec {k : Sink} {cur : List Span} (hf : k.free ≤ k.memory.length) (hg : Grouping k.memory k.byTrace cur) (hb : PtrsBelow k.free k.byTrace) (s : Span) :
    Kept k (k.addSpan s) ∧ Grouping (k.addSpan s).memory (k.addSpan s).byTrace (cur ++ [s]) ∧ PtrsBelow (k.addSpan s).free (k.addSpan s).byTrace ∧
    (k.addSpan s).grouped = k.grouped ∧ (k.addSpan s).spanCount = k.spanCount ∧ (k.addSpan s).lastFlushTime = k.lastFlushTime := by
  -- the free place, and the memory with it
  obtain ⟨mem, free, hm, hfr, hfree, hlt, hmem⟩ : ∃ mem free, (if k.memory.length - k.free < 1 then k.memory ++ List.replicate (4 * 1024) ({} : DDSpan) else k.memory) = mem ∧
      (if k.memory.length - k.free < 1 then k.memory.length else k.free) = free ∧
      k.free ≤ free ∧ free < mem.length ∧ ∀ p, p < k.free → mem.getD p {} = k.memory.getD p {} := by
    by_cases h : k.memory.length - k.free < 1
    · refine ⟨_, _, if_pos h, if_pos h, hf, by rw [List.length_append, List.length_replicate]; omega, fun p hp => ?_⟩
      rw [List.getD_eq_getElem?_getD, List.getD_eq_getElem?_getD, List.getElem?_append_left (by omega)]
    · exact ⟨_, _, if_neg h, if_neg h, Nat.le_refl _, by omega, fun _ _ => rfl⟩
  have hset : ∀ p, p < k.free → (mem.set free (toDatadog s)).getD p {} = k.memory.getD p {} := by
    intro p hp
    rw [← hmem p hp, List.getD_eq_getElem?_getD, List.getD_eq_getElem?_getD, List.getElem?_set_ne (by omega)]
  have hself : (mem.set free (toDatadog s)).getD free {} = toDatadog s := by
    rw [List.getD_eq_getElem?_getD, List.getElem?_set_self hlt]; rfl
  have hk : k.addSpan s = { k with
    memory := mem.set free (toDatadog s)
    free := free + 1
    byTrace := k.byTrace.insert (toDatadog s).traceID ((k.byTrace.getD (toDatadog s).traceID []) ++ [free]) } := by
    unfold Sink.addSpan
    dsimp only
    rw [hm, hfr]
  have hid : (toDatadog s).traceID = s.trace.toUInt64 := rfl
  rw [hk, hid]
  refine ⟨⟨by dsimp only; omega, by simp only [List.length_set]; omega, hset⟩, ?_, ?_, rfl, rfl, rfl⟩
  · have hg' := hg.mono hb hset
    intro key
    dsimp only
    rw [get_insert, ofTrace_snoc]
    by_cases hkey : s.trace.toUInt64 = key
    · rw [if_pos hkey, if_pos hkey]
      subst hkey
      refine .inr ⟨_, rfl, by simp, ?_⟩
      rw [List.map_append, List.map_append]
      congr 1
      · rw [Std.ExtTreeMap.getD_eq_getD_getElem?]
        rcases hg' s.trace.toUInt64 with ⟨h1, h2⟩ | ⟨ptrs, h1, h2, h3⟩
        · rw [h1, h2]; rfl
        · rw [h1]; exact h3
      · simp only [List.map_cons, List.map_nil, hself]
    · rw [if_neg hkey, if_neg hkey]
      exact hg' key
  · intro key ptrs
    dsimp only
    rw [get_insert]
    by_cases hkey : s.trace.toUInt64 = key
    · rw [if_pos hkey]
      intro h p hp
      rw [Option.some.injEq] at h; subst h
      rw [Std.ExtTreeMap.getD_eq_getD_getElem?, List.mem_append, List.mem_singleton] at hp
      rcases hp with hp | rfl
      · cases hq : k.byTrace[s.trace.toUInt64]? with
        | none => rw [hq] at hp; cases hp
        | some q =>
          rw [hq] at hp
          have := hb _ _ hq p hp
          omega
      · omega
    · rw [if_neg hkey]
      intro h p hp
      have := hb _ _ h p hp
      omega

theorem Kept.trans {a b c : Sink} (h : Kept a b) (h' : Kept b c) : Kept a c :=
  ⟨Nat.le_trans h.free h'.free, h'.bound, fun p hp => by rw [h'.memory p (Nat.lt_of_lt_of_le hp h.free), h.memory p hp]⟩

theorem addSpans_spec (trace : List Span) : ∀ {k : Sink} {cur : List Span}, k.free ≤ k.memory.length → Grouping k.memory k.byTrace cur → PtrsBelow k.free k.byTrace →
    Kept k (trace.foldl Sink.addSpan k) ∧ Grouping (trace.foldl Sink.addSpan k).memory (trace.foldl Sink.addSpan k).byTrace (cur ++ trace) ∧
    PtrsBelow (trace.foldl Sink.addSpan k).free (trace.foldl Sink.addSpan k).byTrace ∧
    (trace.foldl Sink.addSpan k).grouped = k.grouped ∧ (trace.foldl Sink.addSpan k).spanCount = k.spanCount ∧
    (trace.foldl Sink.addSpan k).lastFlushTime = k.lastFlushTime := by
  induction trace with
  | nil =>
    intro k cur hf hg hb
    rw [List.append_nil]
    exact ⟨⟨Nat.le_refl _, hf, fun _ _ => rfl⟩, hg, hb, rfl, rfl, rfl⟩
  | cons s l ih =>
    intro k cur hf hg hb
    obtain ⟨h1, h2, h3, h4, h5, h6⟩ := addSpan_spec hf hg hb s
    obtain ⟨i1, i2, i3, i4, i5, i6⟩ := ih h1.bound h2 h3
    rw [List.foldl_cons]
    refine ⟨h1.trans i1, ?_, i3, i4.trans h4, i5.trans h5, i6.trans h6⟩
    rw [List.append_assoc] at i2
    exact i2

theorem Partition.all {w : SinkRun} {chunks : List (List Span)} {cur : List Span} (h : Partition w chunks cur) : w.received.flatten = chunks.flatten ++ cur := by
  obtain ⟨groups, rest, h1, rfl, rfl⟩ := h.whole
  rw [h1, List.flatten_append, List.flatten_flatten]

structure SinkInv (w : SinkRun) (chunks : List (List Span)) (cur : List Span) : Prop where
  part : Partition w chunks cur
  bound : w.sink.free ≤ w.sink.memory.length
  below : PtrsBelow w.sink.free w.sink.byTrace
  belowLog : ∀ e ∈ w.log, PtrsBelow w.sink.free e.2
  count : w.sink.spanCount = cur.length
  small : cur.length < 1000
  queue : w.sink.grouped.length ≤ 8
  nonempty : ∀ c ∈ chunks, c ≠ []
  last : w.sink.lastFlushTime = w.times.getLast?
  first : w.log ≠ [] → w.log.filter (·.1) ≠ []

/-- Flushing, after the spans of an event were added. -/
theorem sinkInv_flush {w : SinkRun} {chunks : List (List Span)} {cur : List Span} (part : Partition w chunks cur)
    (bound : w.sink.free ≤ w.sink.memory.length)
    (below : PtrsBelow w.sink.free w.sink.byTrace)
    (belowLog : ∀ e ∈ w.log, PtrsBelow w.sink.free e.2)
    (count : w.sink.spanCount = cur.length)
    (queue : w.sink.grouped.length ≤ 8)
    (nonempty : ∀ c ∈ chunks, c ≠ []) (last : w.sink.lastFlushTime = w.times.getLast?)
    (first : w.log ≠ [] → w.log.filter (·.1) ≠ []) {flush : Bool} (hflush : flush = false → cur.length < 1000) (now : Time) :
    ∃ chunks' cur', SinkInv { w with sink := (w.sink.flush flush now).1, log := w.log ++ (w.sink.flush flush now).2.toList, times := w.times ++ (w.sink.flush flush now).2.toList.map fun _ => now } chunks' cur' ∧
      chunks <+: chunks' := by
  by_cases h : flush = true ∧ w.sink.spanCount > 0
  · have hcur : cur ≠ [] := by
      intro e; subst e
      rw [count] at h; exact absurd h.2 (by simp)
    have hne : ∀ c ∈ chunks ++ [cur], c ≠ [] := by
      intro c hc
      rcases List.mem_append.mp hc with hc | hc
      · exact nonempty c hc
      · rw [List.mem_singleton] at hc; subst hc; exact hcur
    have hbatch : ∀ (ok : Bool) (i : Nat) (c : List Span) (e : Bool × ByTrace), (chunks ++ [cur])[i]? = some c → (w.log ++ [(ok, w.sink.byTrace)])[i]? = some e → Grouping w.sink.memory e.2 c := by
      intro ok i c e hc he
      by_cases hi : i < chunks.length
      · rw [List.getElem?_append_left hi] at hc
        rw [List.getElem?_append_left (by rw [← part.count]; exact hi)] at he
        exact part.batches i c e hc he
      · rw [List.getElem?_append_right (by omega)] at hc
        rw [List.getElem?_append_right (by rw [← part.count]; omega), ← part.count] at he
        have : i - chunks.length = 0 := by
          have := (List.getElem?_eq_some_iff.mp hc).1
          simp at this; exact this
        rw [this] at hc he
        simp at hc he
        subst hc; subst he
        exact part.current
    have hlog : ∀ ok : Bool, ∀ e ∈ w.log ++ [(ok, w.sink.byTrace)], PtrsBelow w.sink.free e.2 := by
      intro ok e he
      rcases List.mem_append.mp he with he | he
      · exact belowLog e he
      · rw [List.mem_singleton] at he; subst he; exact below
    have hall : ∃ (groups : List (List (List Span))) (rest : List (List Span)), w.received = groups.flatten ++ rest ∧ chunks ++ [cur] = groups.map List.flatten ∧ ([] : List Span) = rest.flatten := by
      obtain ⟨groups, rest, h1, h2, h3⟩ := part.whole
      exact ⟨groups ++ [rest], [], by simp [h1], by simp [h2, h3], rfl⟩
    refine ⟨chunks ++ [cur], [], ?_, List.prefix_append _ _⟩
    by_cases hq : w.sink.grouped.length < 8
    · have hfl : w.sink.flush flush now = ({ w.sink with spanCount := 0, byTrace := ∅, lastFlushTime := some now, grouped := w.sink.grouped ++ [w.sink.byTrace] }, some (true, w.sink.byTrace)) := by
        unfold Sink.flush
        rw [if_pos h, if_pos hq]
      rw [hfl]
      refine ⟨⟨hall, ?_, hbatch true, grouping_empty _, ?_⟩, bound, ?_, hlog true, rfl, by simp, ?_, hne, by simp, by simp⟩
      · simp [part.count]
      · simp [part.sent]
      · intro key ptrs hk; simp at hk
      · simp; omega
    · have hfl : w.sink.flush flush now = ({ w.sink with spanCount := 0, byTrace := ∅, lastFlushTime := some now }, some (false, w.sink.byTrace)) := by
        unfold Sink.flush
        rw [if_pos h, if_neg hq]
      rw [hfl]
      refine ⟨⟨hall, ?_, hbatch false, grouping_empty _, ?_⟩, bound, ?_, hlog false, rfl, by simp, queue, hne, by simp, ?_⟩
      · simp [part.count]
      · simp [part.sent]
      · intro key ptrs hk; simp at hk
      · intro _
        have hlog : w.log ≠ [] := by
          intro e
          have h0 := part.sent
          rw [e] at h0
          have : w.sink.grouped = [] := (List.append_eq_nil_iff.mp h0.symm).2
          rw [this] at hq
          exact hq (by decide)
        have := first hlog
        rw [List.filter_append]
        simpa using this
  · have hfl : w.sink.flush flush now = (w.sink, none) := by
      unfold Sink.flush
      rw [if_neg h]
    rw [hfl]
    refine ⟨chunks, cur, ?_, List.prefix_refl _⟩
    have hlt : cur.length < 1000 := by
      cases hf : flush with
      | false => exact hflush hf
      | true =>
        have : ¬ w.sink.spanCount > 0 := fun hh => h ⟨hf, hh⟩
        omega
    simp only [Option.toList_none, List.map_nil, List.append_nil]
    exact ⟨⟨part.whole, part.count, part.batches, part.current, part.sent⟩, bound, below, belowLog, count, hlt, queue, nonempty, last, first⟩

theorem sinkInv_receive {w : SinkRun} {chunks : List (List Span)} {cur : List Span} (inv : SinkInv w chunks cur) (trace : List Span) (now : Time) :
    ∃ chunks' cur', SinkInv (w.receive trace now) chunks' cur' ∧ chunks <+: chunks' := by
  obtain ⟨h1, h2, h3, h4, h5, h6⟩ := addSpans_spec trace inv.bound inv.part.current inv.below
  let w1 : SinkRun := { w with sink := { trace.foldl Sink.addSpan w.sink with spanCount := (trace.foldl Sink.addSpan w.sink).spanCount + trace.length }, received := w.received ++ [trace] }
  have hwhole : ∃ (groups : List (List (List Span))) (rest : List (List Span)), w.received ++ [trace] = groups.flatten ++ rest ∧ chunks = groups.map List.flatten ∧ cur ++ trace = rest.flatten := by
    obtain ⟨groups, rest, h1, h2, h3⟩ := inv.part.whole
    exact ⟨groups, rest ++ [trace], by rw [h1, List.append_assoc], h2, by simp [h3]⟩
  have := sinkInv_flush (w := w1) (chunks := chunks) (cur := cur ++ trace)
    ⟨hwhole, inv.part.count,
      fun i c e hc he => (inv.part.batches i c e hc he).mono (inv.belowLog e (List.mem_of_getElem? he)) h1.memory, h2, by rw [inv.part.sent]; exact congrArg _ h4.symm⟩
    h1.bound h3 (fun e he => (inv.belowLog e he).mono h1.free)
    (by show _ + trace.length = _; rw [h5, inv.count, List.length_append])
    (by show (trace.foldl Sink.addSpan w.sink).grouped.length ≤ 8; rw [h4]; exact inv.queue) inv.nonempty (h6.trans inv.last) inv.first
    (flush := decide (w1.sink.spanCount ≥ 1000))
    (by
      intro hh
      have hh := of_decide_eq_false hh
      have e : w1.sink.spanCount = (cur ++ trace).length := by
        show _ + trace.length = _; rw [h5, inv.count, List.length_append]
      omega) now
  exact this

theorem sinkInv_tick {w : SinkRun} {chunks : List (List Span)} {cur : List Span} (inv : SinkInv w chunks cur) (since now : Time) :
    ∃ chunks' cur', SinkInv (w.tick since now) chunks' cur' ∧ chunks <+: chunks' :=
  sinkInv_flush inv.part inv.bound inv.below inv.belowLog inv.count inv.queue inv.nonempty inv.last inv.first (fun _ => inv.small) now

theorem sinkInv_take {w : SinkRun} {chunks : List (List Span)} {cur : List Span} (inv : SinkInv w chunks cur) {b : ByTrace} {k : Sink} (hk : w.sink.takeBatch = some (b, k)) :
    SinkInv { w with sink := k, handed := w.handed ++ [b] } chunks cur := by
  unfold Sink.takeBatch at hk
  cases hg : w.sink.grouped with
  | nil => rw [hg] at hk; cases hk
  | cons b' rest =>
    rw [hg] at hk
    simp only [Option.some.injEq, Prod.mk.injEq] at hk
    obtain ⟨rfl, rfl⟩ := hk
    refine ⟨⟨inv.part.whole, inv.part.count, inv.part.batches, inv.part.current, ?_⟩, inv.bound, inv.below, inv.belowLog, inv.count, inv.small, ?_, inv.nonempty, inv.last, inv.first⟩
    · rw [inv.part.sent, hg]; simp
    · have := inv.queue
      rw [hg] at this
      simp at this ⊢; omega

theorem sinkInv_init : SinkInv {} [] [] := by
  refine ⟨⟨⟨[], [], rfl, rfl, rfl⟩, rfl, ?_, grouping_empty _, rfl⟩, Nat.le_refl _, ?_, ?_, rfl, by simp, by simp, ?_, rfl, fun h => absurd rfl h⟩
  · intro i c e h; simp at h
  · intro key ptrs hk; simp at hk
  · intro e he; cases he
  · intro c hc; cases hc

theorem SinkRun.Reachable.inv {w : SinkRun} (h : SinkRun.Reachable w) : ∃ chunks cur, SinkInv w chunks cur := by
  induction h with
  | init => exact ⟨[], [], sinkInv_init⟩
  | receive trace now _ ih =>
    obtain ⟨chunks, cur, inv⟩ := ih
    obtain ⟨chunks', cur', h, _⟩ := sinkInv_receive inv trace now
    exact ⟨chunks', cur', h⟩
  | tick since now _ ih =>
    obtain ⟨chunks, cur, inv⟩ := ih
    obtain ⟨chunks', cur', h, _⟩ := sinkInv_tick inv since now
    exact ⟨chunks', cur', h⟩
  | take _ hk ih =>
    obtain ⟨chunks, cur, inv⟩ := ih
    exact ⟨chunks, cur, sinkInv_take inv hk⟩

/-- Grouping by a list of distinct keys that covers everything. -/
theorem groups_perm : ∀ (keys : List UInt64), keys.Nodup → ∀ (l : List Span), (∀ s ∈ l, s.trace.toUInt64 ∈ keys) →
    (keys.map fun key => ofTrace key l).flatten.Perm l
  | [], _, l, h => by
    cases l with
    | nil => exact List.Perm.refl _
    | cons s l => exact absurd (h s List.mem_cons_self) (by simp)
  | key :: keys, hn, l, h => by
    rw [List.nodup_cons] at hn
    simp only [List.map_cons, List.flatten_cons]
    have hrest : (keys.map fun key => ofTrace key l) = keys.map fun key' => ofTrace key' (l.filter fun s => !decide (s.trace.toUInt64 = key)) := by
      apply List.map_congr_left
      intro key' hk'
      unfold ofTrace
      rw [List.filter_filter]
      apply List.filter_congr
      intro s _
      by_cases hs : s.trace.toUInt64 = key'
      · have hne : key' ≠ key := fun hh => hn.1 (hh ▸ hk')
        simp [hs, hne]
      · simp [hs]
    rw [hrest]
    have ih := groups_perm keys hn.2 (l.filter fun s => !decide (s.trace.toUInt64 = key)) (by
      intro s hs
      rw [List.mem_filter] at hs
      rcases List.mem_cons.mp (h s hs.1) with h' | h'
      · simp [h'] at hs
      · exact h')
    exact (List.Perm.append_left _ ih).trans (List.filter_append_perm _ l)

theorem submitBatch_eq (mem : List DDSpan) (range : List (UInt64 × List Nat)) :
    submitBatch mem range = if range = [] then none else some (range.map fun e => e.2.map fun p => mem.getD p {}) := by
  have hf : ∀ (l : List (UInt64 × List Nat)) (acc : List (List DDSpan)),
      l.foldl (fun traces e => traces ++ [e.2.map fun p => mem.getD p {}]) acc = acc ++ l.map fun e => e.2.map fun p => mem.getD p {} := by
    intro l
    induction l with
    | nil => intro acc; simp
    | cons e l ih => intro acc; rw [List.foldl_cons, ih]; simp
  unfold submitBatch
  rw [hf]
  cases range with
  | nil => rfl
  | cons e l => simp

/-- What the sender makes of a batch. -/
theorem submit_call {mem : List DDSpan} {b : ByTrace} {chunk : List Span} (hg : Grouping mem b chunk) (hne : chunk ≠ []) {range : List (UInt64 × List Nat)} (hr : IsRange range b) :
    ∃ traces, submitBatch mem range = some traces ∧ Call chunk traces := by
  -- the entries of the map
  have hentry : ∀ p ∈ range, ofTrace p.1 chunk ≠ [] ∧ p.2.map (fun q => mem.getD q {}) = (ofTrace p.1 chunk).map toDatadog := by
    intro p hp
    have hk := (mem_range hr).mp hp
    rcases hg p.1 with ⟨h1, _⟩ | ⟨ptrs, h1, h2, h3⟩
    · rw [hk] at h1; cases h1
    · rw [hk, Option.some.injEq] at h1
      rw [h1]; exact ⟨h2, h3⟩
  have hcover : ∀ s ∈ chunk, s.trace.toUInt64 ∈ range.map Prod.fst := by
    intro s hs
    rcases hg s.trace.toUInt64 with ⟨_, h2⟩ | ⟨ptrs, h1, _, _⟩
    · have : s ∈ ofTrace s.trace.toUInt64 chunk := List.mem_filter.mpr ⟨hs, by simp⟩
      rw [h2] at this; cases this
    · exact List.mem_map.mpr ⟨(_, ptrs), (mem_range hr).mpr h1, rfl⟩
  have hrange : range ≠ [] := by
    intro e; subst e
    obtain ⟨s, l, hs⟩ := List.exists_cons_of_ne_nil hne
    have := hcover s (by rw [hs]; exact List.mem_cons_self)
    cases this
  have hmap : (range.map fun e => e.2.map fun p => mem.getD p {}) = (range.map Prod.fst).map fun key => (ofTrace key chunk).map toDatadog := by
    rw [List.map_map]
    exact List.map_congr_left fun p hp => (hentry p hp).2
  refine ⟨_, by rw [submitBatch_eq, if_neg hrange], ⟨?_, ?_, ?_⟩⟩
  · intro t ht
    obtain ⟨p, hp, rfl⟩ := List.mem_map.mp ht
    obtain ⟨h1, h2⟩ := hentry p hp
    refine ⟨p.1, ?_, h2⟩
    rw [h2]
    exact fun hh => h1 (List.map_eq_nil_iff.mp hh)
  · rw [List.map_map]
    have : range.map ((fun t => t.head?.map (·.traceID)) ∘ fun e => e.2.map fun p => mem.getD p ({} : DDSpan)) = (range.map Prod.fst).map some := by
      rw [List.map_map]
      apply List.map_congr_left
      intro p hp
      obtain ⟨h1, h2⟩ := hentry p hp
      simp only [Function.comp]
      rw [h2]
      obtain ⟨s, l, hs⟩ := List.exists_cons_of_ne_nil h1
      have hkey : s.trace.toUInt64 = p.1 := by
        have : s ∈ ofTrace p.1 chunk := by rw [hs]; exact List.mem_cons_self
        simpa using (List.mem_filter.mp this).2
      rw [hs, ← hkey]
      rfl
    rw [this]
    exact (range_keys_nodup hr).map _ (fun a b hab hh => hab (Option.some.inj hh))
  · rw [hmap]
    have := (groups_perm _ (range_keys_nodup hr) chunk hcover).map toDatadog
    rw [List.map_flatten, List.map_map] at this
    exact this

end Verif
