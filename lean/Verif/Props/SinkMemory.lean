import Verif.Spec.SinkMemory
import Verif.Props.Sink

/-!
# C137: The memory that the sink keeps alive
-/

namespace Verif

open Spec

/-- All pointers of the batch are within `n` places in a row. -/
def InRow (b : ByTrace) (n : Nat) : Prop := ∃ a, ∀ (key : UInt64) ptrs, b[key]? = some ptrs → ∀ p ∈ ptrs, a ≤ p ∧ p < a + n

/-- The places of the batch that is collected. -/
structure Compact (k : Sink) (n : Nat) : Prop where
  whole : k.memory.length % 4096 = 0
  bound : k.free ≤ k.memory.length
  tight : k.memory.length < k.free + 4096
  count : n ≤ k.free
  places : ∀ (key : UInt64) ptrs, k.byTrace[key]? = some ptrs → ∀ p ∈ ptrs, k.free - n ≤ p ∧ p < k.free

theorem Compact.addSpan_free {k : Sink} {n : Nat} (h : Compact k n) (s : Span) : (k.addSpan s).free = k.free + 1 := by
  have := h.bound
  unfold Sink.addSpan
  simp only
  split <;> omega

theorem Compact.addSpan {k : Sink} {n : Nat} (h : Compact k n) (s : Span) : Compact (k.addSpan s) (n + 1) := by
  have hfree : (if k.memory.length - k.free < 1 then k.memory.length else k.free) = k.free := by
    have := h.bound
    split <;> omega
  have hlen : (k.addSpan s).memory.length = if k.memory.length - k.free < 1 then k.memory.length + 4096 else k.memory.length := by
    unfold Sink.addSpan
    rw [List.length_set]
    split
    · rw [List.length_append, List.length_replicate]
    · rfl
  have hf : (k.addSpan s).free = k.free + 1 := h.addSpan_free s
  have hw := h.whole
  have hb := h.bound
  have hc := h.count
  have ht := h.tight
  refine ⟨by rw [hlen]; split <;> omega, by rw [hlen, hf]; split <;> omega, by rw [hlen, hf]; split <;> omega, by rw [hf]; omega, ?_⟩
  intro key ptrs hk p hp
  unfold Sink.addSpan at hk
  simp only [hfree] at hk
  rw [Std.ExtTreeMap.getElem?_insert] at hk
  have old : ∀ p ptrs, k.byTrace[key]? = some ptrs → p ∈ ptrs → k.free - n ≤ p ∧ p < k.free := fun p ptrs hk hp => h.places key ptrs hk p hp
  rw [hf]
  split at hk
  · next e =>
    cases hk
    rcases List.mem_append.mp hp with hp | hp
    · have e := Std.LawfulEqCmp.eq_of_compare (cmp := compare) e
      rw [Std.ExtTreeMap.getD_eq_getD_getElem?, e] at hp
      cases hg : k.byTrace[key]? with
      | none => rw [hg] at hp; simp at hp
      | some l =>
        rw [hg] at hp
        have := old p l hg hp
        omega
    · rw [List.mem_singleton.mp hp]; omega
  · have := old p ptrs hk hp
    omega

theorem addSpan_rest (k : Sink) (s : Span) : (k.addSpan s).spanCount = k.spanCount ∧ (k.addSpan s).grouped = k.grouped := ⟨rfl, rfl⟩

theorem Compact.addSpans (trace : List Span) : ∀ {k : Sink} {n : Nat}, Compact k n → Compact (trace.foldl Sink.addSpan k) (n + trace.length) ∧
    (trace.foldl Sink.addSpan k).spanCount = k.spanCount ∧ (trace.foldl Sink.addSpan k).grouped = k.grouped ∧ (trace.foldl Sink.addSpan k).free = k.free + trace.length := by
  induction trace with
  | nil => intro k n h; exact ⟨h, rfl, rfl, rfl⟩
  | cons s trace ih =>
    intro k n h
    obtain ⟨h1, h2, h3, h4⟩ := ih (h.addSpan s)
    refine ⟨?_, h2.trans rfl, h3.trans rfl, ?_⟩
    · rw [List.length_cons, Nat.add_comm trace.length 1, ← Nat.add_assoc]
      exact h1
    · show _ = k.free + (trace.length + 1)
      rw [show (s :: trace).foldl Sink.addSpan k = trace.foldl Sink.addSpan (k.addSpan s) from rfl, h4, h.addSpan_free s]
      omega

/-- What holds after every event: the places of all batches. -/
structure Places (L : Nat) (w : SinkRun) : Prop where
  compact : Compact w.sink w.sink.spanCount
  all : w.sink.free = w.received.flatten.length
  small : w.sink.spanCount < 1000
  queue : w.sink.grouped.length ≤ 8
  grouped : ∀ b ∈ w.sink.grouped, InRow b (999 + L)
  handed : ∀ b ∈ w.handed, InRow b (999 + L)

theorem flush_places {L : Nat} {k : Sink} (hc : Compact k k.spanCount) (hs : k.spanCount ≤ 999 + L) (hq : k.grouped.length ≤ 8) (hg : ∀ b ∈ k.grouped, InRow b (999 + L)) (flush : Bool) (now : Time)
    (hf : flush = false → k.spanCount < 1000) :
    Compact (k.flush flush now).1 (k.flush flush now).1.spanCount ∧ (k.flush flush now).1.spanCount < 1000 ∧ (k.flush flush now).1.grouped.length ≤ 8 ∧
      (∀ b ∈ (k.flush flush now).1.grouped, InRow b (999 + L)) ∧ (k.flush flush now).1.free = k.free := by
  unfold Sink.flush
  split
  · have hcomp : ∀ g, Compact { k with spanCount := 0, byTrace := ∅, lastFlushTime := some now, grouped := g } 0 := fun g =>
      ⟨hc.whole, hc.bound, hc.tight, Nat.zero_le _, fun key ptrs hk => by simp at hk⟩
    split
    · next h8 =>
      refine ⟨hcomp _, by simp, by simp only [List.length_append, List.length_singleton]; omega, fun b hb => ?_, rfl⟩
      rcases List.mem_append.mp hb with hb | hb
      · exact hg b hb
      · rw [List.mem_singleton.mp hb]
        refine ⟨k.free - k.spanCount, fun key ptrs hk p hp => ?_⟩
        have := hc.places key ptrs hk p hp
        have := hc.count
        omega
    · exact ⟨hcomp _, by simp, hq, hg, rfl⟩
  · next h =>
    refine ⟨hc, ?_, hq, hg, rfl⟩
    show k.spanCount < 1000
    cases flush
    · exact hf rfl
    · simp only [true_and] at h
      omega

theorem places {L : Nat} {w : SinkRun} (h : SinkRun.Reachable w) (hL : ∀ t ∈ w.received, t.length ≤ L) : Places L w := by
  induction h with
  | init =>
    refine ⟨⟨rfl, Nat.le_refl _, by decide, Nat.le_refl _, fun key ptrs hk => ?_⟩, rfl, by decide, by decide, fun b hb => ?_, fun b hb => ?_⟩
    · simp [show ({} : SinkRun).sink.byTrace = ∅ from rfl] at hk
    · cases hb
    · cases hb
  | @receive w trace now _ ih =>
    have ih := ih fun t ht => hL t (List.mem_append_left _ ht)
    have ht : trace.length ≤ L := hL trace (by simp [SinkRun.receive])
    obtain ⟨h1, h2, h3, h4⟩ := ih.compact.addSpans trace
    generalize hk : trace.foldl Sink.addSpan w.sink = k at h1 h2 h3 h4
    have hs := ih.small
    have hall := ih.all
    have e : (w.receive trace now).sink = (Sink.flush { k with spanCount := k.spanCount + trace.length } (decide (k.spanCount + trace.length ≥ 1000)) now).1 := by
      unfold SinkRun.receive Sink.receive; simp only [hk]
    have hq : k.grouped.length ≤ 8 := h3 ▸ ih.queue
    have hg : ∀ b ∈ k.grouped, InRow b (999 + L) := h3 ▸ ih.grouped
    obtain ⟨f1, f2, f3, f4, f5⟩ := flush_places (L := L) (k := { k with spanCount := k.spanCount + trace.length })
      ⟨h1.whole, h1.bound, h1.tight, h2 ▸ h1.count, h2 ▸ h1.places⟩ (by simp only; omega) hq hg (decide (k.spanCount + trace.length ≥ 1000)) now (by intro hd; simpa using hd)
    rw [← e] at f1 f2 f3 f4 f5
    refine ⟨f1, ?_, f2, f3, f4, ih.handed⟩
    rw [f5]
    show k.free = (w.received ++ [trace]).flatten.length
    rw [h4, hall, List.flatten_append, List.length_append, List.flatten_singleton]
  | @tick w since now _ ih =>
    have ih := ih hL
    obtain ⟨f1, f2, f3, f4, f5⟩ := flush_places (L := L) ih.compact (by have := ih.small; omega) ih.queue ih.grouped (w.sink.due since) now fun _ => ih.small
    exact ⟨f1, f5.trans ih.all, f2, f3, f4, ih.handed⟩
  | take _ ht ih =>
    have ih := ih hL
    unfold Sink.takeBatch at ht
    split at ht
    · cases ht
    · next b rest hg =>
      cases ht
      have hq := ih.queue
      have hgr := ih.grouped
      rw [hg] at hq hgr
      refine ⟨⟨ih.compact.whole, ih.compact.bound, ih.compact.tight, ih.compact.count, ih.compact.places⟩, ih.all, ih.small, by simp only [List.length_cons] at hq ⊢; omega, fun b' hb' => hgr b' (List.mem_cons_of_mem _ hb'), fun b' hb' => ?_⟩
      rcases List.mem_append.mp hb' with hb' | hb'
      · exact ih.handed b' hb'
      · rw [List.mem_singleton.mp hb']; exact hgr _ (by simp)

/-- The blocks that a batch keeps alive. -/
theorem touched {b : ByTrace} {n : Nat} (h : InRow b n) : ∃ l : List Nat, l.length = n / 4096 + 2 ∧ ∀ m, Touches b m → m ∈ l := by
  obtain ⟨a, ha⟩ := h
  refine ⟨List.range' (a / 4096) (n / 4096 + 2), by simp, fun m hm => ?_⟩
  obtain ⟨key, ptrs, hk, p, hp, h1, h2⟩ := hm
  have := ha key ptrs hk p hp
  rw [List.mem_range'_1]
  omega

theorem touched_all {n : Nat} (l : List ByTrace) (h : ∀ b ∈ l, InRow b n) : ∃ r : List Nat, r.length = l.length * (n / 4096 + 2) ∧ ∀ m, (∃ b ∈ l, Touches b m) → m ∈ r := by
  induction l with
  | nil => exact ⟨[], by simp, fun m ⟨b, hb, _⟩ => by cases hb⟩
  | cons b l ih =>
    obtain ⟨r, h1, h2⟩ := ih fun b hb => h b (List.mem_cons_of_mem _ hb)
    obtain ⟨r', h3, h4⟩ := touched (h b (by simp))
    refine ⟨r' ++ r, by rw [List.length_append, h1, h3, List.length_cons, Nat.succ_mul, Nat.add_comm], fun m ⟨b', hb', hm⟩ => ?_⟩
    rcases List.mem_cons.mp hb' with rfl | hb'
    · exact List.mem_append_left _ (h4 m hm)
    · exact List.mem_append_right _ (h2 m ⟨b', hb', hm⟩)

/-- C137: however many spans were received, and however slow the sender is: if no trace has more than `L` spans, then at any time at most `3 + 9 * ((999 + L) / 4096 + 2)` blocks are alive. -/
theorem C137_blocks {L : Nat} {w : SinkRun} (h : SinkRun.Reachable w) (hL : ∀ t ∈ w.received, t.length ≤ L) {blocks : List Nat} (hn : blocks.Nodup) (hb : ∀ n ∈ blocks, LiveBlock w n) :
    blocks.length ≤ 3 + 9 * ((999 + L) / 4096 + 2) := by
  have hp := places h hL
  obtain ⟨r1, e1, m1⟩ := touched (b := w.sink.byTrace) (n := 999) ⟨w.sink.free - w.sink.spanCount, fun key ptrs hk p hp' => by
    have := hp.compact.places key ptrs hk p hp'
    have := hp.small
    have := hp.compact.count
    omega⟩
  obtain ⟨r2, e2, m2⟩ := touched_all (n := 999 + L) (w.sink.grouped ++ w.handed.getLast?.toList) (by
    intro b hb
    rcases List.mem_append.mp hb with hb | hb
    · exact hp.grouped b hb
    · exact hp.handed b (List.mem_of_getLast? (by simpa using hb)))
  have hlen : (w.sink.grouped ++ w.handed.getLast?.toList).length ≤ 9 := by
    have := hp.queue
    rw [List.length_append]
    cases w.handed.getLast? <;> simp <;> omega
  have hsub : blocks ⊆ (w.sink.memory.length / 4096 - 1) :: (r1 ++ r2) := by
    intro n hn'
    rcases hb n hn' with e | ⟨b, hb', ht⟩
    · rw [show n = w.sink.memory.length / 4096 - 1 by omega]
      exact List.mem_cons_self
    · rcases List.mem_cons.mp hb' with rfl | hb'
      · exact List.mem_cons_of_mem _ (List.mem_append_left _ (m1 n ht))
      · exact List.mem_cons_of_mem _ (List.mem_append_right _ (m2 n ⟨b, hb', ht⟩))
  have := hn.length_le_of_subset hsub
  rw [List.length_cons, List.length_append, e1, e2] at this
  have := Nat.mul_le_mul_right ((999 + L) / 4096 + 2) hlen
  omega

/-- C137: the memory consists of such blocks, one after the other: all that were ever made have room for less than 4096 spans more than were received; spans are taken from it one after the other. -/
theorem C137_memory {w : SinkRun} (h : SinkRun.Reachable w) :
    w.sink.memory.length % 4096 = 0 ∧ w.sink.free = w.received.flatten.length ∧ w.sink.free ≤ w.sink.memory.length ∧ w.sink.memory.length < w.received.flatten.length + 4096 := by
  have hp := places (L := w.received.flatten.length) h fun t ht => (List.sublist_flatten_of_mem ht).length_le
  exact ⟨hp.compact.whole, hp.all, hp.compact.bound, hp.all ▸ hp.compact.tight⟩

/-- C137: traces of the collector with up to 8192 spans, and a root that was made up. -/
theorem C137_collector {w : SinkRun} (h : SinkRun.Reachable w) (hL : ∀ t ∈ w.received, t.length ≤ 8193) {blocks : List Nat} (hn : blocks.Nodup) (hb : ∀ n ∈ blocks, LiveBlock w n) : blocks.length ≤ 39 :=
  C137_blocks h hL hn hb

/-- One span was received: one block was made, and it is alive, because of the free spans, and because of the batch. -/
theorem C137_example : ∃ w, SinkRun.Reachable w ∧ w.received = [[{ id := 1, trace := 7 }]] ∧ w.sink.memory.length = 4096 ∧ LiveBlock w 0 ∧ ¬ LiveBlock w 1 ∧ ∃ b ∈ liveBatches w, Touches b 0 := by
  have hw : SinkRun.Reachable (SinkRun.receive {} [{ id := 1, trace := 7 }] 0) := .receive _ _ .init
  have hrec : (SinkRun.receive {} [{ id := 1, trace := 7 }] 0).received = [[{ id := 1, trace := 7 }]] := rfl
  obtain ⟨h1, h2, h3, h4⟩ := C137_memory hw
  have hp := places (L := 1) hw (by rw [hrec]; intro t ht; rw [List.mem_singleton.mp ht]; decide)
  have hlen : (SinkRun.receive {} [{ id := 1, trace := 7 }] 0).sink.memory.length = 4096 := by
    rw [hrec] at h2 h4
    simp only [List.flatten_cons, List.flatten_nil, List.append_nil, List.length_cons, List.length_nil] at h2 h4
    omega
  have hby : (SinkRun.receive {} [{ id := 1, trace := 7 }] 0).sink.byTrace[(7 : UInt64)]? = some [0] := by decide +kernel
  have htouch : ∃ b ∈ liveBatches (SinkRun.receive {} [{ id := 1, trace := 7 }] 0), Touches b 0 := ⟨_, List.mem_cons_self, 7, [0], hby, 0, by simp, by decide, by decide⟩
  refine ⟨_, hw, hrec, hlen, .inl hlen.symm, ?_, htouch⟩
  rintro (h | ⟨b, hb, key, ptrs, hk, p, hp', h5, h6⟩)
  · omega
  · have hb : b ∈ [(SinkRun.receive {} [{ id := 1, trace := 7 }] 0).sink.byTrace] := by
      have e : (SinkRun.receive {} [{ id := 1, trace := 7 }] 0).sink.grouped = [] := rfl
      unfold liveBatches at hb
      rw [e] at hb
      exact hb
    rw [List.mem_singleton.mp hb] at hk
    have := (hp.compact.places key ptrs hk p hp').2
    have := hp.compact.bound
    omega

end Verif
