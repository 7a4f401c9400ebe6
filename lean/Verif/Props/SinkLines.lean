import Verif.Proofs.SinkLines

/-!
# C123: what the log says about batches
-/

namespace Verif

open Spec Std

/-- C123: under every schedule the sink logs one line for each batch that it discards, in order, with the number of different traces in it. The sender logs one line for each batch that it
gets, in order, with the numbers of spans and of different traces in it, before it is sent, and then at most that it was refused. The spans in these batches, those in the batches that
are discarded or still wait to be sent, and those not yet in a batch are all spans received. -/
theorem C123_lines {w : SinkRun} {sink : List Str} {sender : List (List Str)} (h : SinkWrites w sink sender) :
    ∃ chunks current, Partition w chunks current ∧
      Pairwise₂ BlockedLine sink (chunksOf false w.log chunks) ∧
      Pairwise₂ SendingLines sender ((chunksOf true w.log chunks).take w.handed.length) ∧
      w.received.flatten.length = ((chunksOf true w.log chunks).take w.handed.length).flatten.length + ((chunksOf true w.log chunks).drop w.handed.length).flatten.length +
        (chunksOf false w.log chunks).flatten.length + current.length ∧
      ((chunksOf true w.log chunks).drop w.handed.length).length = w.sink.grouped.length := by
  obtain ⟨hw, h1, h2⟩ := h.lines
  obtain ⟨chunks, cur, inv⟩ := hw.inv
  have hpair : Pairwise₂ (fun e c => Grouping w.sink.memory e.2 c) w.log chunks :=
    Pairwise₂.ofGet inv.part.count.symm fun j a b ha hb => inv.part.batches j b a hb ha
  obtain ⟨p1, p2, p3⟩ := chunksOf_says hpair
  have hmem : ∀ c ∈ chunksOf true w.log chunks, c ≠ [] := by
    intro c hc
    obtain ⟨e, he, rfl⟩ := List.mem_map.mp hc
    exact inv.nonempty _ (List.of_mem_zip (List.mem_filter.mp he).1).2
  rw [inv.part.sent] at p2
  refine ⟨chunks, cur, inv.part, h1 ▸ p1, ?_, ?_, ?_⟩
  · have := p2.tak w.handed.length
    rw [List.take_left] at this
    exact h2.comp this fun x y z hz hx hy => senderLines_says hx hy (hmem z (List.mem_of_mem_take hz))
  · rw [inv.part.all, List.length_append, ← p3]
    conv => lhs; rw [← List.take_append_drop w.handed.length (chunksOf true w.log chunks)]
    rw [List.flatten_append, List.length_append]
  · have := (p2.drp w.handed.length).len
    rw [List.drop_left] at this
    exact this.symm

/-- A batch of two traces, one with two spans, is sent, and refused. -/
theorem C123_witness : ∃ w, SinkWrites w [] [[b!"Sending 3 spans in traces 2 traces", b!"Error reporting spans to datadog"]] ∧
    w.received = [[{ id := 1, trace := 5 }, { id := 2, trace := 5 }], [{ id := 3, trace := -1 }]] := by
  let w1 := (({} : SinkRun).receive [{ id := 1, trace := 5 }, { id := 2, trace := 5 }] 0).receive [{ id := 3, trace := -1 }] 0
  let w2 := w1.tick 5 5
  have s1 : SinkWrites w1 [] [] := .receive _ 0 (.receive _ 0 .init)
  have s2 : SinkWrites w2 [] [] := .tick 5 5 s1
  have hg : w2.sink.grouped = [w1.sink.byTrace] := rfl
  have hb : w2.sink.takeBatch = some (w1.sink.byTrace, { w2.sink with grouped := [] }) := rfl
  have s3 := SinkWrites.take (some []) s2 hb (isRange_refl w1.sink.byTrace)
  have e : submitLines w1.sink.byTrace.toList (some []) = [b!"Sending 3 spans in traces 2 traces", b!"Error reporting spans to datadog"] := by decide +kernel
  rw [e] at s3
  exact ⟨_, s3, rfl⟩

/-- A span is received, and there is a tick. -/
def blockedStep (p : SinkRun × List Str) (t : Time) : SinkRun × List Str :=
  let w := p.1.receive [{ id := 1, trace := 5 }] 0
  (w.tick t t, p.2 ++ p.1.sink.receiveLines [{ id := 1, trace := 5 }] ++ w.sink.tickLines t)

theorem blockedStep_writes (ts : List Time) : ∀ {p : SinkRun × List Str}, SinkWrites p.1 p.2 [] → SinkWrites (ts.foldl blockedStep p).1 (ts.foldl blockedStep p).2 [] := by
  induction ts with
  | nil => exact id
  | cons t ts ih => intro p h; exact ih (.tick t t (.receive _ 0 h))

/-- A batch that is discarded: the ninth, while the sender does not take any. -/
theorem C123_witness_blocked : ∃ w, SinkWrites w [b!"Discarding 1 traces, sending to datadog would block."] [] ∧ w.sink.grouped.length = 8 := by
  have h := blockedStep_writes [0, 2000000000, 4000000000, 6000000000, 8000000000, 10000000000, 12000000000, 14000000000, 16000000000] (p := ({}, [])) .init
  have e : (([0, 2000000000, 4000000000, 6000000000, 8000000000, 10000000000, 12000000000, 14000000000, 16000000000] : List Time).foldl blockedStep ({}, [])).2 =
    [b!"Discarding 1 traces, sending to datadog would block."] := by decide +kernel
  rw [e] at h
  exact ⟨_, h, by decide +kernel⟩

end Verif
