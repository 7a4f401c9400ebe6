import Verif.Spec.LogTraces
import Verif.Proofs.SinkLines
import Verif.Props.FairSender

/-!
# C143: batches get to Datadog, also when they are logged
-/

namespace Verif

open Spec Std

theorem submit_eq (logTraces : Bool) (render : List (List DDSpan) → Str) (refuses : List (List DDSpan) → Option Str) (memory : List DDSpan) (range : List (UInt64 × List Nat)) :
    submit logTraces render refuses memory range =
      if range = [] then {} else
        let traces := range.map fun e => e.2.map fun p => memory.getD p {}
        let line := b!"Sending " ++ numberText (range.map fun e => e.2.length).sum ++ b!" spans in traces " ++ numberText range.length ++ b!" traces"
        if logTraces then { lines := [line, render traces] }
        else match refuses traces with
          | none => { call := some traces, lines := [line] }
          | some _ => { call := some traces, lines := [line, b!"Error reporting spans to datadog"] } := by
  have hf : ∀ (l : List (UInt64 × List Nat)) (a : Nat) (t : List (List DDSpan)),
      l.foldl (fun (r : Nat × List (List DDSpan)) e => (r.1 + e.2.length, r.2 ++ [e.2.map fun p => memory.getD p {}])) (a, t) =
        (a + (l.map fun e => e.2.length).sum, t ++ l.map fun e => e.2.map fun p => memory.getD p {}) := by
    intro l
    induction l with
    | nil => intro a t; simp
    | cons e l ih =>
      intro a t
      rw [List.foldl_cons, ih, List.map_cons, List.sum_cons, List.map_cons, List.append_assoc]
      congr 1; omega
  unfold submit
  rw [hf, Nat.zero_add, List.nil_append]
  dsimp only
  cases range with
  | nil => rfl
  | cons e l =>
    rw [if_pos (show ((e :: l).map fun e => e.2.map fun p => memory.getD p ({} : DDSpan)).length > 0 by simp), if_neg (List.cons_ne_nil _ _), List.length_map]
    rfl

/-- Without `DD_LOG_TRACES`, this is the sender of `Model/Sink.lean` and of `Model/Warnings.lean`. -/
theorem submit_plain (render : List (List DDSpan) → Str) (refuses : List (List DDSpan) → Option Str) (memory : List DDSpan) (range : List (UInt64 × List Nat)) :
    (submit false render refuses memory range).call = submitBatch memory range ∧
    (submit false render refuses memory range).lines = submitLines range ((submitBatch memory range).bind refuses) := by
  rw [submit_eq, submitBatch_eq, submitLines_eq]
  by_cases h : range = []
  · rw [if_pos h, if_pos h, if_pos h]; exact ⟨rfl, rfl⟩
  · rw [if_neg h, if_neg h, if_neg h]
    dsimp only
    rw [if_neg (by decide), Option.bind_some]
    cases refuses (range.map fun e => e.2.map fun p => memory.getD p {}) with
    | none => exact ⟨rfl, rfl⟩
    | some _ => exact ⟨rfl, rfl⟩

/-- What becomes of one batch. -/
def batchFate (logTraces : Bool) (render : List (List DDSpan) → Str) (d : Submitted) (spans : List Span) : Prop :=
  if logTraces then LoggedBatch render d spans else SentBatch d spans

theorem submit_fate (logTraces : Bool) (render : List (List DDSpan) → Str) (refuses : List (List DDSpan) → Option Str) {mem : List DDSpan} {b : ByTrace} {chunk : List Span}
    (hg : Grouping mem b chunk) (hne : chunk ≠ []) {range : List (UInt64 × List Nat)} (hr : IsRange range b) :
    batchFate logTraces render (submit logTraces render refuses mem range) chunk := by
  obtain ⟨traces, h1, h2⟩ := submit_call hg hne hr
  obtain ⟨c1, c2⟩ := grouping_traces hg hr
  rw [submitBatch_eq] at h1
  by_cases hrange : range = []
  · rw [if_pos hrange] at h1; cases h1
  rw [if_neg hrange, Option.some.injEq] at h1
  rw [submit_eq, if_neg hrange]
  dsimp only
  rw [h1, c2]
  unfold batchFate
  cases logTraces with
  | true =>
    rw [if_pos rfl, if_pos rfl]
    exact ⟨traces, _, _, h2, rfl, rfl, c1, .sending (numberText_spec _) (numberText_spec _)⟩
  | false =>
    rw [if_neg (by decide), if_neg (by decide)]
    cases refuses traces with
    | none => exact ⟨traces, _, [], _, h2, rfl, rfl, c1, .sending (numberText_spec _) (numberText_spec _), .inl rfl⟩
    | some _ => exact ⟨traces, _, [_], _, h2, rfl, rfl, c1, .sending (numberText_spec _) (numberText_spec _), .inr ⟨_, rfl, .refused⟩⟩

/-- The state of the sink and the sender. -/
structure FateInv (logTraces : Bool) (render : List (List DDSpan) → Str) (w : SenderRun) (chunks : List (List Span)) (cur : List Span) : Prop where
  sink : SinkInv w.sink chunks cur
  fits : ∀ (i : Nat) (d : Submitted), w.done[i]? = some d → ∃ chunk, (acceptedOf chunks w.sink.log)[i]? = some chunk ∧ batchFate logTraces render d chunk
  last : ∀ b, w.sending = some b → w.sink.handed.getLast? = some b
  calls : w.sink.handed.length = w.done.length + w.sending.toList.length

variable {logTraces : Bool} {render : List (List DDSpan) → Str}

theorem Spec.SenderRun.Reachable.fate {w : SenderRun} (h : SenderRun.Reachable logTraces render w) : ∃ chunks cur, FateInv logTraces render w chunks cur := by
  have grow : ∀ {done : List Submitted} {a a' : List (List Span)}, a <+: a' →
      (∀ (i : Nat) (d : Submitted), done[i]? = some d → ∃ chunk, a[i]? = some chunk ∧ batchFate logTraces render d chunk) →
      ∀ (i : Nat) (d : Submitted), done[i]? = some d → ∃ chunk, a'[i]? = some chunk ∧ batchFate logTraces render d chunk := by
    rintro done a a' ⟨t, rfl⟩ hf i d hd
    obtain ⟨chunk, h1, h2⟩ := hf i d hd
    exact ⟨chunk, by rw [List.getElem?_append_left (List.getElem?_eq_some_iff.mp h1).1]; exact h1, h2⟩
  induction h with
  | init => exact ⟨[], [], sinkInv_init, fun i d hd => (by simp at hd), fun b hb => (by cases hb), rfl⟩
  | @receive w trace now _ ih =>
    obtain ⟨chunks, cur, inv⟩ := ih
    obtain ⟨chunks', cur', h, hp⟩ := sinkInv_receive inv.sink trace now
    exact ⟨chunks', cur', h, grow (acceptedOf_prefix inv.sink.part.count hp (List.prefix_append _ _)) inv.fits, inv.last, inv.calls⟩
  | @tick w since now _ ih =>
    obtain ⟨chunks, cur, inv⟩ := ih
    obtain ⟨chunks', cur', h, hp⟩ := sinkInv_tick inv.sink since now
    exact ⟨chunks', cur', h, grow (acceptedOf_prefix inv.sink.part.count hp (List.prefix_append _ _)) inv.fits, inv.last, inv.calls⟩
  | @take w b k _ hb ht ih =>
    obtain ⟨chunks, cur, inv⟩ := ih
    refine ⟨chunks, cur, sinkInv_take inv.sink ht, inv.fits, ?_, ?_⟩
    · intro b' hb'
      cases hb'
      show (w.sink.handed ++ [b]).getLast? = _
      simp
    · have := inv.calls
      rw [hb] at this
      simpa using this
  | @submit w b range refuses _ hb hr ih =>
    obtain ⟨chunks, cur, inv⟩ := ih
    have hlast := inv.last b hb
    have hcalls := inv.calls
    rw [hb] at hcalls
    simp only [Option.toList_some, List.length_singleton] at hcalls
    have hget : w.sink.handed[w.done.length]? = some b := by
      rw [List.getLast?_eq_getElem?] at hlast
      rw [← hlast, hcalls, Nat.add_sub_cancel]
    have hget' : ((w.sink.log.filter (·.1)).map (·.2))[w.done.length]? = some b := by
      rw [inv.sink.part.sent, List.getElem?_append_left (by omega)]; exact hget
    obtain ⟨j, chunk, h1, h2, h3⟩ := acceptedOf_get inv.sink.part.count hget'
    have hfate := submit_fate logTraces render refuses (inv.sink.part.batches j _ _ h1 h2) (inv.sink.nonempty _ (List.mem_of_getElem? h1)) hr
    refine ⟨chunks, cur, inv.sink, ?_, fun _ hb => (by cases hb), ?_⟩
    · intro i d hd
      dsimp only at hd
      by_cases hi : i < w.done.length
      · rw [List.getElem?_append_left hi] at hd
        exact inv.fits i d hd
      · have hi' : i = w.done.length := by
          have := (List.getElem?_eq_some_iff.mp hd).1
          simp at this; omega
        subst hi'
        simp at hd
        subst hd
        exact ⟨chunk, h3, hfate⟩
    · dsimp only
      rw [hcalls]
      simp

/-- What the sender did so far: it is about the batches that were not discarded, in order, one after the other; at most one is in its hands, the others wait. -/
theorem Spec.SenderRun.Reachable.accounts {w : SenderRun} (h : SenderRun.Reachable logTraces render w) : ∃ chunks current, Partition w.sink chunks current ∧
    Pairwise₂ (batchFate logTraces render) w.done ((acceptedOf chunks w.sink.log).take w.done.length) ∧
    w.done.length + w.sending.toList.length + w.sink.sink.grouped.length = (acceptedOf chunks w.sink.log).length := by
  obtain ⟨chunks, cur, inv⟩ := h.fate
  have hlen := acceptedOf_length inv.sink.part.count
  have hsent := congrArg List.length inv.sink.part.sent
  rw [List.length_map, List.length_append] at hsent
  have hcalls := inv.calls
  refine ⟨chunks, cur, inv.sink.part, Pairwise₂.ofGet ?_ ?_, by omega⟩
  · rw [List.length_take]; omega
  · intro i d c hd hc
    obtain ⟨chunk, h1, h2⟩ := inv.fits i d hd
    rw [List.getElem?_take] at hc
    split at hc
    · rw [h1] at hc; cases hc; exact h2
    · cases hc

/-- C143, what is true: unless `DD_LOG_TRACES` is `true`, every batch that the sender is done with was given to the transport in one call, with all its spans; the sender takes all batches that
are not discarded, in order. -/
theorem C143_sent_partial {env : Str} (henv : env ≠ b!"true") {w : SenderRun} (h : SenderRun.Reachable (logTracesOf env) render w) : ∃ chunks current, Partition w.sink chunks current ∧
    Pairwise₂ SentBatch w.done ((acceptedOf chunks w.sink.log).take w.done.length) ∧
    w.done.length + w.sending.toList.length + w.sink.sink.grouped.length = (acceptedOf chunks w.sink.log).length := by
  rw [show logTracesOf env = false from decide_eq_false henv] at h
  obtain ⟨chunks, cur, h1, h2, h3⟩ := h.accounts
  exact ⟨chunks, cur, h1, h2, h3⟩

/-- C143: with `DD_LOG_TRACES=true`, every such batch is in the log, with all its spans, below the line that says that it is being sent; and it is not sent. -/
theorem C143_logged_partial {env : Str} (henv : env = b!"true") {w : SenderRun} (h : SenderRun.Reachable (logTracesOf env) render w) : ∃ chunks current, Partition w.sink chunks current ∧
    Pairwise₂ (LoggedBatch render) w.done ((acceptedOf chunks w.sink.log).take w.done.length) ∧
    w.done.length + w.sending.toList.length + w.sink.sink.grouped.length = (acceptedOf chunks w.sink.log).length := by
  rw [show logTracesOf env = true from decide_eq_true henv] at h
  obtain ⟨chunks, cur, h1, h2, h3⟩ := h.accounts
  exact ⟨chunks, cur, h1, h2, h3⟩

/-- C143 is false: with `DD_LOG_TRACES=true` the transport is never called, whatever is received. -/
theorem C143_fails {w : SenderRun} (h : SenderRun.Reachable (logTracesOf b!"true") render w) : ∀ d ∈ w.done, d.call = none := by
  obtain ⟨chunks, _, _, h2, _⟩ := C143_logged_partial rfl h
  intro d hd
  obtain ⟨i, hi⟩ := List.getElem?_of_mem hd
  rcases h2.at i with ⟨h, _⟩ | ⟨d', c, h, _, _, _, _, _, hn, _⟩
  · rw [hi] at h; cases h
  · rw [hi] at h; cases h; exact hn

/-- One span is received; there is a tick; the sender takes the batch and handles it. -/
theorem one_batch (logTraces : Bool) (render : List (List DDSpan) → Str) : ∃ w, SenderRun.Reachable logTraces render w ∧ w.sink.received = [[{ id := 1, trace := 5 }]] ∧
    w.done = [submit logTraces render (fun _ => none) [toDatadog { id := 1, trace := 5 }] [(5, [0])]] := by
  let w1 := ({} : SinkRun).receive [{ id := 1, trace := 5 }] 0
  let w2 := w1.tick 5 5
  have hb : w2.sink.takeBatch = some (w1.sink.byTrace, { w2.sink with grouped := [] }) := rfl
  have s1 : SenderRun.Reachable logTraces render { sink := w2 } := .tick 5 5 (.receive _ 0 .init)
  have s2 := SenderRun.Reachable.take s1 rfl hb
  have s3 := SenderRun.Reachable.submit (fun _ => none) s2 rfl (isRange_refl w1.sink.byTrace)
  refine ⟨_, s3, rfl, ?_⟩
  have e : w1.sink.byTrace.toList = [(5, [0])] := by decide +kernel
  show [] ++ [_] = _
  rw [List.nil_append, e]
  congr 1

/-- C143 is false: a span that was received, in a batch that the sender was done with, and not sent. -/
theorem C143_lost : ∃ w, SenderRun.Reachable (logTracesOf b!"true") render w ∧ w.sink.received = [[{ id := 1, trace := 5 }]] ∧ w.done.length = 1 ∧ ∀ d ∈ w.done, d.call = none := by
  obtain ⟨w, h1, h2, h3⟩ := one_batch (logTracesOf b!"true") render
  exact ⟨w, h1, h2, by rw [h3]; rfl, C143_fails h1⟩

/-- The same with the variable set to something else: it is sent. -/
theorem C143_witness : ∃ w, SenderRun.Reachable (logTracesOf b!"1") render w ∧ w.sink.received = [[{ id := 1, trace := 5 }]] ∧
    w.done.map (·.call) = [some [[toDatadog { id := 1, trace := 5 }]]] ∧ w.done.map (·.lines) = [[b!"Sending 1 spans in traces 1 traces"]] := by
  obtain ⟨w, h1, h2, h3⟩ := one_batch (logTracesOf b!"1") render
  exact ⟨w, h1, h2, by rw [h3]; rfl, by rw [h3]; rfl⟩

end Verif
