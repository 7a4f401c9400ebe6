import Verif.Proofs.Warnings

/-!
# Proofs about the lines of the sink
-/

namespace Verif

open Spec Std

theorem Spec.Pairwise₂.comp {α β γ : Type} {R : α → β → Prop} {S : β → γ → Prop} {T : α → γ → Prop} {a : List α} {b : List β} {c : List γ} (h : Pairwise₂ R a b) (k : Pairwise₂ S b c)
    (ht : ∀ x y z, z ∈ c → R x y → S y z → T x z) : Pairwise₂ T a c := by
  induction h generalizing c with
  | nil => cases k; exact .nil
  | cons hr _ ih => cases k with
    | cons hs ks => exact .cons (ht _ _ _ List.mem_cons_self hr hs) (ih ks fun x y z hz => ht x y z (List.mem_cons_of_mem _ hz))

/-- The line for a flush. -/
def flushLine (e : Bool × ByTrace) : List Str :=
  if e.1 then [] else [b!"Discarding " ++ numberText e.2.size ++ b!" traces, sending to datadog would block."]

theorem flushLines_eq (k : Sink) (flush : Bool) (now : Time) : k.flushLines flush = (k.flush flush now).2.toList.flatMap flushLine := by
  unfold Sink.flushLines Sink.flush
  by_cases h : flush = true ∧ k.spanCount > 0
  · rw [if_pos h, if_pos h]
    by_cases hq : k.grouped.length < 8
    · rw [if_pos hq]; dsimp only; rw [if_pos hq]; rfl
    · rw [if_neg hq]; dsimp only; rw [if_neg hq]; rfl
  · rw [if_neg h, if_neg h]; rfl

/-- What the sender logs for a batch. -/
def SenderLines (lines : List Str) (b : ByTrace) : Prop := ∃ range refused, IsRange range b ∧ lines = submitLines range refused

theorem Spec.SinkWrites.lines {w : SinkRun} {sink : List Str} {sender : List (List Str)} (h : SinkWrites w sink sender) :
    SinkRun.Reachable w ∧ sink = w.log.flatMap flushLine ∧ Pairwise₂ SenderLines sender w.handed := by
  induction h with
  | init => exact ⟨.init, rfl, .nil⟩
  | @receive w sink sender trace now _ ih =>
    obtain ⟨h1, h2, h3⟩ := ih
    refine ⟨.receive trace now h1, ?_, h3⟩
    show sink ++ _ = (w.log ++ (w.sink.receive trace now).2.toList).flatMap flushLine
    rw [List.flatMap_append, ← h2]
    congr 1
    exact flushLines_eq _ _ now
  | @tick w sink sender since now _ ih =>
    obtain ⟨h1, h2, h3⟩ := ih
    refine ⟨.tick since now h1, ?_, h3⟩
    show sink ++ _ = (w.log ++ (w.sink.tick since now).2.toList).flatMap flushLine
    rw [List.flatMap_append, ← h2]
    congr 1
    exact flushLines_eq _ _ now
  | @take w sink sender b k range refused _ hk hr ih =>
    obtain ⟨h1, h2, h3⟩ := ih
    exact ⟨.take h1 hk, h2, h3.app (.cons ⟨range, refused, hr, rfl⟩ .nil)⟩

/-- The entries of a grouping are the traces. -/
theorem grouping_traces {mem : List DDSpan} {b : ByTrace} {chunk : List Span} (hg : Grouping mem b chunk) {range : List (UInt64 × List Nat)} (hr : IsRange range b) :
    TraceCount chunk range.length ∧ (range.map fun e => e.2.length).sum = chunk.length := by
  have hentry : ∀ p ∈ range, ofTrace p.1 chunk ≠ [] ∧ p.2.length = (ofTrace p.1 chunk).length := by
    intro p hp
    have hk := (mem_range hr).mp hp
    rcases hg p.1 with ⟨h1, _⟩ | ⟨ptrs, h1, h2, h3⟩
    · rw [hk] at h1; cases h1
    · rw [hk, Option.some.injEq] at h1
      rw [h1]
      exact ⟨h2, by simpa using congrArg List.length h3⟩
  have hcover : ∀ s ∈ chunk, s.trace.toUInt64 ∈ range.map Prod.fst := by
    intro s hs
    rcases hg s.trace.toUInt64 with ⟨_, h2⟩ | ⟨ptrs, h1, _, _⟩
    · have : s ∈ ofTrace s.trace.toUInt64 chunk := List.mem_filter.mpr ⟨hs, by simp⟩
      rw [h2] at this; cases this
    · exact List.mem_map.mpr ⟨(_, ptrs), (mem_range hr).mpr h1, rfl⟩
  have hnd := range_keys_nodup hr
  constructor
  · refine ⟨(range.map Prod.fst).map UInt64.toInt64, ?_, ?_, by simp⟩
    · rw [List.Nodup, List.pairwise_map]
      exact hnd.imp fun h e => h (by simpa using congrArg Int64.toUInt64 e)
    · intro k
      rw [List.mem_map]
      constructor
      · rintro ⟨key, hk, rfl⟩
        obtain ⟨p, hp, rfl⟩ := List.mem_map.mp hk
        obtain ⟨s, l, hs⟩ := List.exists_cons_of_ne_nil (hentry p hp).1
        have : s ∈ ofTrace p.1 chunk := by rw [hs]; exact List.mem_cons_self
        obtain ⟨h1, h2⟩ := List.mem_filter.mp this
        refine ⟨s, h1, ?_⟩
        rw [← of_decide_eq_true h2]; simp
      · rintro ⟨s, hs, rfl⟩
        exact ⟨_, hcover s hs, by simp⟩
  · have := (groups_perm (range.map Prod.fst) hnd chunk hcover).length_eq
    rw [← this, List.length_flatten, List.map_map, List.map_map]
    congr 1
    exact List.map_congr_left fun p hp => (hentry p hp).2

theorem submitLines_eq (range : List (UInt64 × List Nat)) (refused : Option Str) : submitLines range refused =
    if range = [] then [] else (b!"Sending " ++ numberText (range.map fun e => e.2.length).sum ++ b!" spans in traces " ++ numberText range.length ++ b!" traces") ::
      if refused.isSome then [b!"Error reporting spans to datadog"] else [] := by
  have hf : ∀ (l : List (UInt64 × List Nat)) (a b : Nat), l.foldl (fun r e => (r.1 + e.2.length, r.2 + 1)) (a, b) = (a + (l.map fun e => e.2.length).sum, b + l.length) := by
    intro l
    induction l with
    | nil => intro a b; rfl
    | cons e l ih =>
      intro a b
      rw [List.foldl_cons, ih, List.map_cons, List.sum_cons, List.length_cons]
      congr 1 <;> omega
  unfold submitLines
  rw [hf, Nat.zero_add, Nat.zero_add]
  dsimp only
  cases range with
  | nil => rfl
  | cons e l => rw [if_pos (show (e :: l).length > 0 from Nat.succ_pos _), if_neg (show ¬ e :: l = [] from List.cons_ne_nil _ _)]

theorem senderLines_says {lines : List Str} {mem : List DDSpan} {b : ByTrace} {chunk : List Span} (hl : SenderLines lines b) (hg : Grouping mem b chunk) (hne : chunk ≠ []) :
    SendingLines lines chunk := by
  obtain ⟨range, refused, hr, rfl⟩ := hl
  obtain ⟨h1, h2⟩ := grouping_traces hg hr
  have hrange : range ≠ [] := by
    intro e; subst e
    exact hne (List.length_eq_zero_iff.mp h2.symm)
  rw [submitLines_eq, if_neg hrange, h2]
  refine ⟨_, _, _, rfl, h1, .sending (numberText_spec _) (numberText_spec _), ?_⟩
  cases refused with
  | none => exact .inl rfl
  | some _ => exact .inr ⟨_, rfl, .refused⟩

theorem flushLine_says {mem : List DDSpan} {b : ByTrace} {chunk : List Span} (hg : Grouping mem b chunk) : ∃ line, flushLine (false, b) = [line] ∧ BlockedLine line chunk := by
  refine ⟨_, rfl, _, (grouping_traces hg (isRange_refl b)).1, ?_⟩
  rw [ExtTreeMap.length_toList]
  exact .blocked (numberText_spec _)

/-- The batches that were discarded, and those that were not, with their spans. -/
theorem chunksOf_says {mem : List DDSpan} {log : List (Bool × ByTrace)} {chunks : List (List Span)} (h : Pairwise₂ (fun e c => Grouping mem e.2 c) log chunks) :
    Pairwise₂ BlockedLine (log.flatMap flushLine) (chunksOf false log chunks) ∧
    Pairwise₂ (Grouping mem) ((log.filter (·.1)).map (·.2)) (chunksOf true log chunks) ∧
    (chunksOf true log chunks).flatten.length + (chunksOf false log chunks).flatten.length = chunks.flatten.length := by
  induction h with
  | nil => exact ⟨.nil, .nil, rfl⟩
  | @cons e c log chunks hg _ ih =>
    obtain ⟨h1, h2, h3⟩ := ih
    obtain ⟨ok, b⟩ := e
    cases ok with
    | true =>
      have e1 : chunksOf true ((true, b) :: log) (c :: chunks) = c :: chunksOf true log chunks := by simp [chunksOf]
      have e2 : chunksOf false ((true, b) :: log) (c :: chunks) = chunksOf false log chunks := by simp [chunksOf]
      rw [e1, e2]
      refine ⟨h1, .cons hg h2, ?_⟩
      simp only [List.flatten_cons, List.length_append]; omega
    | false =>
      have e1 : chunksOf true ((false, b) :: log) (c :: chunks) = chunksOf true log chunks := by simp [chunksOf]
      have e2 : chunksOf false ((false, b) :: log) (c :: chunks) = c :: chunksOf false log chunks := by simp [chunksOf]
      rw [e1, e2]
      obtain ⟨line, hl, hs⟩ := flushLine_says hg
      refine ⟨?_, h2, ?_⟩
      · rw [List.flatMap_cons, hl]; exact .cons hs h1
      · simp only [List.flatten_cons, List.length_append]; omega

end Verif
