import Verif.Props.Fair
import Verif.Spec.FairSender

/-!
# What Datadog gets, and that it gets it: C101
-/

namespace Verif

open Spec

variable {κ : Type} {conv : κ → Span → Option Span × κ} {k : κ}

theorem acceptedOf_append : ∀ {cs : List (List Span)} {l : List (Bool × ByTrace)} (cs' : List (List Span)) (l' : List (Bool × ByTrace)), cs.length = l.length →
    acceptedOf (cs ++ cs') (l ++ l') = acceptedOf cs l ++ acceptedOf cs' l'
  | [], [], _, _, _ => rfl
  | c :: cs, (true, b) :: l, cs', l', h => by
    simp only [List.cons_append, acceptedOf]
    rw [acceptedOf_append cs' l' (by simpa using h)]
  | c :: cs, (false, b) :: l, cs', l', h => by
    simp only [List.cons_append, acceptedOf]
    rw [acceptedOf_append cs' l' (by simpa using h)]
  | [], _ :: _, _, _, h => by cases h
  | _ :: _, [], _, _, h => by cases h

theorem acceptedOf_length : ∀ {cs : List (List Span)} {l : List (Bool × ByTrace)}, cs.length = l.length → (acceptedOf cs l).length = (l.filter (·.1)).length
  | [], [], _ => rfl
  | c :: cs, (true, b) :: l, h => by simp [acceptedOf, acceptedOf_length (cs := cs) (l := l) (by simpa using h)]
  | c :: cs, (false, b) :: l, h => by simp [acceptedOf, acceptedOf_length (cs := cs) (l := l) (by simpa using h)]
  | [], _ :: _, h => by cases h
  | _ :: _, [], h => by cases h

/-- The `i`-th accepted batch belongs to the `i`-th accepted chunk. -/
theorem acceptedOf_get : ∀ {cs : List (List Span)} {l : List (Bool × ByTrace)} {i : Nat} {b : ByTrace}, cs.length = l.length → ((l.filter (·.1)).map (·.2))[i]? = some b →
    ∃ (j : Nat) (chunk : List Span), cs[j]? = some chunk ∧ l[j]? = some (true, b) ∧ (acceptedOf cs l)[i]? = some chunk
  | [], [], _, _, _, h => by simp at h
  | c :: cs, (true, b') :: l, 0, b, hl, h => by
    simp at h
    subst h
    exact ⟨0, c, rfl, rfl, rfl⟩
  | c :: cs, (true, b') :: l, i + 1, b, hl, h => by
    simp only [List.filter_cons_of_pos, List.map_cons, List.getElem?_cons_succ] at h
    obtain ⟨j, chunk, h1, h2, h3⟩ := acceptedOf_get (cs := cs) (l := l) (by simpa using hl) h
    exact ⟨j + 1, chunk, h1, h2, h3⟩
  | c :: cs, (false, b') :: l, i, b, hl, h => by
    rw [List.filter_cons_of_neg (by simp)] at h
    obtain ⟨j, chunk, h1, h2, h3⟩ := acceptedOf_get (cs := cs) (l := l) (by simpa using hl) h
    exact ⟨j + 1, chunk, h1, h2, h3⟩
  | [], _ :: _, _, _, h, _ => by cases h
  | _ :: _, [], _, _, h, _ => by cases h

/-- The state of the sink and the sender: what was sent fits. -/
structure CallsInv (s : System κ) (chunks : List (List Span)) (cur : List Span) : Prop where
  sink : SinkInv s.sink chunks cur
  fits : SentFits s.sent (acceptedOf chunks s.sink.log)
  last : ∀ b, s.sending = some b → s.sink.handed.getLast? = some b
  calls : s.sink.handed.length = s.sent.length + s.sending.toList.length

theorem SentFits.mono {sent : List (List (List DDSpan))} {a a' : List (List Span)} (h : SentFits sent a) (hp : a <+: a') : SentFits sent a' := by
  intro i call hc
  obtain ⟨chunk, h1, h2⟩ := h i call hc
  obtain ⟨t, rfl⟩ := hp
  exact ⟨chunk, by rw [List.getElem?_append_left (List.getElem?_eq_some_iff.mp h1).1]; exact h1, h2⟩

theorem acceptedOf_prefix {cs cs' : List (List Span)} {l l' : List (Bool × ByTrace)} (hl : cs.length = l.length) (h1 : cs <+: cs') (h2 : l <+: l') :
    acceptedOf cs l <+: acceptedOf cs' l' := by
  obtain ⟨c, rfl⟩ := h1
  obtain ⟨d, rfl⟩ := h2
  rw [acceptedOf_append _ _ hl]
  exact List.prefix_append _ _

theorem CallsInv.next {o o' : List Parsed} {s s' : System κ} (h : System.Next conv o s o' s') {chunks : List (List Span)} {cur : List Span} (inv : CallsInv s chunks cur) :
    ∃ chunks' cur', CallsInv s' chunks' cur' ∧ chunks <+: chunks' ∧ s.sink.log <+: s'.sink.log ∧ s.sink.received <+: s'.sink.received := by
  have same : ∀ {s' : System κ}, s'.sink = s.sink → s'.sent = s.sent → s'.sending = s.sending →
      ∃ chunks' cur', CallsInv s' chunks' cur' ∧ chunks <+: chunks' ∧ s.sink.log <+: s'.sink.log ∧ s.sink.received <+: s'.sink.received := by
    intro s' h1 h2 h3
    exact ⟨chunks, cur, ⟨by rw [h1]; exact inv.sink, by rw [h1, h2]; exact inv.fits, by rw [h1, h3]; exact inv.last, by rw [h1, h2, h3]; exact inv.calls⟩,
      List.prefix_rfl, by rw [h1]; exact List.prefix_rfl, by rw [h1]; exact List.prefix_rfl⟩
  cases h with
  | step h =>
    cases h with
    | @sinkRead x now hb =>
      obtain ⟨chunks', cur', h, hp⟩ := sinkInv_receive inv.sink (s.forwarder.heap.read x) now
      have hl : s.sink.log <+: (s.sink.receive (s.forwarder.heap.read x) now).log := List.prefix_append _ _
      exact ⟨chunks', cur', ⟨h, inv.fits.mono (acceptedOf_prefix inv.sink.part.count hp hl), inv.last, inv.calls⟩, hp, hl, List.prefix_append _ _⟩
    | _ => exact same rfl rfl rfl
  | event h =>
    cases h with
    | tick i ho hv hc => exact same rfl rfl rfl
    | sinkTick since now hb =>
      obtain ⟨chunks', cur', h, hp⟩ := sinkInv_tick inv.sink since now
      have hl : s.sink.log <+: (s.sink.tick since now).log := List.prefix_append _ _
      exact ⟨chunks', cur', ⟨h, inv.fits.mono (acceptedOf_prefix inv.sink.part.count hp hl), inv.last, inv.calls⟩, hp, hl, List.prefix_rfl⟩
    | @senderTake b kk hb ht =>
      refine ⟨chunks, cur, ⟨sinkInv_take inv.sink ht, inv.fits, ?_, ?_⟩, List.prefix_rfl, List.prefix_rfl, List.prefix_rfl⟩
      · intro b' hb'
        cases hb'
        show (s.sink.handed ++ [b]).getLast? = _
        simp
      · have := inv.calls
        rw [hb] at this
        simpa using this
    | @senderSend b range hb hr =>
      have hlast := inv.last b hb
      have hcalls := inv.calls
      rw [hb] at hcalls
      simp only [Option.toList_some, List.length_singleton] at hcalls
      have hget : s.sink.handed[s.sent.length]? = some b := by
        rw [List.getLast?_eq_getElem?] at hlast
        rw [← hlast, hcalls, Nat.add_sub_cancel]
      have hget' : ((s.sink.log.filter (·.1)).map (·.2))[s.sent.length]? = some b := by
        rw [inv.sink.part.sent, List.getElem?_append_left (by omega)]; exact hget
      obtain ⟨j, chunk, h1, h2, h3⟩ := acceptedOf_get inv.sink.part.count hget'
      obtain ⟨traces, h4, h5⟩ := submit_call (inv.sink.part.batches j _ _ h1 h2) (inv.sink.nonempty _ (List.mem_of_getElem? h1)) hr
      refine ⟨chunks, cur, ⟨inv.sink, ?_, fun _ hb => (by cases hb), ?_⟩, List.prefix_rfl, List.prefix_rfl, List.prefix_rfl⟩
      · intro i call hc
        dsimp only at hc h4
        rw [h4] at hc
        by_cases hi : i < s.sent.length
        · rw [List.getElem?_append_left hi] at hc
          exact inv.fits i call hc
        · have hi' : i = s.sent.length := by
            have := (List.getElem?_eq_some_iff.mp hc).1
            simp at this; omega
          subst hi'
          simp at hc
          subst hc
          exact ⟨chunk, h3, h5⟩
      · dsimp only at h4 ⊢
        rw [h4, hcalls]
        simp
  | request o => exact same rfl rfl rfl
  | stay => exact same rfl rfl rfl

theorem System.Reachable.sentInv {o : List Parsed} {s : System κ} (h : System.Reachable conv k o s) : ∃ chunks cur, CallsInv s chunks cur := by
  induction h with
  | init now => exact ⟨[], [], sinkInv_init, fun i c hc => (by simp [System.init] at hc), fun b hb => (by cases hb), rfl⟩
  | request o _ ih =>
    obtain ⟨c, d, inv⟩ := ih
    obtain ⟨c', d', inv', _⟩ := inv.next (conv := conv) (o := []) (.request o)
    exact ⟨c', d', inv'⟩
  | step _ hs ih =>
    obtain ⟨c, d, inv⟩ := ih
    obtain ⟨c', d', inv', _⟩ := inv.next (conv := conv) (o := []) (.step hs)
    exact ⟨c', d', inv'⟩
  | event _ hs ih =>
    obtain ⟨c, d, inv⟩ := ih
    obtain ⟨c', d', inv', _⟩ := inv.next (conv := conv) (o := []) (.event hs)
    exact ⟨c', d', inv'⟩

/-- C101: in every state: the spans that the sink received are, in order, those of some batches and those not flushed yet; and the calls of the transport are, in order, for the batches that
were not discarded, one for each, with all its spans. -/
theorem C101_exact {o : List Parsed} {s : System κ} (h : System.Reachable conv k o s) : ∃ chunks current, Partition s.sink chunks current ∧
    SentFits s.sent (acceptedOf chunks s.sink.log) ∧ s.sent.length + s.sending.toList.length + s.sink.sink.grouped.length = (acceptedOf chunks s.sink.log).length := by
  obtain ⟨chunks, cur, inv⟩ := h.sentInv
  refine ⟨chunks, cur, inv.sink.part, inv.fits, ?_⟩
  have := congrArg List.length inv.sink.part.sent
  rw [List.length_map, List.length_append, inv.calls] at this
  rw [acceptedOf_length inv.sink.part.count, this]

/-! ## Liveness -/

section moves

variable {o o' : List Parsed} {s s' : System κ}

/-- What may happen to the sender. -/
theorem sender_moves (h : System.Next conv o s o' s') : s.SenderTakes s' ∨ s.SenderSends s' ∨
    s'.sending = s.sending ∧ s'.sent = s.sent ∧ s'.sink.handed = s.sink.handed ∧ s.sink.sink.grouped <+: s'.sink.sink.grouped := by
  have flush : ∀ (k : Sink) (f : Bool) (now : Time), k.grouped <+: (k.flush f now).1.grouped := by
    intro k f now
    unfold Sink.flush
    by_cases h : f = true ∧ k.spanCount > 0
    · rw [if_pos h]
      dsimp only
      by_cases h' : k.grouped.length < 8
      · rw [if_pos h']; exact List.prefix_append _ _
      · rw [if_neg h']; exact List.prefix_rfl
    · rw [if_neg h]; exact List.prefix_rfl
  have adds : ∀ (l : List Span) (k : Sink), (l.foldl Sink.addSpan k).grouped = k.grouped := by
    intro l
    induction l with
    | nil => intro k; rfl
    | cons x l ih => intro k; rw [List.foldl_cons, ih]; rfl
  cases h with
  | step h =>
    cases h with
    | @sinkRead x now hb =>
      refine .inr (.inr ⟨rfl, rfl, rfl, ?_⟩)
      show _ <+: (s.sink.sink.receive (s.forwarder.heap.read x) now).1.grouped
      unfold Sink.receive
      dsimp only
      have key := adds (s.forwarder.heap.read x) s.sink.sink
      have := flush { (s.forwarder.heap.read x).foldl Sink.addSpan s.sink.sink with
        spanCount := ((s.forwarder.heap.read x).foldl Sink.addSpan s.sink.sink).spanCount + (s.forwarder.heap.read x).length }
        (decide (((s.forwarder.heap.read x).foldl Sink.addSpan s.sink.sink).spanCount + (s.forwarder.heap.read x).length ≥ 1000)) now
      exact (congrArg (· <+: _) key).mp this
    | _ => exact .inr (.inr ⟨rfl, rfl, rfl, List.prefix_rfl⟩)
  | event h =>
    cases h with
    | tick i ho hv hc => exact .inr (.inr ⟨rfl, rfl, rfl, List.prefix_rfl⟩)
    | sinkTick since now hb => exact .inr (.inr ⟨rfl, rfl, rfl, flush _ _ _⟩)
    | senderTake hb ht => exact .inl ⟨hb, ht⟩
    | senderSend hb hr => exact .inr (.inl ⟨hb, hr⟩)
  | request o => exact .inr (.inr ⟨rfl, rfl, rfl, List.prefix_rfl⟩)
  | stay => exact .inr (.inr ⟨rfl, rfl, rfl, List.prefix_rfl⟩)

/-- The sender gets nothing empty: every batch it sends is a call. -/
theorem sends_calls (h : System.Reachable conv k o s) (hs : s.SenderSends s') : s'.sent.length = s.sent.length + 1 := by
  obtain ⟨_, _, _, _, inv⟩ := h.inv
  cases hs with
  | @mk b range hb hr =>
    obtain ⟨_, _, _, traces, _, _, hsub, _⟩ := C59_sent inv.sink (inv.sending b hb) hr
    dsimp only
    rw [hsub]; simp

/-- A flush leaves nothing; without one, the time of the last flush stays the same. -/
theorem flush_moves (h : System.Next conv o s o' s') : s'.sink.sink.lastFlushTime = s.sink.sink.lastFlushTime ∨ s'.sink.sink.spanCount = 0 := by
  have flush : ∀ (k : Sink) (f : Bool) (now : Time), (k.flush f now).1.lastFlushTime = k.lastFlushTime ∨ (k.flush f now).1.spanCount = 0 := by
    intro k f now
    unfold Sink.flush
    by_cases h : f = true ∧ k.spanCount > 0
    · rw [if_pos h]
      dsimp only
      right
      split <;> rfl
    · rw [if_neg h]; exact .inl rfl
  have adds : ∀ (l : List Span) (k : Sink), (l.foldl Sink.addSpan k).lastFlushTime = k.lastFlushTime := by
    intro l
    induction l with
    | nil => intro k; rfl
    | cons x l ih => intro k; rw [List.foldl_cons, ih]; rfl
  cases h with
  | step h =>
    cases h with
    | @sinkRead x now hb =>
      show (s.sink.sink.receive (s.forwarder.heap.read x) now).1.lastFlushTime = _ ∨ (s.sink.sink.receive (s.forwarder.heap.read x) now).1.spanCount = 0
      unfold Sink.receive
      dsimp only
      have key := adds (s.forwarder.heap.read x) s.sink.sink
      have := flush { (s.forwarder.heap.read x).foldl Sink.addSpan s.sink.sink with
        spanCount := ((s.forwarder.heap.read x).foldl Sink.addSpan s.sink.sink).spanCount + (s.forwarder.heap.read x).length }
        (decide (((s.forwarder.heap.read x).foldl Sink.addSpan s.sink.sink).spanCount + (s.forwarder.heap.read x).length ≥ 1000)) now
      exact this.imp (·.trans key) id
    | _ => exact .inl rfl
  | event h =>
    cases h with
    | tick i ho hv hc => exact .inl rfl
    | sinkTick since now hb => exact flush _ _ _
    | @senderTake b kk hb ht =>
      left
      unfold Sink.takeBatch at ht
      show kk.lastFlushTime = _
      split at ht
      · cases ht
      · cases ht; rfl
    | senderSend hb hr => exact .inl rfl
  | request o => exact .inl rfl
  | stay => exact .inl rfl

end moves

variable {r : Execution conv k}

theorem sent_mono (r : Execution conv k) (n : Nat) : (r.state n).sent.length ≤ (r.state (n + 1)).sent.length := by
  rcases sender_moves (r.next n) with h | h | h
  · generalize r.state (n + 1) = s' at h
    cases h; exact Nat.le_refl _
  · rw [sends_calls (r.reach n) h]; omega
  · rw [h.2.1]

/-- The batch in the hands of the sender is sent. -/
theorem sender_sends (h : r.SenderFair) {n : Nat} (hs : (r.state n).sending ≠ none) : ∃ m, n ≤ m ∧ (r.state n).sent.length < (r.state m).sent.length := by
  refine Classical.byContradiction fun hn => ?_
  have hc : ∀ m, n ≤ m → (r.state m).sent.length = (r.state n).sent.length := fun m hm => by
    have h1 : (r.state n).sent.length ≤ (r.state m).sent.length := nat_mono_of_step (f := fun n => (r.state n).sent.length) (sent_mono r) hm
    have h2 : ¬ (r.state n).sent.length < (r.state m).sent.length := fun e => hn ⟨m, hm, e⟩
    omega
  have hno : ∀ m, n ≤ m → ¬ (r.state m).SenderSends (r.state (m + 1)) := fun m hm ht => by
    have := sends_calls (r.reach m) ht
    rw [hc m hm, hc (m + 1) (by omega)] at this
    omega
  have hkeep : ∀ m, n ≤ m → (r.state m).sending ≠ none := fun m hm => by
    induction hm with
    | refl => exact hs
    | @step m hm ih =>
      rcases sender_moves (r.next m) with h | h | h
      · show (r.state (m + 1)).sending ≠ none
        generalize r.state (m + 1) = s' at h
        cases h with
        | mk hb _ => exact absurd hb ih
      · exact absurd h (hno m hm)
      · show (r.state (m + 1)).sending ≠ none
        rw [h.1]; exact ih
  obtain ⟨m, hm, hh | hh⟩ := h.send n
  · obtain ⟨b, hb⟩ := Option.ne_none_iff_exists'.mp (hkeep m hm)
    exact hh ⟨_, .mk hb (isRange_refl b)⟩
  · exact hno m hm hh

/-- A batch that waits is sent, in the end. -/
theorem sender_goes_on (h : r.SenderFair) {n : Nat} (hg : (r.state n).sending ≠ none ∨ (r.state n).sink.sink.grouped ≠ []) :
    ∃ m, n ≤ m ∧ (r.state n).sent.length < (r.state m).sent.length := by
  by_cases hs : (r.state n).sending = none
  · have hg := hg.resolve_left fun h => h hs
    -- it is taken
    have : ∃ m, n ≤ m ∧ (r.state m).sending ≠ none := by
      refine Classical.byContradiction fun hn => ?_
      have hnone : ∀ m, n ≤ m → (r.state m).sending = none := fun m hm => Classical.byContradiction fun e => hn ⟨m, hm, e⟩
      have hkeep : ∀ m, n ≤ m → (r.state m).sink.sink.grouped ≠ [] := fun m hm => by
        induction hm with
        | refl => exact hg
        | @step m hm ih =>
          rcases sender_moves (r.next m) with h | h | h
          · have := hnone (m + 1) (Nat.le_succ_of_le hm)
            generalize r.state (m + 1) = s' at h this
            cases h; cases this
          · have := hnone m hm
            generalize r.state (m + 1) = s' at h
            cases h with
            | mk hb _ => rw [hb] at this; cases this
          · intro e
            have := h.2.2.2
            rw [show (r.state (m + 1)).sink.sink.grouped = [] from e] at this
            exact ih (List.prefix_nil.mp this)
      obtain ⟨m, hm, hh | hh⟩ := h.take n
      · cases hgr : (r.state m).sink.sink.grouped with
        | nil => exact hkeep m hm hgr
        | cons b rest => exact hh ⟨_, .mk (b := b) (k := { (r.state m).sink.sink with grouped := rest }) (hnone m hm) (by unfold Sink.takeBatch; rw [hgr])⟩
      · have := hnone (m + 1) (by omega)
        generalize r.state (m + 1) = s' at hh this
        cases hh; cases this
    obtain ⟨m, hm, hs'⟩ := this
    obtain ⟨m', hm', hlt⟩ := sender_sends h hs'
    have : (r.state n).sent.length ≤ (r.state m).sent.length := nat_mono_of_step (f := fun n => (r.state n).sent.length) (sent_mono r) hm
    exact ⟨m', by omega, by omega⟩
  · exact sender_sends h hs

/-- The sink has nothing that is not flushed, again and again. -/
theorem sink_flushes (h : r.SinkTicks) (n : Nat) : ∃ m, n ≤ m ∧ (r.state m).sink.sink.spanCount = 0 := by
  refine Classical.byContradiction fun hn => ?_
  have hpos : ∀ m, n ≤ m → 0 < (r.state m).sink.sink.spanCount := fun m hm => Nat.pos_of_ne_zero fun e => hn ⟨m, hm, e⟩
  have hlast : ∀ m, n ≤ m → (r.state m).sink.sink.lastFlushTime = (r.state n).sink.sink.lastFlushTime := fun m hm =>
    stays (f := fun m => (r.state m).sink.sink.lastFlushTime) (fun m hm => (flush_moves (r.next m)).resolve_right (by have := hpos (m + 1) (by omega); omega)) hm
  obtain ⟨m, since, now, hm, hT, hb, hs⟩ := h n ((r.state n).sink.sink.lastFlushTime.getD 0 + 1800000000)
  have hdue : (r.state m).sink.sink.due since = true := by
    unfold Sink.due
    rw [hlast m hm]
    cases hl : (r.state n).sink.sink.lastFlushTime with
    | none => rfl
    | some t =>
      rw [hl, Option.getD_some] at hT
      exact decide_eq_true ((by omega : ∀ a b : Int, a + 1800000000 ≤ b → b - a ≥ 1800000000) _ _ hT)
  have h1 := hpos (m + 1) (by omega)
  rw [hs] at h1
  have h1 : 0 < ((r.state m).sink.sink.tick since now).1.spanCount := h1
  unfold Sink.tick Sink.flush at h1
  rw [hdue, if_pos ⟨rfl, hpos m hm⟩] at h1
  split at h1 <;> exact Nat.lt_irrefl _ h1

theorem CallsInv.later {n m : Nat} (hm : n ≤ m) {chunks : List (List Span)} {cur : List Span} (h : CallsInv (r.state n) chunks cur) :
    ∃ chunks' cur', CallsInv (r.state m) chunks' cur' ∧ chunks <+: chunks' ∧ (r.state n).sink.log <+: (r.state m).sink.log ∧ (r.state n).sink.received <+: (r.state m).sink.received := by
  induction hm with
  | refl => exact ⟨chunks, cur, h, List.prefix_rfl, List.prefix_rfl, List.prefix_rfl⟩
  | step hm ih =>
    obtain ⟨c, d, inv, h1, h2, h3⟩ := ih
    obtain ⟨c', d', inv', h1', h2', h3'⟩ := inv.next (r.next _)
    exact ⟨c', d', inv', h1.trans h1', h2.trans h2', h3.trans h3'⟩

/-- C101: every span that the sink received is, in the end, in a batch that was discarded because eight others were waiting, or in a call of the transport. -/
theorem C101_sent (h : r.SenderFair) (ht : r.SinkTicks) (n : Nat) : ∃ (m : Nat) (chunks : List (List Span)) (current : List Span) (count : Nat), n ≤ m ∧
    Partition (r.state m).sink chunks current ∧ (r.state n).sink.received.flatten <+: (chunks.take count).flatten ∧
    SentFits (r.state m).sent (acceptedOf chunks (r.state m).sink.log) ∧
    (acceptedOf (chunks.take count) ((r.state m).sink.log.take count)).length ≤ (r.state m).sent.length := by
  obtain ⟨c0, d0, inv0⟩ := (r.reach n).sentInv
  obtain ⟨m1, hm1, hcount⟩ := sink_flushes ht n
  obtain ⟨c1, d1, inv1, _, _, hrec⟩ := inv0.later hm1
  have hd1 : d1 = [] := List.eq_nil_of_length_eq_zero (by rw [← inv1.sink.count]; exact hcount)
  subst hd1
  -- all accepted until then is sent
  obtain ⟨m, hm, hle⟩ := reaches (f := fun n => ((r.state n).sent.length : Int)) (b := ((acceptedOf c1 (r.state m1).sink.log).length : Nat)) (n := m1)
    (fun n => Int.ofNat_le.mpr (sent_mono r n)) (fun m hm hlt => by
      obtain ⟨c, d, inv, h1, h2, _⟩ := inv1.later hm
      have hpre := (acceptedOf_prefix inv1.sink.part.count h1 h2).length_le
      have hlen := congrArg List.length inv.sink.part.sent
      rw [List.length_map, ← acceptedOf_length inv.sink.part.count, List.length_append, inv.calls] at hlen
      obtain ⟨m', hm', hlt'⟩ := sender_goes_on h (n := m) (Classical.byContradiction fun hn => by
        obtain ⟨e1, e2⟩ := not_or.mp hn
        rw [Classical.not_not.mp e1, Classical.not_not.mp e2] at hlen
        simp only [Option.toList_none, List.length_nil] at hlen
        omega)
      exact ⟨m', hm', Int.ofNat_lt.mpr hlt'⟩)
  obtain ⟨c, d, inv, ⟨x, hx⟩, ⟨y, hy⟩, _⟩ := inv1.later hm
  refine ⟨m, c, d, c1.length, by omega, inv.sink.part, ?_, inv.fits, ?_⟩
  · rw [← hx, List.take_left]
    obtain ⟨z, hz⟩ := hrec
    have := inv1.sink.part.all
    rw [List.append_nil, ← hz, List.flatten_append] at this
    rw [← this]
    exact List.prefix_append _ _
  · rw [← hx, ← hy, List.take_left, inv1.sink.part.count, List.take_left]
    exact Int.ofNat_le.mp hle

theorem acceptedOf_mem : ∀ {chunks : List (List Span)} {log : List (Bool × ByTrace)} {count i : Nat} {c : List Span} {b : ByTrace}, i < count → chunks[i]? = some c →
    log[i]? = some (true, b) → ∃ j, j < (acceptedOf (chunks.take count) (log.take count)).length ∧ (acceptedOf chunks log)[j]? = some c
  | [], _, _, _, _, _, _, h, _ => by simp at h
  | _ :: _, [], _, _, _, _, _, _, h => by simp at h
  | c' :: cs, (d, x) :: l, count + 1, 0, c, b, _, hc, hl => by
    simp only [List.getElem?_cons_zero, Option.some.injEq, Prod.mk.injEq] at hc hl
    obtain ⟨rfl, rfl⟩ := hl
    subst hc
    exact ⟨0, by simp [acceptedOf], by simp [acceptedOf]⟩
  | c' :: cs, (d, x) :: l, count + 1, i + 1, c, b, hi, hc, hl => by
    simp only [List.getElem?_cons_succ] at hc hl
    obtain ⟨j, hj, hj'⟩ := acceptedOf_mem (count := count) (by omega) hc hl
    cases d with
    | true => exact ⟨j + 1, by simpa [acceptedOf] using hj, by simpa [acceptedOf] using hj'⟩
    | false => exact ⟨j, by simpa [acceptedOf] using hj, by simpa [acceptedOf] using hj'⟩

/-- Each batch is discarded or given to the transport, if so many calls were made. -/
theorem fate_of_sent {s : System κ} {chunks : List (List Span)} {current : List Span} {count : Nat} (hp : Partition s.sink chunks current)
    (hfits : SentFits s.sent (acceptedOf chunks s.sink.log)) (hle : (acceptedOf (chunks.take count) (s.sink.log.take count)).length ≤ s.sent.length)
    {i : Nat} {chunk : List Span} (hi : i < count) (hc : chunks[i]? = some chunk) : (∃ b, s.sink.log[i]? = some (false, b)) ∨ ∃ call ∈ s.sent, Call chunk call := by
  have hlt : i < s.sink.log.length := by rw [← hp.count]; exact (List.getElem?_eq_some_iff.mp hc).1
  obtain ⟨d, b, hl⟩ : ∃ d b, s.sink.log[i]? = some (d, b) := ⟨_, _, List.getElem?_eq_getElem hlt⟩
  cases d with
  | false => exact .inl ⟨b, hl⟩
  | true =>
    obtain ⟨j, hj, hj'⟩ := acceptedOf_mem hi hc hl
    have hjs : j < s.sent.length := by omega
    obtain ⟨chunk', hc', hcall⟩ := hfits j _ (List.getElem?_eq_getElem hjs)
    rw [hj'] at hc'
    cases hc'
    exact .inr ⟨_, List.getElem_mem hjs, hcall⟩

/-- A trace is as a whole in one of the batches. -/
theorem whole_in_chunk {w : SinkRun} {chunks : List (List Span)} {current : List Span} {count : Nat} (hp : Partition w chunks current) {ts : List (List Span)}
    (hf : ts.flatten <+: (chunks.take count).flatten) (hr : ts <+: w.received) {t : List Span} (htm : t ∈ ts) (hne : t ≠ []) :
    ∃ (i : Nat) (chunk : List Span), i < count ∧ chunks[i]? = some chunk ∧ t <:+: chunk := by
  obtain ⟨groups, rest, e1, e2, e3⟩ := hp.whole
  have hmem : t ∈ (groups.take count).flatten := by
    have hB : (groups.take count).flatten <+: w.received := by
      rw [e1, ← List.take_append_drop count groups, List.flatten_append, List.take_append_drop, List.append_assoc]
      exact List.prefix_append _ _
    have hfl : (chunks.take count).flatten = (groups.take count).flatten.flatten := by
      rw [e2, ← List.map_take, List.flatten_flatten]
    rw [hfl] at hf
    rcases List.prefix_or_prefix_of_prefix hr hB with h | h
    · exact h.subset htm
    · obtain ⟨d, hd⟩ := h
      rw [← hd] at htm hf
      rcases List.mem_append.mp htm with h | h
      · exact h
      · exfalso
        have hle := hf.length_le
        rw [List.flatten_append, List.length_append] at hle
        have h0 : d.flatten = [] := List.eq_nil_of_length_eq_zero (by omega)
        exact hne (List.flatten_eq_nil_iff.mp h0 t h)
  obtain ⟨g, hg, htg⟩ := List.mem_flatten.mp hmem
  obtain ⟨i, hi⟩ := List.mem_iff_getElem?.mp hg
  rw [List.getElem?_take] at hi
  split at hi
  · rename_i hlt
    have hc : chunks[i]? = some g.flatten := by rw [e2, List.getElem?_map, hi]; rfl
    obtain ⟨before, after, hsplit⟩ := List.append_of_mem htg
    exact ⟨i, _, hlt, hc, ⟨before.flatten, after.flatten, by rw [hsplit]; simp⟩⟩
  · cases hi

/-- C101: what the collector finished gets to Datadog. In every execution in which nobody is forgotten and ticks recur, all traces finished until any time, converted, are in the end in batches
each of which was given to the transport in a call, or was discarded because eight others were waiting. -/
theorem C101_fate (h : r.Fair) (hs : r.SenderFair) (ht : r.SinkTicks) (n : Nat) : ∃ (m : Nat) (chunks : List (List Span)) (current : List Span) (count : Nat), n ≤ m ∧
    Partition (r.state m).sink chunks current ∧ (convertTraces conv k (emittedOf (r.state n).world.removed)).flatten <+: (chunks.take count).flatten ∧
    convertTraces conv k (emittedOf (r.state n).world.removed) <+: (r.state m).sink.received ∧
    ∀ (i : Nat) (chunk : List Span), i < count → chunks[i]? = some chunk →
      (∃ b, (r.state m).sink.log[i]? = some (false, b)) ∨ ∃ call ∈ (r.state m).sent, Call chunk call := by
  obtain ⟨m0, hm0, hd⟩ := C100_delivered h n
  obtain ⟨m, chunks, current, count, hm, hp, hf, hfits, hle⟩ := C101_sent hs ht m0
  refine ⟨m, chunks, current, count, by omega, hp, ?_, (hd m hm).1, fun i chunk hi hc => fate_of_sent hp hfits hle hi hc⟩
  obtain ⟨x, hx⟩ := (hd m0 (Nat.le_refl _)).1
  refine List.IsPrefix.trans ?_ hf
  rw [← hx, List.flatten_append]
  exact List.prefix_append _ _

/-- C101: no trace is divided: each is as a whole in a call, or in a batch that was discarded. -/
theorem C101_traces (h : r.Fair) (hs : r.SenderFair) (ht : r.SinkTicks) (n : Nat) : ∃ (m : Nat) (chunks : List (List Span)) (current : List Span), n ≤ m ∧
    Partition (r.state m).sink chunks current ∧
    ∀ t ∈ convertTraces conv k (emittedOf (r.state n).world.removed), t ≠ [] → ∃ (i : Nat) (chunk : List Span), chunks[i]? = some chunk ∧ t <:+: chunk ∧
      ((∃ b, (r.state m).sink.log[i]? = some (false, b)) ∨ ∃ call ∈ (r.state m).sent, Call chunk call) := by
  obtain ⟨m, chunks, current, count, hm, hp, hf, hr, hfate⟩ := C101_fate h hs ht n
  refine ⟨m, chunks, current, hm, hp, fun t htm hne => ?_⟩
  obtain ⟨i, chunk, hi, hc, hin⟩ := whole_in_chunk hp hf hr htm hne
  exact ⟨i, chunk, hc, hin, hfate i chunk hi hc⟩

/-! ## There are such executions -/

/-- Nothing is left to do, for the sender neither. -/
def System.Quiet (s : System κ) : Prop := ¬ s.Pending ∧ s.sending = none ∧ s.sink.sink.grouped = []

/-- A scheduler, with the count of the ticks: while work is left, somebody does it; then the collector and the sink get their ticks in turn. -/
inductive System.Turn (conv : κ → Span → Option Span × κ) : System κ × Nat → System κ × Nat → Prop
  | step {s s' : System κ} {t : Nat} : s.Pending → s.Step conv s' → Turn conv (s, t) (s', t)
  | send {s s' : System κ} {t : Nat} : ¬ s.Pending → s.SenderSends s' → Turn conv (s, t) (s', t)
  | take {s s' : System κ} {t : Nat} : ¬ s.Pending → s.SenderTakes s' → Turn conv (s, t) (s', t)
  | tick {s : System κ} {t : Nat} (i : TickInput) : s.Quiet → t % 2 = 0 → s.outbox = [] → i.Valid s.world.c → i.now1 = s.world.clock + 1 →
      Turn conv (s, t) ({ s with world := s.world.tick i, outbox := emittedOf (s.world.c.tick i).2 }, t + 1)
  | sinkTick {s : System κ} {t : Nat} : s.Quiet → t % 2 = 1 → s.sinkBusy = none →
      Turn conv (s, t) ({ s with sink := s.sink.tick (t : Int) (t : Int) }, t + 1)

theorem turn_exists {o : List Parsed} {p : System κ × Nat} (h : System.Reachable conv k o p.1) : ∃ q, System.Turn conv p q := by
  obtain ⟨s, t⟩ := p
  by_cases hp : s.Pending
  · obtain ⟨s', hs⟩ := C67_progress h hp
    exact ⟨_, .step hp hs⟩
  · cases hb : s.sending with
    | some b => exact ⟨_, .send hp (.mk hb (isRange_refl b))⟩
    | none =>
      cases hg : s.sink.sink.grouped with
      | cons b rest => exact ⟨_, .take hp (.mk (b := b) (k := { s.sink.sink with grouped := rest }) hb (by unfold Sink.takeBatch; rw [hg]))⟩
      | nil =>
        have hq : s.Quiet := ⟨hp, hb, hg⟩
        rcases Nat.mod_two_eq_zero_or_one t with h0 | h1
        · obtain ⟨i, hv, h1, h2, _⟩ := exists_valid s.world.c (s.world.clock + 1) (s.world.clock + 1) (fun _ => 0) (Int.le_refl _)
          exact ⟨_, .tick i hq h0 (Classical.byContradiction fun ho => hp (.inr (.inr (.inl ho)))) hv h1⟩
        · exact ⟨_, .sinkTick hq h1 (Classical.byContradiction fun ho => hp (.inr (.inr (.inr (.inr (.inl ho))))))⟩

theorem System.Turn.next {o : List Parsed} {p q : System κ × Nat} (h : System.Turn conv p q) : System.Next conv o p.1 o q.1 := by
  cases h with
  | step _ h => exact .step h
  | send _ h => cases h with | mk hb hr => exact .event (.senderSend hb hr)
  | take _ h => cases h with | mk hb hr => exact .event (.senderTake hb hr)
  | tick i _ _ h1 h2 h3 => exact .event (.tick i h1 h2 (by rw [h3]; exact Int.le_of_lt (Int.lt_succ _)))
  | sinkTick _ _ h => exact .event (.sinkTick _ _ h)

theorem System.Turn.reachable {o : List Parsed} {p q : System κ × Nat} (h : System.Turn conv p q) (hp : System.Reachable conv k o p.1) : System.Reachable conv k o q.1 := by
  cases h with
  | step _ h => exact .step hp h
  | send _ h => cases h with | mk hb hr => exact .event hp (.senderSend hb hr)
  | take _ h => cases h with | mk hb hr => exact .event hp (.senderTake hb hr)
  | tick i _ _ h1 h2 h3 => exact .event hp (.tick i h1 h2 (by rw [h3]; exact Int.le_of_lt (Int.lt_succ _)))
  | sinkTick _ _ h => exact .event hp (.sinkTick _ _ h)

/-- While work is left, somebody does it. -/
inductive System.Drains (conv : κ → Span → Option Span × κ) : System κ → System κ → Prop
  | step {s s' : System κ} : s.Pending → s.Step conv s' → Drains conv s s'
  | send {s s' : System κ} : ¬ s.Pending → s.SenderSends s' → Drains conv s s'
  | take {s s' : System κ} : ¬ s.Pending → s.SenderTakes s' → Drains conv s s'
  | quiet {s s' : System κ} : s.Quiet → Drains conv s s'

theorem System.Turn.drains {p q : System κ × Nat} (h : System.Turn conv p q) : System.Drains conv p.1 q.1 := by
  cases h with
  | step h1 h2 => exact .step h1 h2
  | send h1 h2 => exact .send h1 h2
  | take h1 h2 => exact .take h1 h2
  | tick i hq _ _ _ _ => exact .quiet hq
  | sinkTick hq _ _ => exact .quiet hq

/-- The scheduler comes to an end of the work, again and again. -/
theorem turns_quiet {o : List Parsed} {f : Nat → System κ} (hr : ∀ n, System.Reachable conv k o (f n)) (hf : ∀ n, System.Drains conv (f n) (f (n + 1))) (n : Nat) :
    ∃ m, n ≤ m ∧ (f m).Quiet := by
  have idle : ∀ w n, (f n).work ≤ w → ∃ m, n ≤ m ∧ ¬ (f m).Pending := by
    intro w
    induction w with
    | zero =>
      intro n hw
      refine ⟨n, Nat.le_refl _, fun hp => ?_⟩
      obtain ⟨s', hs⟩ := C67_progress (hr n) hp
      have := C67_terminates (hr n) hs; omega
    | succ w ih =>
      intro n hw
      by_cases hp : (f n).Pending
      · have : (f (n + 1)).work < (f n).work := by
          have h1 := hf n
          have h2 := hr n
          generalize f n = p at h1 h2 hp
          generalize f (n + 1) = q at h1
          cases h1 with
          | step _ hs => exact C67_terminates h2 hs
          | send h _ => exact absurd hp h
          | take h _ => exact absurd hp h
          | quiet hq => exact absurd hp hq.1
        obtain ⟨m, hm, hi⟩ := ih (n + 1) (by omega)
        exact ⟨m, by omega, hi⟩
      · exact ⟨n, Nat.le_refl _, hp⟩
  have quiet : ∀ w n, ¬ (f n).Pending → 2 * (f n).sink.sink.grouped.length + (f n).sending.toList.length ≤ w → ∃ m, n ≤ m ∧ (f m).Quiet := by
    intro w
    induction w with
    | zero =>
      intro n hp hw
      refine ⟨n, Nat.le_refl _, hp, ?_, List.eq_nil_of_length_eq_zero (by omega)⟩
      cases hb : (f n).sending with
      | none => rfl
      | some b => rw [hb] at hw; simp at hw
    | succ w ih =>
      intro n hp hw
      by_cases hq : (f n).Quiet
      · exact ⟨n, Nat.le_refl _, hq⟩
      · have : ¬ (f (n + 1)).Pending ∧ 2 * (f (n + 1)).sink.sink.grouped.length + (f (n + 1)).sending.toList.length ≤ w := by
          have h1 := hf n
          generalize f n = p at h1 hp hq hw
          generalize f (n + 1) = q at h1
          cases h1 with
          | step h _ => exact absurd h hp
          | send _ h =>
            cases h with
            | mk hb _ =>
              refine ⟨hp, ?_⟩
              dsimp only at hw ⊢
              rw [hb] at hw
              simp at hw ⊢
              omega
          | take _ h =>
            cases h with
            | mk hb ht =>
              refine ⟨hp, ?_⟩
              dsimp only at hw ⊢
              unfold Sink.takeBatch at ht
              split at ht
              · cases ht
              · rename_i hg
                cases ht
                rw [hb, hg] at hw
                simp at hw ⊢
                omega
          | quiet h => exact absurd h hq
        obtain ⟨m, hm, hi⟩ := ih (n + 1) this.1 this.2
        exact ⟨m, by omega, hi⟩
  obtain ⟨m, hm, hi⟩ := idle _ n (Nat.le_refl _)
  obtain ⟨m', hm', hq⟩ := quiet _ m hi (Nat.le_refl _)
  exact ⟨m', by omega, hq⟩

/-- C101: from every state that any schedule leads to, the system can go on so that nobody is forgotten and ticks recur. -/
theorem C101_exists {o : List Parsed} {s : System κ} (h : System.Reachable conv k o s) :
    ∃ r : Execution conv k, r.state 0 = s ∧ (∀ n, r.outcomes n = o) ∧ r.Fair ∧ r.Ticks ∧ r.SenderFair ∧ r.SinkTicks := by
  have hstep : ∀ p : { p : System κ × Nat // System.Reachable conv k o p.1 }, ∃ q : { p : System κ × Nat // System.Reachable conv k o p.1 }, System.Turn conv p.1 q.1 := fun p => by
    obtain ⟨q, hq⟩ := turn_exists p.2
    exact ⟨⟨q, hq.reachable p.2⟩, hq⟩
  obtain ⟨g, hg⟩ := Classical.axiomOfChoice hstep
  let f : Nat → { p : System κ × Nat // System.Reachable conv k o p.1 } := fun n => Nat.rec ⟨(s, 0), h⟩ (fun _ p => g p) n
  have hf : ∀ n, System.Turn conv (f n).1 (f (n + 1)).1 := fun n => hg (f n)
  have quiet : ∀ n, ∃ m, n ≤ m ∧ (f m).1.1.Quiet := turns_quiet (f := fun n => (f n).1.1) (fun n => (f n).2) fun n => (hf n).drains
  let r : Execution conv k := ⟨fun n => (f n).1.1, fun _ => o, h, fun n => (hf n).next⟩
  -- when nothing is left, somebody gets a tick
  have ticks : ∀ n, ∃ m, n ≤ m ∧ (f m).1.1.Quiet ∧ (f (m + 1)).1.2 = (f m).1.2 + 1 := fun n => by
    obtain ⟨m, hm, hq⟩ := quiet n
    refine ⟨m, hm, hq, ?_⟩
    have h1 := hf m
    generalize (f m).1 = p at h1 hq
    generalize (f (m + 1)).1 = q at h1
    cases h1 with
    | step h _ => exact absurd h hq.1
    | send _ h => cases h with | mk hb _ => rw [hq.2.1] at hb; cases hb
    | take _ h => cases h with | mk _ ht => unfold Sink.takeBatch at ht; rw [hq.2.2] at ht; cases ht
    | tick i h _ _ _ _ => rfl
    | sinkTick h _ _ => rfl
  have count : ∀ n, (f n).1.2 ≤ (f (n + 1)).1.2 ∧ (f (n + 1)).1.2 ≤ (f n).1.2 + 1 := fun n => by
    have h1 := hf n
    generalize (f n).1 = p at h1
    generalize (f (n + 1)).1 = q at h1
    cases h1 <;> constructor <;> dsimp only <;> omega
  have counts : ∀ {a b : Nat}, a ≤ b → (f a).1.2 ≤ (f b).1.2 := fun hab => nat_mono_of_step (f := fun n => (f n).1.2) (fun n => (count n).1) hab
  -- each count is the count at some tick
  have at_count : ∀ c n, (f n).1.2 ≤ c → ∃ m, n ≤ m ∧ (f m).1.1.Quiet ∧ (f m).1.2 = c ∧ (f (m + 1)).1.2 = c + 1 := by
    intro c n hc
    have : ∀ d n, c - (f n).1.2 = d → (f n).1.2 ≤ c → ∃ m, n ≤ m ∧ (f m).1.1.Quiet ∧ (f m).1.2 = c ∧ (f (m + 1)).1.2 = c + 1 := by
      intro d
      induction d with
      | zero =>
        intro n hd hc
        obtain ⟨m, hm, hi, hs⟩ := ticks n
        -- the first one
        by_cases he : (f m).1.2 = c
        · exact ⟨m, hm, hi, he, by omega⟩
        · have hle := counts hm
          obtain ⟨j, hj, hq, hn⟩ := ends (Q := fun j => (f j).1.2 ≤ c) hm hc (by omega)
          have hcj := count j
          refine ⟨j, hj, ?_, by omega, by omega⟩
          have h1 := hf j
          have h2 : (f (j + 1)).1.2 ≠ (f j).1.2 := by omega
          generalize (f j).1 = p at h1 h2
          generalize (f (j + 1)).1 = q at h1 h2
          cases h1 with
          | tick i h _ _ _ _ => exact h
          | sinkTick h _ _ => exact h
          | _ => exact absurd rfl h2
      | succ d ih =>
        intro n hd hc
        obtain ⟨m, hm, hi, hs⟩ := ticks n
        obtain ⟨j, hj, hq, hn⟩ := ends (Q := fun j => (f j).1.2 ≤ (f n).1.2) (m := n) (m' := m + 1) (by omega) (Nat.le_refl _) (by have := counts hm; omega)
        have hcj := count j
        obtain ⟨m', hm', hx⟩ := ih (j + 1) (by have := counts hj; omega) (by omega)
        exact ⟨m', by omega, hx⟩
    exact this _ n rfl hc
  refine ⟨r, rfl, fun _ => rfl, r.fair_of_idle fun n => ?_, fun n T => ?_, ⟨fun n => ?_, fun n => ?_⟩, fun n T => ?_⟩
  · obtain ⟨m, hm, hq⟩ := quiet n
    exact ⟨m, hm, hq.1⟩
  · have cmono := fun {a b : Nat} (hab : a ≤ b) => mono_of_step (f := fun n => (r.state n).world.clock) (fun n => clock_le (r.next n)) hab
    -- the collector gets a tick, and the clock goes on
    have key : ∀ n, ∃ (m : Nat) (i : TickInput), n ≤ m ∧ (r.state m).outbox = [] ∧ i.Valid (r.state m).world.c ∧ i.now1 = (r.state m).world.clock + 1 ∧
        r.state (m + 1) = { (r.state m) with world := (r.state m).world.tick i, outbox := emittedOf ((r.state m).world.c.tick i).2 } := fun n => by
      obtain ⟨m, hm, hq, hc, hc'⟩ := at_count (2 * (f n).1.2) n (by omega)
      have h1 := hf m
      refine ⟨m, ?_⟩
      show ∃ i : TickInput, n ≤ m ∧ (f m).1.1.outbox = [] ∧ i.Valid (f m).1.1.world.c ∧ i.now1 = (f m).1.1.world.clock + 1 ∧
        (f (m + 1)).1.1 = { (f m).1.1 with world := (f m).1.1.world.tick i, outbox := emittedOf ((f m).1.1.world.c.tick i).2 }
      generalize (f m).1 = p at h1 hq hc
      generalize (f (m + 1)).1 = q at h1 hc'
      cases h1 with
      | tick i _ _ h1 h2 h3 => exact ⟨i, hm, h1, h2, h3, rfl⟩
      | sinkTick _ ho _ => dsimp only at hc; omega
      | _ => dsimp only at hc hc'; omega
    obtain ⟨m, hm, hT⟩ := reaches (f := fun n => (r.state n).world.clock) (b := T) (n := n) (fun n => clock_le (r.next n)) (fun m hm hlt => by
      obtain ⟨m', i, hm', ho, hv, hnow, hs⟩ := key m
      refine ⟨m' + 1, by omega, ?_⟩
      have h1 : (r.state m).world.clock ≤ (r.state m').world.clock := cmono hm'
      show (r.state m).world.clock < (r.state (m' + 1)).world.clock
      rw [hs]
      show (r.state m).world.clock < i.now2
      have h2 := hv.clock
      rw [hnow] at h2
      exact Int.lt_of_lt_of_le (Int.lt_add_one_of_le h1) h2)
    obtain ⟨m', i, hm', ho, hv, hnow, hs⟩ := key m
    have h1 : (r.state m).world.clock ≤ (r.state m').world.clock := cmono hm'
    have h2 : (r.state m').world.clock ≤ i.now1 := by rw [hnow]; exact Int.le_of_lt (Int.lt_succ _)
    exact ⟨m', i, by omega, Int.le_trans hT (Int.le_trans h1 h2), ho, hv, h2, hs⟩
  · obtain ⟨m, hm, hq⟩ := quiet n
    refine ⟨m, hm, .inl fun ⟨s', h⟩ => ?_⟩
    cases h with
    | mk _ ht => unfold Sink.takeBatch at ht; rw [show (r.state m).sink.sink.grouped = [] from hq.2.2] at ht; cases ht
  · obtain ⟨m, hm, hq⟩ := quiet n
    refine ⟨m, hm, .inl fun ⟨s', h⟩ => ?_⟩
    cases h with
    | mk hb _ => rw [show (r.state m).sending = none from hq.2.1] at hb; cases hb
  · obtain ⟨m, hm, hq, hc, hc'⟩ := at_count (2 * ((f n).1.2 + T.toNat) + 1) n (by omega)
    have h1 := hf m
    refine ⟨m, ((f m).1.2 : Int), ((f m).1.2 : Int), hm, ?_, ?_⟩
    · rw [hc]
      exact (by omega : ∀ (a : Nat) (T : Int), T ≤ ((2 * (a + T.toNat) + 1 : Nat) : Int)) _ _
    · show (f m).1.1.sinkBusy = none ∧ (f (m + 1)).1.1 = { (f m).1.1 with sink := (f m).1.1.sink.tick ((f m).1.2 : Int) ((f m).1.2 : Int) }
      generalize (f m).1 = p at h1 hq hc
      generalize (f (m + 1)).1 = q at h1 hc'
      cases h1 with
      | sinkTick _ _ h => exact ⟨h, rfl⟩
      | tick i _ ho _ _ _ => dsimp only at hc; omega
      | _ => dsimp only at hc hc'; omega

/-- Such an execution, beginning with a request for one span that is still to be handled. -/
theorem C101_witness : ∃ r : Execution (κ := Unit) (fun k s => (some s, k)) (), r.Fair ∧ r.Ticks ∧ r.SenderFair ∧ r.SinkTicks ∧
    (r.state 0).http.conns[0]? = some (.pushing [{ id := 7, trace := 9, parent := 7 }]) := by
  obtain ⟨r, h1, h2, h3, h4, h5, h6⟩ := C101_exists (conv := fun (k : Unit) s => (some s, k)) (.request (.spans [{ id := 7, trace := 9, parent := 7 }]) (.init (k := ()) 0))
  exact ⟨r, h3, h4, h5, h6, by rw [h1]; rfl⟩

end Verif
