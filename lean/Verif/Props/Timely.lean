import Verif.Props.Intact
import Verif.Spec.Timely

/-!
# How long it takes until a trace is sent: C127
-/

namespace Verif

open Spec

variable {κ : Type} {conv : κ → Span → Option Span × κ} {k : κ} {r : Execution conv k} {time : Nat → Time}

local macro "tomega" : tactic => `(tactic| (dsimp only [Time] at *; omega))

theorem Execution.Clock.le (hc : r.Clock time) {n m : Nat} (h : n ≤ m) : time n ≤ time m := mono_of_step (f := time) hc.mono h

theorem Execution.Clock.later (hc : r.Clock time) {n m : Nat} (h : time n < time (m + 1)) : n ≤ m :=
  Classical.byContradiction fun e => by
    have := hc.le (show m + 1 ≤ n by omega)
    exact absurd h (Int.not_lt.mpr this)

/-- C127: a request is answered, and the collector received its spans, after the delay. -/
theorem C127_received {delay : Time} (hd : r.Responsive time delay) {n i : Nat} {l : List Span} (hp : (r.outcomes n)[i]? = some (.spans l)) :
    ∃ m, n ≤ m ∧ time m ≤ time n + delay ∧ (r.state m).http.conns[i]? = some (.answered 202) ∧ l.Sublist (r.state m).world.received := by
  obtain ⟨m, hm, ht, hn⟩ := hd n
  have hp' := outcome_later r hm hp
  obtain ⟨log, _, _, _, inv⟩ := (r.reach m).inv
  have hall := C33_all_or_nothing inv.http
  have hi : i < (r.state m).http.conns.length := by rw [hall.1]; exact (List.getElem?_eq_some_iff.mp hp').1
  have hcon := hall.2.1 i _ _ hp' (List.getElem?_eq_getElem hi)
  have hmem := List.getElem_mem hi
  obtain ⟨_, _, log', hrec, hlog⟩ := C61_complete (r.reach m) hn
  refine ⟨m, hm, ht, ?_, ?_⟩
  · rw [List.getElem?_eq_getElem hi]
    generalize (r.state m).http.conns[i] = c at hcon hmem
    generalize pushedBy i log = pushed at hcon
    cases hcon with
    | pushing => exact absurd (.inl ⟨_, hmem, .inr ⟨_, rfl⟩⟩) hn
    | accepted => rfl
  · rw [hrec, ← hlog i l hp']
    exact (List.filter_sublist).map _

/-- What can happen to a pending trace. -/
theorem pending_next {o o' : List Parsed} {s s' : System κ} (hs : Reachable s.world) (hm : System.Next conv o s o' s') {id : Id} {t : Tree} (ht : s.world.c.traces[id]? = some t) :
    s'.world.c.traces[id]? = some t ∨ (∃ fate, ⟨id, t, fate⟩ ∈ s'.world.removed.drop s.world.removed.length) ∨
      (receivedFor id s.world.received).length < (receivedFor id s'.world.received).length := by
  cases hm with
  | step hm =>
    cases hm with
    | @collect x rest now1 now2 a b c d =>
      by_cases hx : Traced x ∧ x.trace = id
      · right; right
        show _ < (receivedFor id (s.world.received ++ [x])).length
        rw [receivedFor_append, if_pos hx]
        simp
      · left
        show (s.world.c.receive now1 now2 x).traces[id]? = some t
        unfold Collector.receive
        by_cases htr : x.trace = 0 ∨ x.id = 0
        · rw [if_pos htr]; exact ht
        · rw [if_neg htr]
          have htr : Traced x := Classical.byContradiction fun e => htr ((not_traced_iff x).mpr e)
          by_cases hb : s.world.c.blacklist.contains x.trace = true
          · rw [if_pos hb]; exact ht
          · rw [if_neg hb]
            dsimp only
            rw [get_insert, if_neg fun e => hx ⟨htr, e⟩]
            exact ht
    | _ => exact .inl ht
  | event hm =>
    cases hm with
    | tick i ho hv hc =>
      obtain ⟨_, _, hall⟩ := C44_other_fates hs hv
      by_cases hf : ∃ f, ⟨id, t, f⟩ ∈ (s.world.c.tick i).2
      · obtain ⟨f, hf⟩ := hf
        right; left
        refine ⟨f, ?_⟩
        show _ ∈ (s.world.removed ++ (s.world.c.tick i).2).drop s.world.removed.length
        rw [List.drop_left]
        exact hf
      · left
        exact (hall id t ht).2.2.2.2.2 fun f hm => hf ⟨f, hm⟩
    | _ => exact .inl ht
  | request o => exact .inl ht
  | stay => exact .inl ht

theorem receivedFor_mono (r : Execution conv k) {n m : Nat} (h : n ≤ m) (id : Id) : (receivedFor id (r.state n).world.received).length ≤ (receivedFor id (r.state m).world.received).length := by
  obtain ⟨l, hl⟩ := (flow r h).2
  rw [← hl]
  unfold receivedFor
  rw [List.filter_append, List.length_append]
  omega

theorem removed_drop (r : Execution conv k) {n m m' : Nat} (h : n ≤ m) (h' : m ≤ m') {x : Removal} (hx : x ∈ (r.state m').world.removed.drop (r.state m).world.removed.length) :
    x ∈ (r.state m').world.removed.drop (r.state n).world.removed.length := by
  have := (removed_prefix r h).length_le
  exact (List.drop_sublist_drop_left _ this).subset hx

theorem removed_later (r : Execution conv k) {n m m' : Nat} (h : n ≤ m) (h' : m ≤ m') {x : Removal} (hx : x ∈ (r.state m).world.removed.drop (r.state n).world.removed.length) :
    x ∈ (r.state m').world.removed.drop (r.state n).world.removed.length := by
  obtain ⟨l, hl⟩ := removed_prefix r h'
  rw [← hl, List.drop_append_of_le_length (removed_prefix r h).length_le]
  exact List.mem_append_left _ hx

theorem pending_later (r : Execution conv k) {n m : Nat} (h : n ≤ m) {id : Id} {t : Tree} (ht : (r.state n).world.c.traces[id]? = some t) :
    (r.state m).world.c.traces[id]? = some t ∨ (∃ fate, ⟨id, t, fate⟩ ∈ (r.state m).world.removed.drop (r.state n).world.removed.length) ∨
      (receivedFor id (r.state n).world.received).length < (receivedFor id (r.state m).world.received).length := by
  induction h with
  | refl => exact .inl ht
  | @step m h ih =>
    rcases ih with ih | ⟨f, hf⟩ | ih
    · rcases pending_next (r.world m) (r.next m) ih with h1 | ⟨f, hf⟩ | h1
      · exact .inl h1
      · exact .inr (.inl ⟨f, removed_drop r h (Nat.le_succ m) hf⟩)
      · have := receivedFor_mono r h id
        exact .inr (.inr (Nat.lt_of_le_of_lt this h1))
    · exact .inr (.inl ⟨f, removed_later r h (Nat.le_succ m) hf⟩)
    · exact .inr (.inr (Nat.lt_of_lt_of_le ih (receivedFor_mono r (Nat.le_succ m) id)))

/-- C127: a trace to which no span is added leaves the collector after 8 seconds and the period of the ticks. -/
theorem C127_leaves (hc : r.Clock time) {period : Time} (ht : r.CollectorTicks time period) {n : Nat} {id : Id} {t : Tree} (hp : (r.state n).world.c.traces[id]? = some t) :
    ∃ m, n ≤ m ∧ time m ≤ time n + 8000000000 + period ∧
      ((∃ fate, ⟨id, t, fate⟩ ∈ (r.state m).world.removed.drop (r.state n).world.removed.length) ∨
        (receivedFor id (r.state n).world.received).length < (receivedFor id (r.state m).world.received).length) := by
  obtain ⟨m, i, h1, h2, hv, hs, _⟩ := ht (time n + 8000000000) (by have := hc.le (Nat.zero_le n); tomega)
  have hclock : i.now2 ≤ time (m + 1) := by
    have := hc.collector (m + 1)
    rw [hs] at this
    exact this
  have hnm : n ≤ m := hc.later (by have := hv.clock; tomega)
  refine ⟨m + 1, by omega, h2, ?_⟩
  rcases pending_later r (Nat.le_succ_of_le hnm) hp with h | h
  · exfalso
    rw [hs] at h
    have h : ((r.state m).world.c.tick i).1.traces[id]? = some t := h
    obtain ⟨_, _, _, _, hall⟩ := C52_pending_time (r.world m) hv
    have hu := ((reachable_inv (r.world n)).trees id t hp).updated
    have := hc.collector n
    rw [hall id t (tick_keeps_tree hv h) (by tomega)] at h
    cases h
  · exact h

/-- C127: every span with ids leaves the collector after 40 seconds and the period of the ticks, with its trace or refused. -/
theorem C127_left (hc : r.Clock time) {period : Time} (ht : r.CollectorTicks time period) (n : Nat) : ∃ m, n ≤ m ∧ time m ≤ time n + 40000000001 + period ∧
    ∀ l : List Span, l.Sublist (r.state n).world.received → List.Subperm (l.filter fun s => decide (Traced s)) (r.state m).world.left := by
  obtain ⟨m, i, h1, h2, hv, hs, _⟩ := ht (time n + 40000000001) (by have := hc.le (Nat.zero_le n); tomega)
  have hclock : i.now2 ≤ time (m + 1) := by
    have := hc.collector (m + 1)
    rw [hs] at this
    exact this
  have hnm : n ≤ m := hc.later (by have := hv.clock; tomega)
  refine ⟨m + 1, by omega, h2, fun l hl => left_of_leaves (by omega) (fun id t h => leaves_after hnm ?_ hv hs (Nat.le_refl _) h) hl⟩
  have := hc.collector n
  tomega

/-- C127: what the collector finished is received by the sink, converted, and shown by the admin buffer, after the delay. -/
theorem C127_delivered {delay : Time} (hd : r.Responsive time delay) (n : Nat) : ∃ m, n ≤ m ∧ time m ≤ time n + delay ∧
    convertTraces conv k (emittedOf (r.state n).world.removed) <+: (r.state m).sink.received ∧
    ∃ ts, convertTraces conv k (emittedOf (r.state n).world.removed) <+: ts ∧ (Ring.new 2048).readFrom ts = some (r.state m).ring := by
  obtain ⟨m, hm, ht, hn⟩ := hd n
  obtain ⟨h1, h2, _⟩ := C61_complete (r.reach m) hn
  have hpre : convertTraces conv k (emittedOf (r.state n).world.removed) <+: convertTraces conv k (emittedOf (r.state m).world.removed) := by
    obtain ⟨l, hl⟩ := removed_prefix r hm
    rw [← hl, emittedOf_append, convertTraces_append]
    exact List.prefix_append _ _
  exact ⟨m, hm, ht, h1 ▸ hpre, _, hpre, h2⟩

/-- The sink has nothing that is not flushed, at some time within 1.8 seconds and the period of its ticks. -/
theorem flushed_in (hc : r.Clock time) {period : Time} (ht : r.SinkTicksIn time period) (n : Nat) : ∃ m, n ≤ m ∧ time m ≤ time n + 1800000000 + period ∧ (r.state m).sink.sink.spanCount = 0 := by
  obtain ⟨m, since, now, h1, h2, h3, hs⟩ := ht (time n + 1800000000) (by have := hc.le (Nat.zero_le n); tomega)
  have hnm : n ≤ m := hc.later (by tomega)
  refine Classical.byContradiction fun hn => ?_
  have hpos : ∀ j, n ≤ j → j ≤ m + 1 → 0 < (r.state j).sink.sink.spanCount := fun j h h' =>
    Nat.pos_of_ne_zero fun e => hn ⟨j, h, by have := hc.le h'; tomega, e⟩
  have hlast : ∀ j, n ≤ j → j ≤ m → (r.state j).sink.sink.lastFlushTime = (r.state n).sink.sink.lastFlushTime := by
    intro j hj
    induction hj with
    | refl => intro _; rfl
    | @step j hj ih =>
      intro hm
      have := hpos (j + 1) (Nat.le_succ_of_le hj) (by omega)
      exact ((flush_moves (r.next j)).resolve_right (Nat.ne_of_gt this)).trans (ih (by omega))
  obtain ⟨_, _, inv⟩ := (r.reach n).sentInv
  have hdue : (r.state m).sink.sink.due since = true := by
    unfold Sink.due
    rw [hlast m hnm (Nat.le_refl _)]
    cases hl : (r.state n).sink.sink.lastFlushTime with
    | none => rfl
    | some t =>
      rw [inv.sink.last] at hl
      have := hc.flushes n t (List.mem_of_getLast? hl)
      exact decide_eq_true ((by omega : ∀ a b c : Int, a ≤ c → c + 1800000000 ≤ b → b - a ≥ 1800000000) _ _ _ this h1)
  have h4 := hpos (m + 1) (by omega) (Nat.le_refl _)
  rw [hs] at h4
  have h4 : 0 < ((r.state m).sink.sink.tick since now).1.spanCount := h4
  unfold Sink.tick Sink.flush at h4
  rw [hdue, if_pos ⟨rfl, hpos m hnm (Nat.le_succ m)⟩] at h4
  split at h4 <;> exact Nat.lt_irrefl _ h4

/-- C127: what the sink received is in its batches, after 1.8 seconds and the period of its ticks. -/
theorem C127_flushed (hc : r.Clock time) {period : Time} (ht : r.SinkTicksIn time period) (n : Nat) : ∃ (m : Nat) (chunks : List (List Span)) (current : List Span), n ≤ m ∧
    time m ≤ time n + 1800000000 + period ∧ Partition (r.state m).sink chunks current ∧ (r.state n).sink.received.flatten <+: chunks.flatten := by
  obtain ⟨m, hm, htm, hcount⟩ := flushed_in hc ht n
  obtain ⟨c0, d0, inv0⟩ := (r.reach n).sentInv
  obtain ⟨c1, d1, inv1, _, _, z, hz⟩ := inv0.later hm
  have hd1 : d1 = [] := List.eq_nil_of_length_eq_zero (by rw [← inv1.sink.count]; exact hcount)
  subst hd1
  refine ⟨m, c1, [], hm, htm, inv1.sink.part, ?_⟩
  have := inv1.sink.part.all
  rw [List.append_nil, ← hz, List.flatten_append] at this
  rw [← this]
  exact List.prefix_append _ _

/-- So many calls are made in so much time. -/
theorem calls_in {limit : Time} (h0 : 0 ≤ limit) (hl : r.SendsIn time limit) {n goal : Nat} (hgoal : ∀ j, n ≤ j → (r.state j).sent.length < goal → (r.state j).sending ≠ none ∨ (r.state j).sink.sink.grouped ≠ []) :
    ∀ (d j : Nat), n ≤ j → goal ≤ (r.state j).sent.length + d → ∃ m, j ≤ m ∧ time m ≤ time j + d * limit ∧ goal ≤ (r.state m).sent.length
  | 0, j, _, h => ⟨j, Nat.le_refl _, by simp, h⟩
  | d + 1, j, hj, h => by
    by_cases hlt : (r.state j).sent.length < goal
    · obtain ⟨m, hm, ht, hs⟩ := hl j (hgoal j hj hlt)
      have h1 := sends_calls (r.reach m) hs
      have h2 : (r.state j).sent.length ≤ (r.state m).sent.length := nat_mono_of_step (f := fun n => (r.state n).sent.length) (sent_mono r) hm
      obtain ⟨m', hm', ht', hg⟩ := calls_in h0 hl hgoal d (m + 1) (by omega) (by omega)
      refine ⟨m', by omega, ?_, hg⟩
      rw [show ((d + 1 : Nat) : Int) * limit = d * limit + limit from by rw [Int.natCast_add, Int.add_mul]; simp]
      tomega
    · have : 0 ≤ ((d + 1 : Nat) : Int) * limit := Int.mul_nonneg (Int.natCast_nonneg _) h0
      exact ⟨j, Nat.le_refl _, by tomega, by omega⟩

/-- C127: every batch that was put into the channel to the sender is sent after nine times the time of a call: up to eight wait in the channel, and one is being sent. -/
theorem C127_sent {limit : Time} (h0 : 0 ≤ limit) (hl : r.SendsIn time limit) {n : Nat} {chunks : List (List Span)} {cur : List Span} (inv : CallsInv (r.state n) chunks cur) :
    ∃ m, n ≤ m ∧ time m ≤ time n + 9 * limit ∧ (acceptedOf chunks (r.state n).sink.log).length ≤ (r.state m).sent.length := by
  have len : ∀ {s : System κ} {c : List (List Span)} {d : List Span}, CallsInv s c d →
      (acceptedOf c s.sink.log).length = s.sent.length + s.sending.toList.length + s.sink.sink.grouped.length := by
    intro s c d inv
    have hlen := congrArg List.length inv.sink.part.sent
    rw [List.length_map, ← acceptedOf_length inv.sink.part.count, List.length_append, inv.calls] at hlen
    exact hlen
  refine calls_in h0 hl (goal := (acceptedOf chunks (r.state n).sink.log).length) (fun j hj hlt => ?_) 9 n (Nat.le_refl _) ?_
  · obtain ⟨c, d, inv', h1, h2, _⟩ := inv.later hj
    have hpre := (acceptedOf_prefix inv.sink.part.count h1 h2).length_le
    have hlen := len inv'
    refine Classical.byContradiction fun hn => ?_
    obtain ⟨e1, e2⟩ := not_or.mp hn
    rw [Classical.not_not.mp e1, Classical.not_not.mp e2] at hlen
    simp only [Option.toList_none, List.length_nil] at hlen
    omega
  · have h1 := inv.sink.queue
    have h2 : (r.state n).sending.toList.length ≤ 1 := by
      cases (r.state n).sending <;> simp
    rw [len inv]
    omega

/-- C127: what the collector finished gets to Datadog in time: all traces finished until now, converted, are soon in batches each of which was given to the transport in a call, or was discarded
because eight others were waiting. None is divided. -/
theorem C127_traces (hc : r.Clock time) {delay period limit : Time} (hd : r.Responsive time delay) (ht : r.SinkTicksIn time period) (h0 : 0 ≤ limit) (hl : r.SendsIn time limit) (n : Nat) :
    ∃ (m : Nat) (chunks : List (List Span)) (current : List Span), n ≤ m ∧ time m ≤ time n + delay + 1800000000 + period + 9 * limit ∧ Partition (r.state m).sink chunks current ∧
    ∀ t ∈ convertTraces conv k (emittedOf (r.state n).world.removed), t ≠ [] → ∃ (i : Nat) (chunk : List Span), chunks[i]? = some chunk ∧ t <:+: chunk ∧
      ((∃ b, (r.state m).sink.log[i]? = some (false, b)) ∨ ∃ call ∈ (r.state m).sent, Call chunk call) := by
  obtain ⟨m0, hm0, ht0, hrec, _⟩ := C127_delivered hd n
  obtain ⟨m1, hm1, ht1, hcount⟩ := flushed_in hc ht m0
  obtain ⟨c0, d0, inv0⟩ := (r.reach m0).sentInv
  obtain ⟨c1, d1, inv1, _, _, hr1⟩ := inv0.later hm1
  have hd1 : d1 = [] := List.eq_nil_of_length_eq_zero (by rw [← inv1.sink.count]; exact hcount)
  subst hd1
  obtain ⟨m, hm, ht2, hle⟩ := C127_sent h0 hl inv1
  obtain ⟨c, d, inv, ⟨x, hx⟩, ⟨y, hy⟩, hr2⟩ := inv1.later hm
  refine ⟨m, c, d, by omega, by tomega, inv.sink.part, fun t htm hne => ?_⟩
  obtain ⟨i, chunk, hi, hch, hin⟩ := whole_in_chunk (count := c1.length) inv.sink.part (ts := convertTraces conv k (emittedOf (r.state n).world.removed)) (by
    rw [← hx, List.take_left]
    obtain ⟨z, hz⟩ := hrec.trans hr1
    have := inv1.sink.part.all
    rw [List.append_nil, ← hz, List.flatten_append] at this
    rw [← this]
    exact List.prefix_append _ _) ((hrec.trans hr1).trans hr2) htm hne
  refine ⟨i, chunk, hch, hin, fate_of_sent (count := c1.length) inv.sink.part inv.fits ?_ hi hch⟩
  rw [← hx, ← hy, List.take_left, inv1.sink.part.count, List.take_left]
  exact hle

/-- C127: the whole way of a trace. A trace to which no span is added any more leaves the collector in time; and if it is finished then soon it is, as a whole, in a batch that was given to
the transport or that was discarded because eight others were waiting. -/
theorem C127_timely (hc : r.Clock time) {period1 period2 delay limit : Time} (ht1 : r.CollectorTicks time period1) (hd : r.Responsive time delay) (ht2 : r.SinkTicksIn time period2)
    (h0 : 0 ≤ limit) (hl : r.SendsIn time limit) {n : Nat} {id : Id} {t : Tree} (hp : (r.state n).world.c.traces[id]? = some t)
    (hlast : ∀ m, n ≤ m → receivedFor id (r.state m).world.received = receivedFor id (r.state n).world.received) :
    ∃ (n1 m : Nat) (fate : Fate) (chunks : List (List Span)) (current : List Span), n ≤ n1 ∧ n1 ≤ m ∧ ⟨id, t, fate⟩ ∈ (r.state n1).world.removed ∧
      time n1 ≤ time n + 8000000000 + period1 ∧ time m ≤ time n + 9800000000 + period1 + delay + period2 + 9 * limit ∧
      Partition (r.state m).sink chunks current ∧
      ∀ out ∈ convertTraces conv k (emittedOf (r.state n1).world.removed), out ≠ [] → ∃ (i : Nat) (chunk : List Span), chunks[i]? = some chunk ∧ out <:+: chunk ∧
        ((∃ b, (r.state m).sink.log[i]? = some (false, b)) ∨ ∃ call ∈ (r.state m).sent, Call chunk call) := by
  obtain ⟨n1, hn1, hb1, hf | hf⟩ := C127_leaves hc ht1 hp
  · obtain ⟨fate, hf⟩ := hf
    obtain ⟨m, chunks, current, hm, hb2, hpart, hall⟩ := C127_traces hc hd ht2 h0 hl n1
    exact ⟨n1, m, fate, chunks, current, hn1, hm, List.mem_of_mem_drop hf, hb1, by tomega, hpart, hall⟩
  · rw [hlast n1 hn1] at hf
    exact absurd hf (Nat.lt_irrefl _)

/-- C127: the whole way of a span. When a request parses, then soon it is answered; at most 40 seconds later all its spans with ids have left the collector, whatever comes meanwhile; and what the
collector finished until then soon is with Datadog, or discarded. -/
theorem C127_request (hc : r.Clock time) {period1 period2 delay limit : Time} (ht1 : r.CollectorTicks time period1) (hd : r.Responsive time delay) (ht2 : r.SinkTicksIn time period2)
    (h0 : 0 ≤ limit) (hl : r.SendsIn time limit) {n i : Nat} {l : List Span} (hp : (r.outcomes n)[i]? = some (.spans l)) :
    ∃ (n1 n2 m : Nat) (chunks : List (List Span)) (current : List Span), n ≤ n1 ∧ n1 ≤ n2 ∧ n2 ≤ m ∧
      time n1 ≤ time n + delay ∧ (r.state n1).http.conns[i]? = some (.answered 202) ∧
      time n2 ≤ time n + delay + 40000000001 + period1 ∧ List.Subperm (l.filter fun s => decide (Traced s)) (r.state n2).world.left ∧
      time m ≤ time n + 2 * delay + 41800000001 + period1 + period2 + 9 * limit ∧ Partition (r.state m).sink chunks current ∧
      ∀ out ∈ convertTraces conv k (emittedOf (r.state n2).world.removed), out ≠ [] → ∃ (i : Nat) (chunk : List Span), chunks[i]? = some chunk ∧ out <:+: chunk ∧
        ((∃ b, (r.state m).sink.log[i]? = some (false, b)) ∨ ∃ call ∈ (r.state m).sent, Call chunk call) := by
  obtain ⟨n1, hn1, hb1, ha, hs⟩ := C127_received hd hp
  obtain ⟨n2, hn2, hb2, hleft⟩ := C127_left hc ht1 n1
  obtain ⟨m, chunks, current, hm, hb3, hpart, hall⟩ := C127_traces hc hd ht2 h0 hl n2
  exact ⟨n1, n2, m, chunks, current, hn1, hn2, hm, hb1, ha, by tomega, hleft l hs, by tomega, hpart, hall⟩

/-! ## There are such executions -/

/-- All readings of the clock are until this time. -/
def System.Until (T : Time) (s : System κ) : Prop := s.world.clock ≤ T ∧ ∀ t ∈ s.sink.times, t ≤ T

/-- If the sink flushes in this step, it reads this time. -/
def System.SinkReads (s : System κ) (T : Time) (s' : System κ) : Prop := s'.sink.times = s.sink.times ∨ s'.sink.times = s.sink.times ++ [T]

/-- If the collector receives a span in this step, it reads this time. -/
def System.CollectReads (s : System κ) (T : Time) (s' : System κ) : Prop := s'.world.received = s.world.received ∨ ∃ x, s'.world = s.world.receive T T x

/-- What the collector and the sink read in this step is this time. -/
structure System.ReadsAt (s : System κ) (T : Time) (s' : System κ) : Prop where
  collect : s.CollectReads T s'
  sink : s.SinkReads T s'
  ticks : s'.sink.log ≠ s.sink.log → s'.sink.received = s.sink.received → ∃ since, since ≤ T ∧ s.sink.sink.due since = true

theorem System.ReadsAt.same {s s' : System κ} {T : Time} (h1 : s'.world.received = s.world.received) (h2 : s'.sink.times = s.sink.times) (h3 : s'.sink.log = s.sink.log) : s.ReadsAt T s' :=
  ⟨.inl h1, .inl h2, fun h => absurd h3 h⟩

/-- Whenever the collector receives a span, or the sink flushes, it reads the time of this step. -/
def System.ReadsNow (s : Nat → System κ) (time : Nat → Time) : Prop := ∀ n, (s n).ReadsAt (time (n + 1)) (s (n + 1))

/-- The time after so many intervals of 50 milliseconds. -/
def intervals (base : Time) (t : Nat) : Time := base + 50000000 * t

/-- A scheduler, with the count of the intervals: work is done at once; then 50 milliseconds pass. The collector has its ticks every 100 milliseconds, and the sink every 2 seconds. -/
inductive System.Timed (conv : κ → Span → Option Span × κ) (base : Time) : System κ × Nat → System κ × Nat → Prop
  | step {s s' : System κ} {t : Nat} : s.Pending → s.Step conv s' → s'.Until (intervals base t) → s.SinkReads (intervals base t) s' → s.ReadsAt (intervals base t) s' → Timed conv base (s, t) (s', t)
  | send {s s' : System κ} {t : Nat} : ¬ s.Pending → s.SenderSends s' → Timed conv base (s, t) (s', t)
  | take {s s' : System κ} {t : Nat} : ¬ s.Pending → s.SenderTakes s' → Timed conv base (s, t) (s', t)
  | tick {s : System κ} {t : Nat} (i : TickInput) : s.Quiet → t % 2 = 0 → s.outbox = [] → i.Valid s.world.c → i.now1 = intervals base (t + 1) → i.now2 = intervals base (t + 1) →
      s.world.clock ≤ i.now1 → Timed conv base (s, t) ({ s with world := s.world.tick i, outbox := emittedOf (s.world.c.tick i).2 }, t + 1)
  | sinkTick {s : System κ} {t : Nat} : s.Quiet → t % 40 = 39 → s.sinkBusy = none →
      Timed conv base (s, t) ({ s with sink := s.sink.tick (intervals base (t + 1)) (intervals base (t + 1)) }, t + 1)
  | pass {s : System κ} {t : Nat} : s.Quiet → t % 2 = 1 → t % 40 ≠ 39 → Timed conv base (s, t) (s, t + 1)

theorem toList_map_const {α β : Type} (o : Option α) (l : List β) (x : β) : l ++ o.toList.map (fun _ => x) = l ∨ l ++ o.toList.map (fun _ => x) = l ++ [x] := by
  cases o with
  | none => exact .inl (List.append_nil _)
  | some _ => exact .inr rfl

theorem sinkRun_reads {w w' : SinkRun} {T : Time} (h : (∃ tr, w' = w.receive tr T) ∨ ∃ since, w' = w.tick since T) : w'.times = w.times ∨ w'.times = w.times ++ [T] := by
  rcases h with ⟨tr, rfl⟩ | ⟨since, rfl⟩
  · exact toList_map_const _ _ _
  · exact toList_map_const _ _ _

/-- A step can be taken without waiting. -/
theorem step_in_time {s s' : System κ} {T : Time} (h : s.Step conv s') (hu : s.Until T) : ∃ s'', s.Step conv s'' ∧ s''.Until T ∧ s.ReadsAt T s'' := by
  cases h with
  | collect now1 now2 a b c d => exact ⟨_, .collect T T a b hu.1 (Int.le_refl _), ⟨Int.le_refl _, hu.2⟩, ⟨.inr ⟨_, rfl⟩, .inl rfl, fun h => absurd rfl h⟩⟩
  | @sinkRead x now hb =>
    refine ⟨_, .sinkRead T hb, ⟨hu.1, fun t ht => ?_⟩, ⟨.inl rfl, sinkRun_reads (.inl ⟨_, rfl⟩), fun _ h => ?_⟩⟩
    rotate_left
    · have := congrArg List.length h
      unfold SinkRun.receive at this
      simp at this
    rcases List.mem_append.mp ht with h | h
    · exact hu.2 t h
    · obtain ⟨_, _, rfl⟩ := List.mem_map.mp h
      exact Int.le_refl _
  | http h => exact ⟨_, .http h, hu, .same rfl rfl rfl⟩
  | emit a b => exact ⟨_, .emit a b, hu, .same rfl rfl rfl⟩
  | forward a => exact ⟨_, .forward a, hu, .same rfl rfl rfl⟩
  | sinkTake a b => exact ⟨_, .sinkTake a b, hu, .same rfl rfl rfl⟩
  | ringTake a b => exact ⟨_, .ringTake a b, hu, .same rfl rfl rfl⟩
  | ringRead a b => exact ⟨_, .ringRead a b, hu, .same rfl rfl rfl⟩

theorem intervals_le (base : Time) {a b : Nat} (h : a ≤ b) : intervals base a ≤ intervals base b := by
  unfold intervals; tomega

theorem timed_exists {o : List Parsed} {base : Time} {p : System κ × Nat} (h : System.Reachable conv k o p.1) (hu : p.1.Until (intervals base p.2)) : ∃ q, System.Timed conv base p q := by
  obtain ⟨s, t⟩ := p
  by_cases hp : s.Pending
  · obtain ⟨s', hs⟩ := C67_progress h hp
    obtain ⟨s'', h1, h2, h3⟩ := step_in_time hs hu
    exact ⟨_, .step hp h1 h2 h3.sink h3⟩
  · cases hb : s.sending with
    | some b => exact ⟨_, .send hp (.mk hb (isRange_refl b))⟩
    | none =>
      cases hg : s.sink.sink.grouped with
      | cons b rest => exact ⟨_, .take hp (.mk (b := b) (k := { s.sink.sink with grouped := rest }) hb (by unfold Sink.takeBatch; rw [hg]))⟩
      | nil =>
        have hq : s.Quiet := ⟨hp, hb, hg⟩
        by_cases h0 : t % 2 = 0
        · obtain ⟨i, hv, h1, h2, _⟩ := exists_valid s.world.c (intervals base (t + 1)) (intervals base (t + 1)) (fun _ => 0) (Int.le_refl _)
          exact ⟨_, .tick i hq h0 (Classical.byContradiction fun ho => hp (.inr (.inr (.inl ho)))) hv h1 h2 (by
            rw [h1]; exact Int.le_trans hu.1 (intervals_le base (Nat.le_succ t)))⟩
        · by_cases h1 : t % 40 = 39
          · exact ⟨_, .sinkTick hq h1 (Classical.byContradiction fun ho => hp (.inr (.inr (.inr (.inr (.inl ho))))))⟩
          · exact ⟨_, .pass hq (by omega) h1⟩

theorem System.Timed.next {o : List Parsed} {base : Time} {p q : System κ × Nat} (h : System.Timed conv base p q) : System.Next conv o p.1 o q.1 := by
  cases h with
  | step _ h _ _ _ => exact .step h
  | send _ h => cases h with | mk hb hr => exact .event (.senderSend hb hr)
  | take _ h => cases h with | mk hb hr => exact .event (.senderTake hb hr)
  | tick i _ _ h1 h2 h3 _ h4 => exact .event (.tick i h1 h2 h4)
  | sinkTick _ _ h => exact .event (.sinkTick _ _ h)
  | pass => exact .stay

theorem System.Timed.until {base : Time} {p q : System κ × Nat} (h : System.Timed conv base p q) (hu : p.1.Until (intervals base p.2)) : q.1.Until (intervals base q.2) := by
  have later : ∀ {s : System κ} {t : Nat}, s.Until (intervals base t) → s.Until (intervals base (t + 1)) := fun h =>
    ⟨Int.le_trans h.1 (intervals_le base (Nat.le_succ _)), fun x hx => Int.le_trans (h.2 x hx) (intervals_le base (Nat.le_succ _))⟩
  cases h with
  | step _ _ h _ _ => exact h
  | send _ h => cases h with | mk hb hr => exact hu
  | take _ h => cases h with | mk hb hr => exact hu
  | tick i _ _ h1 h2 h3 h4 _ => exact ⟨Int.le_of_eq h4, (later hu).2⟩
  | sinkTick _ _ h =>
    refine ⟨(later hu).1, fun t ht => ?_⟩
    rcases List.mem_append.mp ht with h | h
    · exact (later hu).2 t h
    · obtain ⟨_, _, rfl⟩ := List.mem_map.mp h
      exact Int.le_refl _
  | pass => exact later hu

theorem System.Timed.drains {base : Time} {p q : System κ × Nat} (h : System.Timed conv base p q) : System.Drains conv p.1 q.1 := by
  cases h with
  | step h1 h2 _ _ _ => exact .step h1 h2
  | send h1 h2 => exact .send h1 h2
  | take h1 h2 => exact .take h1 h2
  | tick i hq _ _ _ _ => exact .quiet hq
  | sinkTick hq _ _ => exact .quiet hq
  | pass hq _ _ => exact .quiet hq

theorem System.Timed.reachable {o : List Parsed} {base : Time} {p q : System κ × Nat} (h : System.Timed conv base p q) (hp : System.Reachable conv k o p.1) :
    System.Reachable conv k o q.1 := by
  cases h with
  | step _ h _ _ _ => exact .step hp h
  | send _ h => cases h with | mk hb hr => exact .event hp (.senderSend hb hr)
  | take _ h => cases h with | mk hb hr => exact .event hp (.senderTake hb hr)
  | tick i _ _ h1 h2 h3 _ h4 => exact .event hp (.tick i h1 h2 h4)
  | sinkTick _ _ h => exact .event hp (.sinkTick _ _ h)
  | pass => exact hp

theorem counts_all {count : Nat → Nat} (h1 : ∀ n, count n ≤ count (n + 1) ∧ count (n + 1) ≤ count n + 1) (h2 : ∀ n, ∃ m, n ≤ m ∧ count (m + 1) = count m + 1) (c n : Nat) (h : count n ≤ c) :
    ∃ m, n ≤ m ∧ count m = c ∧ count (m + 1) = c + 1 := by
  have mono : ∀ {a b : Nat}, a ≤ b → count a ≤ count b := fun hab => nat_mono_of_step (f := count) (fun n => (h1 n).1) hab
  have big : ∀ d, ∃ m, n ≤ m ∧ d ≤ count m := by
    intro d
    induction d with
    | zero => exact ⟨n, Nat.le_refl _, Nat.zero_le _⟩
    | succ d ih =>
      obtain ⟨m, hm, hd⟩ := ih
      obtain ⟨m', hm', he⟩ := h2 m
      have := mono hm'
      exact ⟨m' + 1, by omega, by omega⟩
  obtain ⟨m, hm, hd⟩ := big (c + 1)
  obtain ⟨j, hj, hq, hn⟩ := ends (Q := fun j => count j ≤ c) hm h (by omega)
  have := h1 j
  exact ⟨j, hj, by omega, by omega⟩

theorem until_exists (s : System κ) : ∃ T, s.Until T := by
  have key : ∀ (l : List Time) (c : Time), ∃ T : Time, c ≤ T ∧ ∀ t ∈ l, t ≤ T := by
    intro l
    induction l with
    | nil => exact fun c => ⟨c, Int.le_refl _, fun t ht => by cases ht⟩
    | cons x l ih =>
      intro c
      obtain ⟨T, h1, h2⟩ := ih (max c x)
      refine ⟨T, Int.le_trans (Int.le_max_left _ _) h1, fun t ht => ?_⟩
      rcases List.mem_cons.mp ht with rfl | h
      · exact Int.le_trans (Int.le_max_right _ _) h1
      · exact h2 t h
  obtain ⟨T, h1, h2⟩ := key s.sink.times s.world.clock
  exact ⟨T, h1, h2⟩

/-- The system can go on without delay from any time on that is not before the readings of its clocks. -/
theorem timed_from {o : List Parsed} {s : System κ} (h : System.Reachable conv k o s) {base : Time} (hbase : s.Until base) :
    ∃ (r : Execution conv k) (time : Nat → Time), r.state 0 = s ∧ (∀ n, r.outcomes n = o) ∧ time 0 = base ∧
    r.Clock time ∧ r.CollectorTicks time 100000000 ∧ r.Responsive time 0 ∧ r.SinkTicksIn time 2000000000 ∧ r.SendsIn time 0 ∧ r.SinkClock time ∧ System.ReadsNow r.state time := by
  have hbase0 : intervals base 0 = base := by unfold intervals; tomega
  have hbase : s.Until (intervals base 0) := by
    rw [hbase0]; exact hbase
  have hstep : ∀ p : { p : System κ × Nat // System.Reachable conv k o p.1 ∧ p.1.Until (intervals base p.2) },
      ∃ q : { p : System κ × Nat // System.Reachable conv k o p.1 ∧ p.1.Until (intervals base p.2) }, System.Timed conv base p.1 q.1 := fun p => by
    obtain ⟨q, hq⟩ := timed_exists p.2.1 p.2.2
    exact ⟨⟨q, hq.reachable p.2.1, hq.until p.2.2⟩, hq⟩
  obtain ⟨g, hg⟩ := Classical.axiomOfChoice hstep
  let f : Nat → { p : System κ × Nat // System.Reachable conv k o p.1 ∧ p.1.Until (intervals base p.2) } := fun n => Nat.rec ⟨(s, 0), h, hbase⟩ (fun _ p => g p) n
  have hf : ∀ n, System.Timed conv base (f n).1 (f (n + 1)).1 := fun n => hg (f n)
  have quiet : ∀ n, ∃ m, n ≤ m ∧ (f m).1.1.Quiet := turns_quiet (f := fun n => (f n).1.1) (fun n => (f n).2.1) fun n => (hf n).drains
  let r : Execution conv k := ⟨fun n => (f n).1.1, fun _ => o, h, fun n => (hf n).next⟩
  have count : ∀ n, (f n).1.2 ≤ (f (n + 1)).1.2 ∧ (f (n + 1)).1.2 ≤ (f n).1.2 + 1 := fun n => by
    have h1 := hf n
    generalize (f n).1 = p at h1
    generalize (f (n + 1)).1 = q at h1
    cases h1 <;> constructor <;> dsimp only <;> omega
  -- when nothing is left, time passes; and only then
  have ticks : ∀ n, ∃ m, n ≤ m ∧ (f (m + 1)).1.2 = (f m).1.2 + 1 := fun n => by
    obtain ⟨m, hm, hq⟩ := quiet n
    refine ⟨m, hm, ?_⟩
    have h1 := hf m
    generalize (f m).1 = p at h1 hq
    generalize (f (m + 1)).1 = q at h1
    cases h1 with
    | step h _ => exact absurd h hq.1
    | send _ h => cases h with | mk hb _ => rw [hq.2.1] at hb; cases hb
    | take _ h => cases h with | mk _ ht => unfold Sink.takeBatch at ht; rw [hq.2.2] at ht; cases ht
    | tick i h _ _ _ _ => rfl
    | sinkTick h _ _ => rfl
    | pass _ _ _ => rfl
  have still : ∀ m, (f (m + 1)).1.2 ≠ (f m).1.2 → (f m).1.1.Quiet := fun m hne => by
    have h1 := hf m
    generalize (f m).1 = p at h1 hne
    generalize (f (m + 1)).1 = q at h1 hne
    cases h1 with
    | tick i h _ _ _ _ => exact h
    | sinkTick h _ _ => exact h
    | pass h _ _ => exact h
    | _ => exact absurd rfl hne
  have at_count := counts_all (count := fun n => (f n).1.2) count ticks
  have hclock : r.Clock fun n => intervals base (f n).1.2 := ⟨fun n => intervals_le base (count n).1, fun n => (f n).2.2.1, fun n => (f n).2.2.2⟩
  have reads : System.ReadsNow (fun n => (f n).1.1) fun n => intervals base (f n).1.2 := fun n => by
    have h1 := hf n
    show (f n).1.1.ReadsAt (intervals base (f (n + 1)).1.2) (f (n + 1)).1.1
    generalize (f n).1 = p at h1
    generalize (f (n + 1)).1 = q at h1
    cases h1 with
    | step _ _ _ _ h => exact h
    | send _ h => cases h with | mk hb hr => exact .same rfl rfl rfl
    | take _ h => cases h with | mk hb hr => exact .same rfl rfl rfl
    | tick => exact .same rfl rfl rfl
    | @sinkTick s t _ _ _ =>
      refine ⟨.inl rfl, sinkRun_reads (.inr ⟨_, rfl⟩), fun hlog _ => ⟨intervals base (t + 1), Int.le_refl _, ?_⟩⟩
      by_cases hd : s.sink.sink.due (intervals base (t + 1)) = true
      · exact hd
      · exfalso
        apply hlog
        show s.sink.log ++ (s.sink.sink.tick (intervals base (t + 1)) (intervals base (t + 1))).2.toList = s.sink.log
        unfold Sink.tick
        unfold Sink.flush
        rw [if_neg fun h => hd h.1]
        exact List.append_nil _
    | pass => exact .same rfl rfl rfl
  refine ⟨r, fun n => intervals base (f n).1.2, rfl, fun _ => rfl, hbase0, hclock, fun T hT => ?_, fun n => ?_, fun T hT => ?_, fun n hs => ?_, ⟨fun n => (reads n).sink, fun n => (reads n).ticks⟩, reads⟩
  · have hT : intervals base 0 ≤ T := hT
    obtain ⟨c, hc, hc1, hc2⟩ : ∃ c : Nat, c % 2 = 0 ∧ T ≤ intervals base (c + 1) ∧ intervals base (c + 1) ≤ T + 100000000 := by
      unfold intervals at hT ⊢
      by_cases hx : (T - base) % 100000000 ≤ 50000000
      · exact ⟨2 * ((T - base) / 100000000).toNat, by omega, by tomega, by tomega⟩
      · exact ⟨2 * ((T - base) / 100000000).toNat + 2, by omega, by tomega, by tomega⟩
    obtain ⟨m, _, h1, h2⟩ := at_count c 0 (Nat.zero_le _)
    have hm := hf m
    refine ⟨m, ?_⟩
    show ∃ i : TickInput, T ≤ i.now1 ∧ intervals base (f (m + 1)).1.2 ≤ T + 100000000 ∧ i.Valid (f m).1.1.world.c ∧
      (f (m + 1)).1.1 = { (f m).1.1 with world := (f m).1.1.world.tick i, outbox := emittedOf ((f m).1.1.world.c.tick i).2 } ∧ (f m).1.1.world.clock ≤ i.now1
    rw [h2]
    generalize (f m).1 = p at hm h1
    generalize (f (m + 1)).1 = q at hm h2
    cases hm with
    | tick i _ _ _ hv hn _ hk =>
      dsimp only at h1
      subst h1
      exact ⟨i, by rw [hn]; exact hc1, hc2, hv, rfl, hk⟩
    | sinkTick _ ho _ => dsimp only at h1; omega
    | pass _ ho _ => dsimp only at h1; omega
    | _ => dsimp only at h1 h2; omega
  · obtain ⟨m, hm, h1, h2⟩ := at_count (f n).1.2 n (Nat.le_refl _)
    refine ⟨m, hm, ?_, (still m (by omega)).1⟩
    show intervals base (f m).1.2 ≤ intervals base (f n).1.2 + 0
    rw [h1]; exact Int.le_of_eq (Int.add_zero _).symm
  · have hT : intervals base 0 ≤ T := hT
    obtain ⟨c, hc, hc1, hc2⟩ : ∃ c : Nat, c % 40 = 39 ∧ T ≤ intervals base (c + 1) ∧ intervals base (c + 1) ≤ T + 2000000000 := by
      unfold intervals at hT ⊢
      exact ⟨40 * ((T - base) / 2000000000).toNat + 39, by omega, by tomega, by tomega⟩
    obtain ⟨m, _, h1, h2⟩ := at_count c 0 (Nat.zero_le _)
    have hm := hf m
    refine ⟨m, intervals base (c + 1), intervals base (c + 1), hc1, ?_⟩
    show intervals base (c + 1) ≤ intervals base (f (m + 1)).1.2 ∧ intervals base (f (m + 1)).1.2 ≤ T + 2000000000 ∧
      (f (m + 1)).1.1 = { (f m).1.1 with sink := (f m).1.1.sink.tick (intervals base (c + 1)) (intervals base (c + 1)) }
    rw [h2]
    generalize (f m).1 = p at hm h1
    generalize (f (m + 1)).1 = q at hm h2
    cases hm with
    | sinkTick _ _ h =>
      dsimp only at h1
      subst h1
      exact ⟨Int.le_refl _, hc2, rfl⟩
    | tick i _ ho _ _ _ _ _ => dsimp only at h1; omega
    | pass _ _ ho => dsimp only at h1; omega
    | _ => dsimp only at h1 h2; omega
  · obtain ⟨m, hm, h1, h2⟩ := at_count (f n).1.2 n (Nat.le_refl _)
    have hq : (r.state m).Quiet := still m (by omega)
    obtain ⟨c, d, inv⟩ := (r.reach n).sentInv
    obtain ⟨c', d', inv', p1, p2, _⟩ := inv.later hm
    have len : ∀ {s : System κ} {c : List (List Span)} {d : List Span}, CallsInv s c d →
        (acceptedOf c s.sink.log).length = s.sent.length + s.sending.toList.length + s.sink.sink.grouped.length := by
      intro s c d inv
      have hlen := congrArg List.length inv.sink.part.sent
      rw [List.length_map, ← acceptedOf_length inv.sink.part.count, List.length_append, inv.calls] at hlen
      exact hlen
    have l1 := len inv
    have l2 := len inv'
    have l3 := (acceptedOf_prefix inv.sink.part.count p1 p2).length_le
    rw [hq.2.1, hq.2.2] at l2
    simp only [Option.toList_none, List.length_nil, Nat.add_zero] at l2
    have l4 : 0 < (r.state n).sending.toList.length + (r.state n).sink.sink.grouped.length := by
      rcases hs with hs | hs
      · cases hx : (r.state n).sending with
        | none => exact absurd hx hs
        | some b => simp
      · have := List.length_pos_iff.mpr hs
        omega
    obtain ⟨j, hj, hq1, hn1⟩ := ends (Q := fun j => (r.state j).sent.length ≤ (r.state n).sent.length) hm (Nat.le_refl _) (by omega)
    have hjm : j < m := Classical.byContradiction fun e => by
      have : (r.state m).sent.length ≤ (r.state j).sent.length := nat_mono_of_step (f := fun n => (r.state n).sent.length) (sent_mono r) (show m ≤ j by omega)
      omega
    refine ⟨j, hj, ?_, ?_⟩
    · have := hclock.le (show j + 1 ≤ m from hjm)
      have e : intervals base (f m).1.2 = intervals base (f n).1.2 := by rw [h1]
      show intervals base (f (j + 1)).1.2 ≤ intervals base (f n).1.2 + 0
      rw [← e]
      exact Int.le_trans this (Int.le_of_eq (Int.add_zero _).symm)
    · rcases sender_moves (r.next j) with h | h | h
      · exfalso
        generalize r.state (j + 1) = s' at h hn1
        cases h
        exact hn1 hq1
      · exact h
      · rw [h.2.1] at hn1
        exact absurd hq1 hn1
/-- From every state that any schedule leads to, the system can go on without delay, with ticks of the collector every 100 milliseconds and ticks of the sink every 2 seconds; the sink reads
the same clock. -/
theorem timed_execution {o : List Parsed} {s : System κ} (h : System.Reachable conv k o s) : ∃ (r : Execution conv k) (time : Nat → Time), r.state 0 = s ∧ (∀ n, r.outcomes n = o) ∧
    r.Clock time ∧ r.CollectorTicks time 100000000 ∧ r.Responsive time 0 ∧ r.SinkTicksIn time 2000000000 ∧ r.SendsIn time 0 ∧ r.SinkClock time ∧ System.ReadsNow r.state time := by
  obtain ⟨base, hbase⟩ := until_exists s
  obtain ⟨r, time, h1, h2, _, h3⟩ := timed_from h hbase
  exact ⟨r, time, h1, h2, h3⟩

/-- C127: from every state that any schedule leads to, the system can go on without delay, with ticks of the collector every 100 milliseconds and ticks of the sink every 2 seconds. -/
theorem C127_exists {o : List Parsed} {s : System κ} (h : System.Reachable conv k o s) : ∃ (r : Execution conv k) (time : Nat → Time), r.state 0 = s ∧ (∀ n, r.outcomes n = o) ∧
    r.Clock time ∧ r.CollectorTicks time 100000000 ∧ r.Responsive time 0 ∧ r.SinkTicksIn time 2000000000 ∧ r.SendsIn time 0 := by
  obtain ⟨r, time, h1, h2, h3, h4, h5, h6, h7, _⟩ := timed_execution h
  exact ⟨r, time, h1, h2, h3, h4, h5, h6, h7⟩

/-- With one request only, the collector receives a prefix of its spans. -/
theorem received_of_one {l : List Span} (hout : ∀ m, r.outcomes m = [.spans l]) (m : Nat) : (r.state m).world.received <+: l := by
  obtain ⟨log, _, _, _, inv⟩ := (r.reach m).inv
  have h := C33_all_or_nothing inv.http
  rw [hout m] at h
  obtain ⟨a1, a2, a3, a4⟩ := h
  have hlog : log.map (·.2) = pushedBy 0 log := by
    unfold pushedBy
    rw [List.filter_eq_self.mpr]
    intro e he
    have := a3 e he
    simp only [List.length_singleton] at this
    exact decide_eq_true (by omega)
  obtain ⟨c, hc⟩ : ∃ c, (r.state m).http.conns[0]? = some c := ⟨_, List.getElem?_eq_getElem (by rw [a1]; exact Nat.zero_lt_one)⟩
  have h0 := a2 0 _ c rfl hc
  have hp : pushedBy 0 log <+: l := by
    generalize pushedBy 0 log = p at h0
    generalize hx : Parsed.spans l = x at h0
    cases h0 with
    | pushing => rw [Parsed.spans.inj hx]; exact List.prefix_append _ _
    | accepted => cases hx; exact List.prefix_rfl
    | _ => cases hx
  rw [← hlog, a4] at hp
  exact (List.prefix_append _ _).trans hp

/-- C127: a proxy that has received a trace with one span, and then nothing more. -/
theorem C127_witness : ∃ (r : Execution plainConverter ()) (time : Nat → Time) (t : Tree), r.Clock time ∧ r.CollectorTicks time 100000000 ∧ r.Responsive time 0 ∧ r.SinkTicksIn time 2000000000 ∧
    r.SendsIn time 0 ∧ (r.state 0).world.c.traces[(9 : Id)]? = some t ∧ t.members = [oneSpan] ∧
    ∀ m, 0 ≤ m → receivedFor 9 (r.state m).world.received = receivedFor 9 (r.state 0).world.received := by
  let s2 : System Unit := { System.init () 0 with http := { conns := [.pushing []], channel := [oneSpan] } }
  have h2 : System.Reachable plainConverter () [.spans [oneSpan]] s2 :=
    .step (.request (.spans [oneSpan]) (.init (k := ()) 0)) (.http (.push (i := 0) (s := oneSpan) (rest := []) _ rfl (by decide)))
  let s3 : System Unit := { s2 with http := { s2.http with channel := [] }, world := s2.world.receive 0 0 oneSpan }
  have st3 : s2.Step plainConverter s3 := .collect 0 0 rfl rfl (Int.le_refl _) (Int.le_refl _)
  have h3 : System.Reachable plainConverter () [.spans [oneSpan]] s3 := .step h2 st3
  obtain ⟨r, time, e, hout, c1, c2, c3, c4, c5⟩ := C127_exists h3
  have ht : (r.state 0).world.c.traces[(9 : Id)]? = some ((newTree 0 9).addSpan 0 oneSpan) := by
    rw [e]
    show ((∅ : Std.ExtTreeMap Id Tree).insert oneSpan.trace _)[(9 : Id)]? = _
    rw [get_insert, if_pos (show oneSpan.trace = 9 from rfl)]
    rfl
  refine ⟨r, time, _, c1, c2, c3, c4, c5, ht, rfl, fun m _ => ?_⟩
  have hr : (r.state 0).world.received = [oneSpan] := by rw [e]; rfl
  have h1 := (flow r (Nat.zero_le m)).2
  have h2 := received_of_one hout m
  rw [hr] at h1 ⊢
  rw [List.IsPrefix.eq_of_length h1 (Nat.le_antisymm h1.length_le h2.length_le)]

/-- Within 11.9 seconds after that, it was given to the transport or discarded. -/
theorem C127_example : ∃ (r : Execution plainConverter ()) (time : Nat → Time) (t : Tree) (n1 m : Nat) (fate : Fate) (chunks : List (List Span)) (current : List Span),
    (r.state 0).world.c.traces[(9 : Id)]? = some t ∧ ⟨9, t, fate⟩ ∈ (r.state n1).world.removed ∧ time n1 ≤ time 0 + 8100000000 ∧ time m ≤ time 0 + 11900000000 ∧
    Partition (r.state m).sink chunks current ∧
    ∀ out ∈ convertTraces plainConverter () (emittedOf (r.state n1).world.removed), out ≠ [] → ∃ (i : Nat) (chunk : List Span), chunks[i]? = some chunk ∧ out <:+: chunk ∧
      ((∃ b, (r.state m).sink.log[i]? = some (false, b)) ∨ ∃ call ∈ (r.state m).sent, Call chunk call) := by
  obtain ⟨r, time, t, c1, c2, c3, c4, c5, ht, _, hlast⟩ := C127_witness
  obtain ⟨n1, m, fate, chunks, current, _, _, h1, h2, h3, h4, h5⟩ := C127_timely c1 c2 c3 c4 (Int.le_refl 0) c5 ht hlast
  exact ⟨r, time, t, n1, m, fate, chunks, current, ht, h1, by tomega, by tomega, h4, h5⟩

end Verif
