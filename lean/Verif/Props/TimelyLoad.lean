import Verif.Props.TimelyPieces
import Verif.Spec.TimelyLoad

/-!
# Under which load a trace that is posted in pieces is with Datadog, in one, in time: C149
-/

namespace Verif

open Spec

local macro "tomega" : tactic => `(tactic| (dsimp only [Time] at *; omega))

section
variable {κ : Type} {conv : κ → Span → Option Span × κ} {k : κ} {r : Execution conv k} {time : Nat → Time}

/-! ## How many spans wait in the collector -/

theorem counted_members {w : World} (h : WInv w) : counted w.c.traces.toList ≤ (pendingMembers w.c).length := by
  have key : ∀ l : List (Id × Tree), (∀ e ∈ l, w.c.traces[e.1]? = some e.2) → counted l ≤ (l.flatMap fun e => e.2.members).length := by
    intro l hl
    induction l with
    | nil => exact Nat.le_refl _
    | cons e l ih =>
      have ih := ih fun x hx => hl x (List.mem_cons_of_mem _ hx)
      have hsz : size e.2 ≤ e.2.members.length := Nat.le_trans (Nat.mod_le _ _) (tree_le_members (h.trees e.1 e.2 (hl e List.mem_cons_self)).inv)
      rw [List.flatMap_cons, List.length_append]
      have hc : counted (e :: l) ≤ size e.2 + counted l := by
        unfold counted
        rw [List.filter_cons]
        split
        · rw [List.map_cons, List.sum_cons]
        · exact Nat.le_add_left _ _
      omega
  exact key w.c.traces.toList fun e he => (mem_range (isRange_refl _)).mp he

/-- If all that was received has left the collector after some time, then what waits was received since then. -/
theorem waiting_in (hc : r.Clock time) {stay : Time} (hstay : 0 ≤ stay)
    (hleave : ∀ n, ∃ m, n ≤ m ∧ time m ≤ time n + stay ∧ List.Subperm ((r.state n).world.received.filter fun s => decide (Traced s)) (r.state m).world.left)
    (h0 : (r.state 0).world.received = []) (m : Nat) :
    ∃ j, j ≤ m ∧ time (m + 1) ≤ time (j + 1) + stay ∧ counted (r.state (m + 1)).world.c.traces.toList ≤ r.collected (m + 1) - r.collected j := by
  have bound : ∀ {a b c : Nat}, a ≤ b → b ≤ c → List.Subperm ((r.state a).world.received.filter fun s => decide (Traced s)) (r.state b).world.left →
      counted (r.state c).world.c.traces.toList ≤ r.collected c - r.collected a := fun {a b c} hab hbc hleft => by
    have h1 := counted_members (reachable_inv (r.world c))
    obtain ⟨l, hl⟩ := removed_prefix r hbc
    have hb := hleft.length_le
    unfold World.left at hb
    have hc := (reachable_inv (r.world c)).conserved.length_eq
    rw [List.length_append, List.length_append, ← hl, List.flatMap_append, List.length_append] at hc
    rw [List.length_append] at hb
    have href : (r.state b).world.refused.length ≤ (r.state c).world.refused.length := nat_mono_of_step (f := fun n => (r.state n).world.refused.length) (fun n => refused_step (r.next n)) hbc
    obtain ⟨y, hy⟩ := (flow r (show a ≤ c by omega)).2
    have hrec : ((r.state c).world.received.filter fun s => decide (Traced s)).length ≤ ((r.state a).world.received.filter fun s => decide (Traced s)).length + (r.collected c - r.collected a) := by
      unfold Execution.collected
      rw [← hy, List.filter_append, List.length_append, List.length_append]
      have : (y.filter fun s => decide (Traced s)).length ≤ y.length := (List.length_filter_le _ _)
      omega
    omega
  by_cases hq : time 0 + stay < time (m + 1)
  · obtain ⟨j, hj, hqj, hlast⟩ := last_before (Q := fun j => time j + stay < time (m + 1)) (m := m) hq
    obtain ⟨b, hb, htb, hleft⟩ := hleave j
    have hbm : b < m + 1 := Classical.byContradiction fun h => by
      have := hc.le (show m + 1 ≤ b by omega)
      tomega
    refine ⟨j, hj, ?_, bound hb (by omega) hleft⟩
    rcases Nat.lt_or_eq_of_le hj with h | rfl
    · have := hlast (j + 1) (by omega) h
      tomega
    · tomega
  · refine ⟨0, Nat.zero_le _, ?_, bound (Nat.le_refl 0) (Nat.zero_le (m + 1)) (by rw [h0]; exact List.nil_subperm)⟩
    have := hc.mono 0
    tomega

/-- The period of the ticks is not negative. -/
theorem period_pos (hc : r.Clock time) {period : Time} (ht : r.CollectorTicks time period) : 0 ≤ period := by
  obtain ⟨q, i, h1, h2, hv, hs, _⟩ := ht (time 0) (Int.le_refl _)
  have h3 := hc.collector (q + 1)
  rw [hs] at h3
  have h3 : i.now2 ≤ time (q + 1) := h3
  have := hv.clock
  tomega

/-- C149: what waits in the collector was received in the last 40 seconds and the period of its ticks. -/
theorem C149_waiting (hc : r.Clock time) {period : Time} (ht : r.CollectorTicks time period) (h0 : (r.state 0).world.received = []) (m : Nat) :
    ∃ j, j ≤ m ∧ time (m + 1) ≤ time (j + 1) + 40000000001 + period ∧ counted (r.state (m + 1)).world.c.traces.toList ≤ r.collected (m + 1) - r.collected j := by
  have hp := period_pos hc ht
  obtain ⟨j, h1, h2, h3⟩ := waiting_in hc (stay := 40000000001 + period) (by tomega) (fun n => by
    obtain ⟨m, g1, g2, g3⟩ := C127_left hc ht n
    exact ⟨m, g1, by tomega, g3 _ (List.Sublist.refl _)⟩) h0 m
  exact ⟨j, h1, by tomega, h3⟩

/-- C149: so under a bounded load not too many spans wait. -/
theorem C149_calm (hc : r.Clock time) {period every rest : Time} {burst : Nat} (ht : r.CollectorTicks time period) (h0 : (r.state 0).world.received = []) (hr : 0 ≤ rest) (hev : 0 < every)
    (hf : AtMost r.collected time burst (40000000001 + period + rest) every) (m : Nat) : counted (r.state m).world.c.traces.toList ≤ burst := by
  cases m with
  | zero =>
    have := counted_le (reachable_inv (r.world 0))
    rw [h0] at this
    exact Nat.le_trans this (Nat.zero_le _)
  | succ m =>
    obtain ⟨j, hj, h1, h2⟩ := C149_waiting hc ht h0 m
    have h3 : r.collected (m + 1) ≤ r.collected j + burst := by
      rcases hf j m hj with h | h
      · exact h
      · refine Classical.byContradiction fun hn => ?_
        have : 0 < every * ((r.collected (m + 1) : Int) - r.collected j - burst) := Int.mul_pos hev (by omega)
        tomega
    omega

/-! ## What is posted and what the collector receives -/

theorem received_of_accepted (n : Nat) : List.Subperm (r.state n).world.received (acceptedSpans (r.outcomes n)) := by
  obtain ⟨log, _, _, _, inv⟩ := (r.reach n).inv
  have h1 := http_log inv.http
  rw [(C33_all_or_nothing inv.http).2.2.2] at h1
  exact (List.sublist_append_left _ _).subperm.trans h1

theorem collected_le (n : Nat) : r.collected n ≤ r.accepted n := (received_of_accepted n).length_le

theorem accepted_idle {n : Nat} (h : ¬ (r.state n).Pending) : r.accepted n ≤ r.collected n := by
  obtain ⟨log, _, _, _, inv⟩ := (r.reach n).inv
  unfold System.Pending at h
  simp only [not_or, Classical.not_not, ne_eq] at h
  obtain ⟨hconns, hchan, _⟩ := h
  have h1 := http_done inv.http fun c hc => ⟨fun e => hconns ⟨c, hc, .inl e⟩, fun l e => hconns ⟨c, hc, .inr ⟨l, e⟩⟩⟩
  have h2 := (C33_all_or_nothing inv.http).2.2.2
  rw [hchan, List.append_nil] at h2
  rw [h2] at h1
  exact Nat.le_of_eq h1.length_eq

/-- C149: a bound on what is posted is one on what the collector receives, in a period that is shorter by the delay. -/
theorem C149_arrivals (hc : r.Clock time) {delay every period : Time} {burst : Nat} (hd : r.Responsive time delay) (hev : 0 < every) (h0 : r.outcomes 0 = [])
    (hf : AtMost r.accepted time burst (period + delay) every) : AtMost r.collected time burst period every := by
  have hm : ∀ n m, n ≤ m → r.collected n ≤ r.collected m := fun n m h => by
    obtain ⟨y, hy⟩ := (flow r h).2
    unfold Execution.collected
    rw [← hy, List.length_append]
    omega
  intro n m hnm
  obtain ⟨q, hq, h1, h2⟩ : ∃ q, q ≤ n ∧ r.accepted q ≤ r.collected n ∧ time (n + 1) ≤ time (q + 1) + delay := by
    obtain ⟨q, hq, hQ, hlast⟩ := last_before (Q := fun q => q = 0 ∨ ¬ (r.state q).Pending) (m := n) (.inl rfl)
    refine ⟨q, hq, ?_, ?_⟩
    · rcases hQ with rfl | h
      · unfold Execution.accepted
        rw [h0]
        exact Nat.zero_le _
      · exact Nat.le_trans (accepted_idle h) (hm q n hq)
    · obtain ⟨q', g1, g2, g3⟩ := hd (q + 1)
      have : n < q' := Classical.byContradiction fun h => hlast q' (by omega) (by omega) (.inr g3)
      have := hc.le (show n + 1 ≤ q' by omega)
      tomega
  have h3 := collected_le (r := r) (m + 1)
  rcases hf q m (by omega) with h | h
  · exact .inl (by omega)
  · right
    have h4 : every * ((r.collected (m + 1) : Int) - r.collected n - burst) ≤ every * ((r.accepted (m + 1) : Int) - r.accepted q - burst) := Int.mul_le_mul_of_nonneg_left (by omega) (Int.le_of_lt hev)
    tomega

theorem received_none (h : r.outcomes 0 = []) : (r.state 0).world.received = [] := by
  have := collected_le (r := r) 0
  unfold Execution.accepted at this
  rw [h] at this
  exact List.eq_nil_of_length_eq_zero (Nat.le_zero.mp this)

end

/-! ## One proxy -/

section
variable {r : Execution plainConverter ()} {time : Nat → Time}

theorem none_in_discarded {s : System Unit} (h : s.NoneDiscarded) {spans : List Span} : ¬ InDiscarded s spans := by
  rintro ⟨chunks, current, i, chunk, b, _, _, hb, _⟩
  have := h _ (List.mem_of_getElem? hb)
  cases this

/-- C149: one proxy without Kafka to which at most 4000 spans are posted in 40 seconds and the delays, and in longer periods one more for each `every`, where the transport is fast enough for such a
stream. The spans of a healthy trace, posted in any pieces within 2 seconds less the delay and the period of the ticks, are given to the transport in one call as one trace, in 9.8 seconds and the delays
after the last piece was posted. -/
theorem C149_posted (hc : r.Clock time) (hk : r.SinkClock time) (hcc : r.CollectorClock time) {period1 period2 delay limit every : Time} (ht1 : r.CollectorTicks time period1) (hd : r.Responsive time delay)
    (ht2 : r.SinkTicksIn time period2) (h0 : 0 ≤ limit) (hl : r.SendsIn time limit)
    -- the load
    (hstart : r.outcomes 0 = []) (hev : 0 < every) (hle : limit * (5400000000 + 2000 * every) < 3600000000000 * every)
    (hf : AtMost r.accepted time 4000 (40000000001 + period1 + delay + delay) every)
    -- the trace
    {k : Id} {l : List Span} (hh : Healthy k l)
    (hposted : ∀ m, List.Subperm (spansOfTrace k (acceptedSpans (r.outcomes m))) l) {n0 n1 : Nat} (hn : n0 ≤ n1)
    (hnone : spansOfTrace k (acceptedSpans (r.outcomes n0)) = []) (hall : l.length ≤ (spansOfTrace k (acceptedSpans (r.outcomes n1))).length)
    (hquick : time n1 + delay + period1 < time n0 + 2000000000) :
    ∃ spans, (spans.map Span.withTags).Perm (l.map Span.withTags) ∧
      (∃ m, n1 ≤ m ∧ time m ≤ time n1 + 2 * delay + 9800000000 + period1 + period2 + 9 * limit ∧ OneCall (r.state m) spans) ∧
      ∀ m, List.Subperm ((r.state m).sent.flatten.flatten.filter fun d => d.traceID = k.toUInt64) (spans.map toDatadog) := by
  have hdelay : 0 ≤ delay := by
    obtain ⟨q, h1, h2, _⟩ := hd 0
    have := hc.le h1
    tomega
  have hf' := C149_arrivals hc hd hev hstart hf
  have hrec := received_none hstart
  obtain ⟨spans, s1, ⟨m, hm, hmt, hfate⟩, s3⟩ := C148_posted hc hcc ht1 hd ht2 h0 hl hh hposted hn hnone hall hquick
    fun m _ _ => Nat.le_trans (C149_calm hc ht1 hrec hdelay hev hf' m) (by decide)
  exact ⟨spans, s1, ⟨m, hm, hmt, hfate.resolve_right (none_in_discarded (C129_load hc hk ht1 hd h0 hev hle hl hrec hf' m))⟩, s3⟩

end

/-! ## Several proxies -/

section
variable {part : List UInt8 → Nat} {assignment : List (List Nat)} {r : ClusterExecution plainConverter () part assignment} {time : Nat → Time} {d : Delays}

/-- C149: the spans of a healthy trace, posted in any pieces to any proxies, within 2 seconds less the delays on the way. If the collector of the one proxy to which its partition is assigned gets at
most 4000 spans in 40 seconds and the delays, and in longer periods one more for each `every`, where the transport is fast enough for such a stream, then this proxy gives them to the transport in one
call as one trace, in 9.8 seconds and the delays after the last piece was posted; no other call of any proxy ever has anything of it. -/
theorem C149_pieces (h : r.InTime time d) (hcc : ∀ i s, r.Proxy i s → System.CollectorClockSeq (fun n => (s n).back) time ∧ System.SinkClockSeq (fun n => (s n).back) time) (hclosed : r.Closed)
    (hnd : assignment.flatten.Nodup)
    -- the trace, and the proxy to which its partition is assigned
    {k : Id} {l : List Span} (hh : Healthy k l) {i0 : Nat} {s : Nat → Instance Unit} (hi : r.Proxy i0 s) {ps : List Nat} (hps : assignment[i0]? = some ps) (hp : partitionOf part k ∈ ps)
    -- the load on that proxy
    {every : Time} (hev : 0 < every) (hle : d.call * (5400000000 + 2000 * every) < 3600000000000 * every)
    (hf : AtMost (fun n => (s n).back.world.received.length) time 4000 (40000000001 + d.collector + d.work) every)
    -- what is ever posted of this trace, to all proxies, are these spans; all of them are posted between these states
    (hposted : ∀ m, List.Subperm (r.posted k m) l) {n0 n1 : Nat} (hn : n0 ≤ n1) (hnone : r.posted k n0 = []) (hall : l.length ≤ (r.posted k n1).length)
    -- in a short time
    (hquick : time n1 + d.write + d.read + d.work + d.collector < time n0 + 2000000000) :
    (∃ spans, (spans.map Span.withTags).Perm (l.map Span.withTags) ∧
      (∃ m, n1 ≤ m ∧ time m ≤ time n1 + d.write + d.read + 2 * d.work + 9800000000 + d.collector + d.sink + 9 * d.call ∧ OneCall (s m).back spans) ∧
      ∀ m, List.Subperm ((s m).back.sent.flatten.flatten.filter fun d => d.traceID = k.toUInt64) (spans.map toDatadog)) ∧
    ∀ j sj, r.Proxy j sj → j ≠ i0 → ∀ m, ((sj m).back.sent.flatten.flatten.filter fun d => d.traceID = k.toUInt64) = [] := by
  obtain ⟨b, calls, log, hb, _, hc, ht1, hd, ht2, hl⟩ := h.back (List.pairwise_flatten.mp hnd).1 hi hps
  obtain ⟨_, hsc⟩ := hcc i0 s hi
  have hk : b.SinkClock time := ⟨fun n => by rw [hb, hb]; exact hsc.reads n, fun n => by rw [hb, hb]; exact hsc.ticks n⟩
  have hrec : (b.state 0).world.received = [] := by
    obtain ⟨t, ht⟩ := r.start
    have := hi 0
    rw [ht] at this
    rw [hb]
    unfold Cluster.assigned at this
    dsimp only at this
    rw [List.getElem?_map] at this
    obtain ⟨_, _, e⟩ := Option.map_eq_some_iff.mp this
    rw [← e]
    rfl
  have hf' : AtMost b.collected time 4000 (40000000001 + d.collector + d.work) every := by
    have : b.collected = fun n => (s n).back.world.received.length := funext fun n => by unfold Execution.collected; rw [hb]
    rw [this]
    exact hf
  have hdelay : 0 ≤ d.work := by
    obtain ⟨q, h1, h2, _⟩ := hd 0
    have := hc.le h1
    tomega
  obtain ⟨⟨spans, s1, ⟨m, hm, hmt, hfate⟩, s3⟩, hother⟩ := C148_pieces h (fun i s hs => (hcc i s hs).1) hclosed hnd hh hi hps hp hposted hn hnone hall hquick fun m _ _ => by
    have := C149_calm hc ht1 hrec hdelay hev hf' m
    rw [hb] at this
    exact Nat.le_trans this (by decide)
  refine ⟨⟨spans, s1, ⟨m, hm, hmt, hfate.resolve_right (none_in_discarded ?_)⟩, s3⟩, hother⟩
  have := C129_load hc hk ht1 hd h.calls hev hle hl hrec hf' m
  rw [hb] at this
  exact this

end

/-! ## Executions in which this happens -/

/-- Two proxies. The two spans are posted to different proxies; 11.9 seconds later the second one has given them to the transport, in one call. -/
theorem C149_witness : ∃ (r : ClusterExecution plainConverter () (fun _ => 0) [[1], [0]]) (time : Nat → Time) (s : Nat → Instance Unit) (n : Nat),
    r.InTime time atOnce ∧ (∀ i s, r.Proxy i s → System.CollectorClockSeq (fun n => (s n).back) time ∧ System.SinkClockSeq (fun n => (s n).back) time) ∧ r.Closed ∧ r.Proxy 1 s ∧
    AtMost (fun n => (s n).back.world.received.length) time 4000 (40000000001 + atOnce.collector + atOnce.work) 166000 ∧
    (∀ m, List.Subperm (r.posted 9 m) [rootPiece, childPiece]) ∧ r.posted 9 0 = [] ∧ 2 ≤ (r.posted 9 n).length ∧ r.requests n 0 = [.spans [rootPiece]] ∧ r.requests n 1 = [.spans [childPiece]] ∧
    time n + atOnce.write + atOnce.read + atOnce.work + atOnce.collector < time 0 + 2000000000 ∧
    ∃ spans m, (spans.map Span.withTags).Perm [rootPiece.withTags, childPiece.withTags] ∧ time m ≤ time 0 + 11900000000 ∧ OneCall (s m).back spans := by
  have hnd : ([[1], [0]] : List (List Nat)).flatten.Nodup := by decide
  obtain ⟨r, time, s, n, h1, hcc, hclosed, hs, hposted, hnone, hall, e0, e1, h2, hrec⟩ := pieces_execution
  have hf : AtMost (fun n => (s n).back.world.received.length) time 4000 (40000000001 + atOnce.collector + atOnce.work) 166000 := fun n m _ => .inl (by have := hrec (m + 1); dsimp only; omega)
  have hq : time n + atOnce.write + atOnce.read + atOnce.work + atOnce.collector < time 0 + 2000000000 := by
    rw [h2]
    dsimp only [atOnce]
    tomega
  obtain ⟨⟨spans, s1, ⟨m, _, hm, hfate⟩, _⟩, _⟩ := C149_pieces h1 hcc hclosed hnd pieces_healthy hs (ps := [0]) rfl (by simp [partitionOf]) (by decide) (by decide) hf hposted (Nat.zero_le n) hnone hall hq
  refine ⟨r, time, s, n, h1, hcc, hclosed, hs, hf, hposted, hnone, hall, e0, e1, hq, spans, m, s1, ?_, hfate⟩
  rw [h2] at hm
  dsimp only [atOnce] at hm
  tomega

section
variable {κ : Type} {conv : κ → Span → Option Span × κ} {k : κ}

/-- Everybody is in time, without any delay. -/
structure Execution.AtOnce (r : Execution conv k) (time : Nat → Time) : Prop where
  clock : r.Clock time
  ticks : r.CollectorTicks time 100000000
  works : r.Responsive time 0
  sinkTicks : r.SinkTicksIn time 2000000000
  sends : r.SendsIn time 0
  sinkClock : r.SinkClock time
  collectorClock : r.CollectorClock time

/-- A request before everything else. -/
theorem atOnce_request {o : List Parsed} {s : System κ} (x : Parsed) (h : System.Reachable conv k o s) {r : Execution conv k} {time : Nat → Time} (hr : r.AtOnce time) (ho : r.outcomes 0 = o ++ [x])
    (hs : r.state 0 = { s with http := { s.http with conns := s.http.conns ++ [Conn.start x] } }) :
    ∃ (r' : Execution conv k) (time' : Nat → Time), r'.AtOnce time' ∧ r'.outcomes 0 = o ∧ r'.state 0 = s ∧ time' 0 = time 0 ∧ ∀ n, r'.outcomes (n + 1) = r.outcomes n ∧ time' (n + 1) = time n := by
  have hn : System.Next conv o s (r.outcomes 0) (r.state 0) := by rw [ho, hs]; exact .request x
  refine ⟨⟨startWith s r.state, startWith o r.outcomes, h, fun n => ?_⟩, startWith (time 0) time, ⟨⟨fun n => ?_, fun n => ?_, fun n => ?_⟩, fun T hT => ?_, fun n => ?_, fun T hT => ?_, fun n hb => ?_, ⟨fun n => ?_, fun n => ?_⟩, fun n => ?_⟩, rfl, rfl, rfl,
    fun n => ⟨rfl, rfl⟩⟩
  · cases n with
    | zero => exact hn
    | succ n => exact r.next n
  · cases n with
    | zero => exact Int.le_refl _
    | succ n => exact hr.clock.mono n
  · cases n with
    | zero => have := hr.clock.collector 0; rw [hs] at this; exact this
    | succ n => exact hr.clock.collector n
  · cases n with
    | zero => have := hr.clock.flushes 0; rw [hs] at this; exact this
    | succ n => exact hr.clock.flushes n
  · obtain ⟨m, x, hh⟩ := hr.ticks T hT
    exact ⟨m + 1, x, hh⟩
  · cases n with
    | zero =>
      obtain ⟨m, _, hm, hh⟩ := hr.works 0
      exact ⟨m + 1, by omega, hm, hh⟩
    | succ n =>
      obtain ⟨m, h1, hm, hh⟩ := hr.works n
      exact ⟨m + 1, by omega, hm, hh⟩
  · obtain ⟨m, x, y, hh⟩ := hr.sinkTicks T hT
    exact ⟨m + 1, x, y, hh⟩
  · cases n with
    | zero =>
      have hb : (r.state 0).sending ≠ none ∨ (r.state 0).sink.sink.grouped ≠ [] := by rw [hs]; exact hb
      obtain ⟨m, _, hm, hh⟩ := hr.sends 0 hb
      exact ⟨m + 1, by omega, hm, hh⟩
    | succ n =>
      obtain ⟨m, h1, hm, hh⟩ := hr.sends n hb
      exact ⟨m + 1, by omega, hm, hh⟩
  · cases n with
    | zero => exact .inl (by show (r.state 0).sink.times = _; rw [hs]; rfl)
    | succ n => exact hr.sinkClock.reads n
  · cases n with
    | zero => exact fun hl => absurd (by show (r.state 0).sink.log = _; rw [hs]; rfl) hl
    | succ n => exact hr.sinkClock.ticks n
  · cases n with
    | zero => exact fun hl => absurd (by show (r.state 0).world.received = _; rw [hs]; rfl) hl
    | succ n => exact hr.collectorClock n

/-- The proxy can go on without delay. -/
theorem atOnce_from {o : List Parsed} {s : System κ} (h : System.Reachable conv k o s) : ∃ (r : Execution conv k) (time : Nat → Time), r.AtOnce time ∧ r.state 0 = s ∧ ∀ n, r.outcomes n = o := by
  obtain ⟨r, time, e, hout, c1, c2, c3, c4, c5, c6, c7⟩ := timed_execution h
  refine ⟨r, time, ⟨c1, c2, c3, c4, c5, c6, fun n hne => ?_⟩, e, hout⟩
  obtain ⟨x, hx⟩ := (c7 n).collect.resolve_left hne
  exact ⟨_, _, x, hx, c1.mono n, Int.le_refl _⟩

end

/-- One proxy. The two spans are posted in two requests; 11.9 seconds later it has given them to the transport, in one call. -/
theorem C149_alone : ∃ (r : Execution plainConverter ()) (time : Nat → Time), r.AtOnce time ∧ r.outcomes 0 = [] ∧ AtMost r.accepted time 4000 (40000000001 + 100000000 + 0 + 0) 166000 ∧
    r.outcomes 2 = [.spans [rootPiece], .spans [childPiece]] ∧ (∀ m, List.Subperm (spansOfTrace 9 (acceptedSpans (r.outcomes m))) [rootPiece, childPiece]) ∧ time 2 = time 0 ∧
    ∃ spans m, (spans.map Span.withTags).Perm [rootPiece.withTags, childPiece.withTags] ∧ time m ≤ time 0 + 11900000000 ∧ OneCall (r.state m) spans := by
  have a0 := System.Reachable.init (conv := plainConverter) (k := ()) 0
  have a1 := System.Reachable.request (.spans [rootPiece]) a0
  have a2 := System.Reachable.request (.spans [childPiece]) a1
  obtain ⟨r2, time2, h2, e2, o2⟩ := atOnce_from a2
  obtain ⟨r1, time1, h1, o1, e1, t1, n1⟩ := atOnce_request (.spans [childPiece]) a1 h2 (o2 0) e2
  obtain ⟨r, time, h, o0, e0, t0, n0⟩ := atOnce_request (.spans [rootPiece]) a0 h1 o1 e1
  have hout : ∀ m, r.outcomes m = [] ∨ r.outcomes m = [.spans [rootPiece]] ∨ r.outcomes m = [.spans [rootPiece], .spans [childPiece]] := fun m => by
    match m with
    | 0 => exact .inl o0
    | 1 => exact .inr (.inl (by rw [(n0 0).1, o1]; rfl))
    | m + 2 => exact .inr (.inr (by rw [(n0 (m + 1)).1, (n1 m).1, o2]; rfl))
  have hf : AtMost r.accepted time 4000 (40000000001 + 100000000 + 0 + 0) 166000 := fun n m _ => .inl (by
    have : r.accepted (m + 1) ≤ 2 := by
      unfold Execution.accepted
      rcases hout (m + 1) with e | e | e <;> rw [e] <;> decide
    omega)
  have hposted : ∀ m, List.Subperm (spansOfTrace 9 (acceptedSpans (r.outcomes m))) [rootPiece, childPiece] := fun m => by
    rcases hout m with e | e | e <;> rw [e]
    · exact List.nil_subperm
    · exact (List.Sublist.cons_cons rootPiece (List.nil_sublist [childPiece])).subperm
    · exact (List.Sublist.refl [rootPiece, childPiece]).subperm
  have eo : r.outcomes 2 = [.spans [rootPiece], .spans [childPiece]] := by rw [(n0 1).1, (n1 0).1, o2]; rfl
  have et : time 2 = time 0 := by rw [(n0 1).2, (n1 0).2, t0, t1]
  obtain ⟨spans, s1, ⟨m, _, hm, hfate⟩, _⟩ := C149_posted h.clock h.sinkClock h.collectorClock h.ticks h.works h.sinkTicks (by decide) h.sends o0 (by decide) (by decide) hf pieces_healthy hposted
    (n0 := 0) (n1 := 2) (by omega) (by rw [o0]; rfl) (by rw [eo]; decide) (by tomega)
  exact ⟨r, time, h, o0, hf, eo, hposted, et, spans, m, s1, by tomega, hfate⟩

end Verif
