import Verif.Proofs.Merge
import Verif.Props.Timely
import Verif.Spec.TimelyCluster

/-!
# How long it takes with Kafka until a trace is with Datadog: C147
-/

namespace Verif

open Spec

variable {κ : Type} {conv : κ → Span → Option Span × κ} {k : κ} {part : List UInt8 → Nat} {assignment : List (List Nat)} {r : ClusterExecution conv k part assignment}
  {time : Nat → Time} {d : Delays}

local macro "tomega" : tactic => `(tactic| (dsimp only [Time] at *; omega))

/-- The proxies behind Kafka, each with its clock. -/
theorem ClusterExecution.InTime.back (h : r.InTime time d) (hnd : ∀ ps ∈ assignment, ps.Nodup) {i : Nat} {s : Nat → Instance κ} (hi : r.Proxy i s) {ps : List Nat} (hps : assignment[i]? = some ps) :
    ∃ (b : Execution conv k) (calls log : Nat → List (Nat × Span)), (∀ n, b.state n = (s n).back) ∧ (∀ n, ClaimsInv ps (r.state n).topic (calls n) (log n) (s n)) ∧
      b.Clock time ∧ b.CollectorTicks time d.collector ∧ b.Responsive time d.work ∧ b.SinkTicksIn time d.sink ∧ b.SendsIn time d.call := by
  obtain ⟨b, calls, log, hb, _, hinv⟩ := Proxy.back hi hps (hnd ps (List.mem_of_getElem? hps))
  have e : b.state = fun n => (s n).back := funext hb
  refine ⟨b, calls, log, hb, hinv, ?_, ?_, ?_, ?_, ?_⟩
  · obtain ⟨h1, h2, h3⟩ := h.clock i s hi
    exact ⟨h1, fun n => by rw [hb]; exact h2 n, fun n => by rw [hb]; exact h3 n⟩
  · unfold Execution.CollectorTicks; rw [e]; exact h.ticks i s hi
  · unfold Execution.Responsive; rw [e]; exact h.works i s hi
  · unfold Execution.SinkTicksIn; rw [e]; exact h.sinkTicks i s hi
  · unfold Execution.SendsIn; rw [e]; exact h.sends i s hi

/-- When a proxy has nothing left to write, its requests are answered and their spans are in the topic. -/
theorem idle_written {outcomes : List Parsed} {topic : List (List UInt8 × List UInt8)} {f : Front} (h : Front.Reachable part outcomes topic f) (hidle : f.Idle) {c : Nat} {l : List Span}
    (hp : outcomes[c]? = some (.spans l)) : f.http.conns[c]? = some (.answered 202) ∧ ∀ p, ((goTo part p l).map Span.withTags).Sublist (inPartition part p topic) := by
  obtain ⟨log, prod, fly, rest, inv, ord⟩ := h.ordered
  obtain ⟨hconns, hchan, hoff, hdis, hfly⟩ := hidle
  have hall := C33_all_or_nothing inv.http
  have hi : c < f.http.conns.length := by rw [hall.1]; exact (List.getElem?_eq_some_iff.mp hp).1
  have hcon := hall.2.1 c _ _ hp (List.getElem?_eq_getElem hi)
  have hmem := hconns _ (List.getElem_mem hi)
  have hfly' : fly = [] := by have := inv.inflight; rw [hfly] at this; simpa using this
  have hrest : rest = [] := by have := inv.before; rw [hdis, hoff] at this; simpa using this
  subst hfly' hrest
  have hsub : l.Sublist (f.pool.sent.map (·.1)) := by
    have hlog := hall.2.2.2
    rw [hchan, List.append_nil] at hlog
    rw [← hlog]
    generalize f.http.conns[c] = x at hcon hmem
    generalize hpu : pushedBy c log = pushed at hcon
    cases hcon with
    | pushing => exact absurd rfl (hmem.2 _)
    | accepted => rw [← hpu]; exact (List.filter_sublist).map _
  refine ⟨?_, fun p => ?_⟩
  · rw [List.getElem?_eq_getElem hi]
    generalize f.http.conns[c] = x at hcon hmem
    generalize pushedBy c log = pushed at hcon
    cases hcon with
    | pushing => exact absurd rfl (hmem.2 _)
    | accepted => rfl
  · have hord := ord.order p
    rw [List.nil_append, List.append_nil] at hord
    have e1 : goTo part p (f.pool.sent.map (·.1)) = (f.pool.sent.filter (Sent.inPart part p)).map (·.1) := by
      unfold goTo; rw [List.filter_map]; rfl
    have h1 : (goTo part p l).Sublist ((prod.filter (Sent.inPart part p)).map (·.1)) := by
      rw [hord, ← e1]; exact hsub.filter _
    refine (h1.map Span.withTags).trans ?_
    show List.Sublist _ ((inPart part p topic).filterMap fun e => decodeKafkaMessage e.2)
    rw [ord.inPart, List.filterMap_map, List.map_map]
    rw [filterMap_of_some (f := (fun e => decodeKafkaMessage e.2) ∘ fun x : Sent => (littleEndian x.1.trace.toUInt64, binaryEncode x.1 x.2.1)) (g := Span.withTags ∘ fun x : Sent => x.1)
      (fun y hy => by simp only [Function.comp_apply]; exact (inv.ok y (by simpa using (List.mem_filter.mp hy).1)).decode)]

/-- C147: a request that parses is answered with 202 and its spans are in the topic, each in the partition of its trace, after the delay for writing. -/
theorem C147_written (h : r.InTime time d) {j : Nat} {sj : Nat → Instance κ} (hj : r.Proxy j sj) {n c : Nat} {l : List Span} (hp : (r.requests n j)[c]? = some (.spans l)) :
    ∃ m, n ≤ m ∧ time m ≤ time n + d.write ∧ (sj m).front.http.conns[c]? = some (.answered 202) ∧
      ∀ p, ((goTo part p l).map Span.withTags).Sublist (((r.state m).topic p).filterMap decodeKafkaMessage) := by
  obtain ⟨f, h1, h2, h0, h3⟩ := Proxy.front hj
  obtain ⟨m, hm, ht, hidle⟩ := h.writes j sj hj n
  obtain ⟨w1, w2⟩ := idle_written (h0.reach m) (by rw [h1]; exact hidle) (f.outcome_later hm (by rw [h2]; exact hp))
  rw [h1] at w1
  refine ⟨m, hm, ht, w1, fun p => (w2 p).trans ?_⟩
  have := (h3 m p).filterMap decodeKafkaMessage
  rw [List.filterMap_map] at this
  exact this

/-- C147: what is in a partition, whoever wrote it, was received by the collector of its proxy, in order, after the delays for reading and for the work. -/
theorem C147_read (h : r.InTime time d) (hnd : ∀ ps ∈ assignment, ps.Nodup) {i : Nat} {s : Nat → Instance κ} (hi : r.Proxy i s) {ps : List Nat} (hps : assignment[i]? = some ps) {p : Nat} (hp : p ∈ ps)
    (n : Nat) : ∃ m, n ≤ m ∧ time m ≤ time n + d.read + d.work ∧ (((r.state n).topic p).filterMap decodeKafkaMessage).Sublist (s m).back.world.received := by
  obtain ⟨b, calls, log, hb, hinv, _, _, hd, _, _⟩ := h.back hnd hi hps
  obtain ⟨q, hq, ht, hread⟩ := h.reads i s hi n p
  obtain ⟨m, hm, htm, hpend⟩ := hd q
  refine ⟨m, by omega, by tomega, ?_⟩
  have invq := hinv q
  have hmem := hp
  rw [← invq.parts] at hmem
  obtain ⟨cl, hcl, rfl⟩ := List.mem_map.mp hmem
  obtain ⟨hbusy, hoff⟩ := hread cl hcl rfl
  have hord := invq.order cl hcl
  rw [show pendOf (s q).back.http.conns cl = [] by unfold pendOf; rw [hbusy], List.append_nil, invq.read cl hcl] at hord
  -- what was handed over until then is received
  have hfl := (flow b hm).1.sublist
  have hchan : (b.state m).http.channel = [] := Classical.byContradiction fun e => hpend (.inr (.inl e))
  rw [hchan, List.append_nil, hb, hb] at hfl
  refine List.Sublist.trans ?_ hfl
  rw [← (C33_all_or_nothing invq.http).2.2.2]
  have hsub : (pushedFor cl.partition (calls q) (log q)).Sublist ((log q).map (·.2)) := (List.filter_sublist).map _
  rw [hord] at hsub
  refine List.Sublist.trans ?_ hsub
  obtain ⟨l, hl⟩ := r.topic hq cl.partition
  rw [← hl, List.take_append, List.take_of_length_le hoff, List.filterMap_append]
  exact List.sublist_append_left _ _

/-- C147: every span of an accepted request to any proxy is received by the collector of the proxy to which its partition is assigned, unchanged, after the delays for writing, reading and work. -/
theorem C147_received (h : r.InTime time d) (hnd : ∀ ps ∈ assignment, ps.Nodup) {j : Nat} {sj : Nat → Instance κ} (hj : r.Proxy j sj) {n c : Nat} {l : List Span}
    (hp : (r.requests n j)[c]? = some (.spans l)) {i : Nat} {s : Nat → Instance κ} (hi : r.Proxy i s) {ps : List Nat} (hps : assignment[i]? = some ps) {p : Nat} (hpp : p ∈ ps) :
    ∃ m, n ≤ m ∧ time m ≤ time n + d.write + d.read + d.work ∧ ((goTo part p l).map Span.withTags).Sublist (s m).back.world.received := by
  obtain ⟨m0, hm0, ht0, _, hw⟩ := C147_written h hj hp
  obtain ⟨m, hm, ht, hr⟩ := C147_read h hnd hi hps hpp m0
  exact ⟨m, by omega, by tomega, (hw p).trans hr⟩

/-- C147: the whole way of a span. When a request to any of the proxies parses, it is answered with 202 in time; at most 40 seconds and the delays later, its spans with ids have left the collector
of the proxy to which their partition is assigned, with their trace or refused; and what that collector finished until then is soon with Datadog, each trace as a whole in a batch that was given to the
transport in a call, or that was discarded because eight others were waiting. -/
theorem C147_request (h : r.InTime time d) (hnd : ∀ ps ∈ assignment, ps.Nodup) {j : Nat} {sj : Nat → Instance κ} (hj : r.Proxy j sj) {n c : Nat} {l : List Span}
    (hp : (r.requests n j)[c]? = some (.spans l)) {i : Nat} {s : Nat → Instance κ} (hi : r.Proxy i s) {ps : List Nat} (hps : assignment[i]? = some ps) {p : Nat} (hpp : p ∈ ps) :
    (∃ n0, n ≤ n0 ∧ time n0 ≤ time n + d.write ∧ (sj n0).front.http.conns[c]? = some (.answered 202)) ∧
    ∃ (n1 m : Nat) (chunks : List (List Span)) (current : List Span), n ≤ n1 ∧ n1 ≤ m ∧
      time n1 ≤ time n + d.write + d.read + d.work + 40000000001 + d.collector ∧
      List.Subperm (((goTo part p l).map Span.withTags).filter fun s => decide (Traced s)) (s n1).back.world.left ∧
      time m ≤ time n + d.write + d.read + 2 * d.work + 41800000001 + d.collector + d.sink + 9 * d.call ∧ Partition (s m).back.sink chunks current ∧
      ∀ t ∈ convertTraces conv k (emittedOf (s n1).back.world.removed), t ≠ [] → ∃ (i : Nat) (chunk : List Span), chunks[i]? = some chunk ∧ t <:+: chunk ∧
        ((∃ b, (s m).back.sink.log[i]? = some (false, b)) ∨ ∃ call ∈ (s m).back.sent, Call chunk call) := by
  constructor
  · obtain ⟨n0, h1, h2, h3, _⟩ := C147_written h hj hp
    exact ⟨n0, h1, h2, h3⟩
  · obtain ⟨b, calls, log, hb, _, hc, ht1, hd, ht2, hl⟩ := h.back hnd hi hps
    obtain ⟨n0, hn0, htn0, hrec⟩ := C147_received h hnd hj hp hi hps hpp
    obtain ⟨n1, hn1, htn1, hleft⟩ := C127_left hc ht1 n0
    have hleft := hleft ((goTo part p l).map Span.withTags) (by rw [hb]; exact hrec)
    obtain ⟨m, chunks, current, hm, htm, hpart, hall⟩ := C127_traces hc hd ht2 h.calls hl n1
    rw [hb] at hleft
    rw [hb] at hpart
    rw [hb, hb] at hall
    exact ⟨n1, m, chunks, current, by omega, hm, by tomega, hleft, by tomega, hpart, hall⟩

/-- C147: the whole way of a trace. A trace to which the collector of a proxy adds no span any more leaves it in 8 seconds and a period of its ticks; and if it is finished then soon it is, as a whole,
with Datadog, or was discarded. -/
theorem C147_trace (h : r.InTime time d) (hnd : ∀ ps ∈ assignment, ps.Nodup) {i : Nat} {s : Nat → Instance κ} (hi : r.Proxy i s) {n : Nat} {id : Id} {t : Tree}
    (hp : (s n).back.world.c.traces[id]? = some t) (hlast : ∀ m, n ≤ m → receivedFor id (s m).back.world.received = receivedFor id (s n).back.world.received) :
    ∃ (n1 m : Nat) (fate : Fate) (chunks : List (List Span)) (current : List Span), n ≤ n1 ∧ n1 ≤ m ∧ ⟨id, t, fate⟩ ∈ (s n1).back.world.removed ∧
      time n1 ≤ time n + 8000000000 + d.collector ∧ time m ≤ time n + 9800000000 + d.collector + d.work + d.sink + 9 * d.call ∧
      Partition (s m).back.sink chunks current ∧
      ∀ out ∈ convertTraces conv k (emittedOf (s n1).back.world.removed), out ≠ [] → ∃ (i : Nat) (chunk : List Span), chunks[i]? = some chunk ∧ out <:+: chunk ∧
        ((∃ b, (s m).back.sink.log[i]? = some (false, b)) ∨ ∃ call ∈ (s m).back.sent, Call chunk call) := by
  obtain ⟨ps, now, hps, _⟩ := Proxy.initial hi
  obtain ⟨b, calls, log, hb, _, hc, ht1, hd, ht2, hl⟩ := h.back hnd hi hps
  obtain ⟨n1, m, fate, chunks, current, r1, r2, r3, r4, r5, r6, r7⟩ := C127_timely hc ht1 hd ht2 h.calls hl (n := n) (id := id) (t := t) (by rw [hb]; exact hp)
    (fun m hm => by rw [hb, hb]; exact hlast m hm)
  rw [hb] at r3
  rw [hb] at r6
  rw [hb, hb] at r7
  exact ⟨n1, m, fate, chunks, current, r1, r2, r3, r4, r5, r6, r7⟩

/-! ## There are such executions -/

/-- Nothing waits: ticks of the collectors every 100 milliseconds, of the sinks every 2 seconds. -/
def atOnce : Delays := { write := 0, read := 0, work := 0, collector := 100000000, sink := 2000000000, call := 0 }

/-- An execution, from any state on, in which everybody is in time. -/
structure TimedTail (conv : κ → Span → Option Span × κ) (part : List UInt8 → Nat) (base : Time) (state : Nat → Cluster κ) (requests : Nat → Nat → List Parsed) (time : Nat → Time) : Prop where
  next : ∀ n, Cluster.Next conv part (requests n) (state n) (requests (n + 1)) (state (n + 1))
  time0 : time 0 = base
  clock : ∀ (i : Nat) (s : Nat → Instance κ), (∀ n, (state n).instances[i]? = some (s n)) → System.ClockSeq (fun n => (s n).back) time
  writes : ∀ (i : Nat) (s : Nat → Instance κ), (∀ n, (state n).instances[i]? = some (s n)) → Front.WritesIn (fun n => (s n).front) time 0
  reads : ∀ (i : Nat) (s : Nat → Instance κ), (∀ n, (state n).instances[i]? = some (s n)) → Instance.ReadsIn (fun n => (state n).topic) s time 0
  works : ∀ (i : Nat) (s : Nat → Instance κ), (∀ n, (state n).instances[i]? = some (s n)) → System.ResponsiveSeq (fun n => (s n).back) time 0
  ticks : ∀ (i : Nat) (s : Nat → Instance κ), (∀ n, (state n).instances[i]? = some (s n)) → System.CollectorTicksSeq (fun n => (s n).back) time 100000000
  sinkTicks : ∀ (i : Nat) (s : Nat → Instance κ), (∀ n, (state n).instances[i]? = some (s n)) → System.SinkTicksSeq (fun n => (s n).back) time 2000000000
  sends : ∀ (i : Nat) (s : Nat → Instance κ), (∀ n, (state n).instances[i]? = some (s n)) → System.SendsSeq (fun n => (s n).back) time 0
  receives : ∀ (i : Nat) (s : Nat → Instance κ), (∀ n, (state n).instances[i]? = some (s n)) → System.ReadsNow (fun n => (s n).back) time
  closed : ∀ n p v, state (n + 1) ≠ { state n with topic := appendTopic (state n).topic p v }

/-- What the collectors and sinks read is this time. -/
def Cluster.Fresh (T : Time) (c c' : Cluster κ) : Prop :=
  ∀ (i : Nat) n n', c.instances[i]? = some n → c'.instances[i]? = some n' → n.back.ReadsAt T n'.back

/-- Steps in which the collectors and sinks read this time. -/
inductive Cluster.StepsAt (conv : κ → Span → Option Span × κ) (part : List UInt8 → Nat) (T : Time) (c : Cluster κ) : Cluster κ → Prop
  | refl : StepsAt conv part T c c
  | step {d e : Cluster κ} : StepsAt conv part T c d → d.Step conv part e → d.Fresh T e → StepsAt conv part T c e

theorem Cluster.StepsAt.steps {T : Time} {c d : Cluster κ} (h : c.StepsAt conv part T d) : c.Steps conv part d := by
  induction h with
  | refl => exact .refl
  | step _ hs _ ih => exact .step ih hs

theorem Cluster.StepsAt.trans {T : Time} {a b c : Cluster κ} (h : a.StepsAt conv part T b) (h' : b.StepsAt conv part T c) : a.StepsAt conv part T c := by
  induction h' with
  | refl => exact h
  | step _ hs hf ih => exact .step ih hs hf

/-- The readings of the clocks before a step are not later than those after it. -/
theorem System.Next.until {o o' : List Parsed} {s s' : System κ} (h : System.Next conv o s o' s') {T : Time} (hu : s'.Until T) : s.Until T := by
  refine ⟨Int.le_trans (clock_le h) hu.1, fun t ht => hu.2 t ?_⟩
  have key : s.sink.times <+: s'.sink.times := by
    cases h with
    | step h =>
      cases h with
      | sinkRead now hb => exact List.prefix_append _ _
      | _ => exact List.prefix_rfl
    | event h =>
      cases h with
      | sinkTick => exact List.prefix_append _ _
      | _ => exact List.prefix_rfl
    | request o => exact List.prefix_rfl
    | stay => exact List.prefix_rfl
  exact key.subset ht

/-- What a step of a proxy does behind Kafka. -/
theorem Instance.Step.behind {topic : Nat → List (List UInt8)} {n n' : Instance κ} {x : Option Span} (h : n.Step conv topic n' x) : ∃ o o', System.Next conv o n.back o' n'.back := by
  cases h with
  | skip _ _ _ _ => exact ⟨[], [], .stay⟩
  | call _ _ _ _ => exact ⟨[], _, .request _⟩
  | mark _ _ _ => exact ⟨[], [], .stay⟩
  | back h => exact ⟨[], [], .step h⟩
  | event h => exact ⟨[], [], .event h⟩

theorem Cluster.Next.behind {q q' : Nat → List Parsed} {c c' : Cluster κ} (h : Cluster.Next conv part q c q' c') {i : Nat} {n n' : Instance κ} (hn : c.instances[i]? = some n)
    (hn' : c'.instances[i]? = some n') : ∃ o o', System.Next conv o n.back o' n'.back := by
  rcases h.back hn hn' with ⟨x, hx⟩ | ⟨e, _⟩
  · exact hx.behind
  · rw [e]; exact ⟨[], [], .stay⟩

theorem TimedTail.prepend {base : Time} {state : Nat → Cluster κ} {requests : Nat → Nat → List Parsed} (h : TimedTail conv part base state requests time) {q : Nat → List Parsed} {c : Cluster κ}
    (hn : Cluster.Next conv part q c (requests 0) (state 0)) (hf : c.Fresh base (state 0)) (hcl : ∀ p v, state 0 ≠ { c with topic := appendTopic c.topic p v }) : TimedTail conv part base (startWith c state) (startWith q requests) (startWith base time) where
  next := fun n => by cases n with
    | zero => exact hn
    | succ n => exact h.next n
  time0 := rfl
  clock := fun i s hs => by
    obtain ⟨h1, h2, h3⟩ := h.clock i (fun n => s (n + 1)) (fun n => hs (n + 1))
    obtain ⟨o, o', hb⟩ := hn.behind (hs 0) (hs 1)
    have hu := hb.until (T := base) ⟨by rw [← h.time0]; exact h2 0, by rw [← h.time0]; exact h3 0⟩
    refine ⟨fun n => ?_, fun n => ?_, fun n => ?_⟩
    · cases n with
      | zero => exact Int.le_of_eq h.time0.symm
      | succ n => exact h1 n
    · cases n with
      | zero => exact hu.1
      | succ n => exact h2 n
    · cases n with
      | zero => exact hu.2
      | succ n => exact h3 n
  writes := fun i s hs n => by
    have ht := h.writes i (fun n => s (n + 1)) (fun n => hs (n + 1))
    cases n with
    | zero =>
      obtain ⟨m, _, hm, hh⟩ := ht 0
      exact ⟨m + 1, by omega, by rw [h.time0] at hm; exact hm, hh⟩
    | succ n =>
      obtain ⟨m, h1, hm, hh⟩ := ht n
      exact ⟨m + 1, by omega, hm, hh⟩
  reads := fun i s hs n p => by
    have ht := h.reads i (fun n => s (n + 1)) (fun n => hs (n + 1))
    cases n with
    | zero =>
      obtain ⟨m, _, hm, hh⟩ := ht 0 p
      refine ⟨m + 1, by omega, by rw [h.time0] at hm; exact hm, fun cl hcl e => ⟨(hh cl hcl e).1, Nat.le_trans (hn.topic p).length_le (hh cl hcl e).2⟩⟩
    | succ n =>
      obtain ⟨m, h1, hm, hh⟩ := ht n p
      exact ⟨m + 1, by omega, hm, hh⟩
  works := fun i s hs n => by
    have ht := h.works i (fun n => s (n + 1)) (fun n => hs (n + 1))
    cases n with
    | zero =>
      obtain ⟨m, _, hm, hh⟩ := ht 0
      exact ⟨m + 1, by omega, by rw [h.time0] at hm; exact hm, hh⟩
    | succ n =>
      obtain ⟨m, h1, hm, hh⟩ := ht n
      exact ⟨m + 1, by omega, hm, hh⟩
  ticks := fun i s hs T hT => by
    obtain ⟨m, x, hh⟩ := h.ticks i (fun n => s (n + 1)) (fun n => hs (n + 1)) T (by rw [h.time0]; exact hT)
    exact ⟨m + 1, x, hh⟩
  sinkTicks := fun i s hs T hT => by
    obtain ⟨m, x, y, hh⟩ := h.sinkTicks i (fun n => s (n + 1)) (fun n => hs (n + 1)) T (by rw [h.time0]; exact hT)
    exact ⟨m + 1, x, y, hh⟩
  sends := fun i s hs n hb => by
    have ht := h.sends i (fun n => s (n + 1)) (fun n => hs (n + 1))
    cases n with
    | zero =>
      have later : ((s 1).back.sending ≠ none ∨ (s 1).back.sink.sink.grouped ≠ []) → _ := fun hb => ht 0 hb
      have go : ((s 1).back.sending ≠ none ∨ (s 1).back.sink.sink.grouped ≠ []) →
          ∃ m, 0 ≤ m ∧ startWith base time (m + 1) ≤ startWith base time 0 + 0 ∧ (s m).back.SenderSends (s (m + 1)).back := fun hb => by
        obtain ⟨m, _, hm, hh⟩ := later hb
        exact ⟨m + 1, by omega, by rw [h.time0] at hm; exact hm, hh⟩
      obtain ⟨o, o', hnx⟩ := hn.behind (hs 0) (hs 1)
      rcases sender_moves hnx with hm | hm | ⟨e1, _, _, e4⟩
      · refine go (.inl ?_)
        generalize (s 0).back = a at hm
        generalize (s 1).back = b at hm
        cases hm with
        | mk _ _ => intro e; cases e
      · exact ⟨0, Nat.le_refl _, by show time 0 ≤ base + 0; rw [h.time0]; exact Int.le_of_eq (Int.add_zero _).symm, hm⟩
      · refine go ?_
        rcases hb with hb | hb
        · exact .inl (by rw [e1]; exact hb)
        · exact .inr fun e => hb (by rw [e] at e4; exact List.prefix_nil.mp e4)
    | succ n =>
      obtain ⟨m, h1, hm, hh⟩ := ht n hb
      exact ⟨m + 1, by omega, hm, hh⟩
  receives := fun i s hs n => by
    cases n with
    | zero =>
      show (s 0).back.ReadsAt (time 0) (s 1).back
      rw [h.time0]
      exact hf i _ _ (hs 0) (hs 1)
    | succ n => exact h.receives i (fun n => s (n + 1)) (fun n => hs (n + 1)) n
  closed := fun n => by
    cases n with
    | zero => exact hcl
    | succ n => exact h.closed n

/-- Any number of steps before. -/
theorem timed_steps {base : Time} {c d : Cluster κ} (hs : c.StepsAt conv part base d) {q : Nat → List Parsed} :
    (∃ state requests time, TimedTail conv part base state requests time ∧ state 0 = d ∧ ∀ n, requests n = q) →
    ∃ state requests time, TimedTail conv part base state requests time ∧ state 0 = c ∧ ∀ n, requests n = q := by
  induction hs with
  | refl => exact id
  | step _ hs hf ih =>
    rintro ⟨state, requests, time, h, h1, h2⟩
    refine ih ⟨_, _, _, h.prepend (q := q) (c := _) (by rw [h1, h2]; exact .step hs) (by rw [h1]; exact hf) (by rw [h1]; exact hs.closed), rfl, fun n => ?_⟩
    cases n with
    | zero => rfl
    | succ n => exact h2 n

theorem until_all (l : List (Instance κ)) : ∃ T, ∀ n ∈ l, n.back.Until T := by
  induction l with
  | nil => exact ⟨0, fun n hn => by cases hn⟩
  | cons a l ih =>
    obtain ⟨T, hT⟩ := ih
    obtain ⟨T', hT'⟩ := until_exists a.back
    refine ⟨max T T', fun n hn => ?_⟩
    rcases List.mem_cons.mp hn with rfl | hn
    · exact ⟨by have := hT'.1; tomega, fun t ht => by have := hT'.2 t ht; tomega⟩
    · exact ⟨by have := (hT n hn).1; tomega, fun t ht => by have := (hT n hn).2 t ht; tomega⟩

/-- When everything is read, the proxies go on in the order of their times. -/
theorem timed_end {d : Cluster κ} (q : Nat → List Parsed) (hN : 0 < d.instances.length) (hd : ∀ n ∈ d.instances, n.front.Idle ∧ n.Done d.topic)
    (hb : ∀ n ∈ d.instances, ∃ o, System.Reachable conv k o n.back) {base : Time} (hbase : ∀ n ∈ d.instances, n.back.Until base) :
    ∃ state requests time, TimedTail conv part base state requests time ∧ state 0 = d ∧ ∀ n, requests n = q := by
  have hex : ∀ i : Nat, ∃ b : (Nat → System κ) × (Nat → Time), ∀ n, d.instances[i]? = some n → b.1 0 = n.back ∧ (∀ m, b.1 (m + 1) = b.1 m ∨ (b.1 m).Step conv (b.1 (m + 1)) ∨ (b.1 m).Event (b.1 (m + 1))) ∧
      b.2 0 = base ∧ System.ClockSeq b.1 b.2 ∧ System.CollectorTicksSeq b.1 b.2 100000000 ∧ System.ResponsiveSeq b.1 b.2 0 ∧ System.SinkTicksSeq b.1 b.2 2000000000 ∧ System.SendsSeq b.1 b.2 0 ∧
      System.ReadsNow b.1 b.2 := fun i => by
    by_cases hi : i < d.instances.length
    · have hget := List.getElem?_eq_getElem hi
      obtain ⟨o, ho⟩ := hb _ (List.getElem_mem hi)
      obtain ⟨b, time, h1, h2, h3, h4, h5, h6, h7, h8, _, h9⟩ := timed_from ho (hbase _ (List.getElem_mem hi))
      refine ⟨(b.state, time), fun n hn => ?_⟩
      rw [hget] at hn; cases hn
      refine ⟨h1, fun m => ?_, h3, ⟨h4.mono, h4.collector, h4.flushes⟩, h5, h6, h7, h8, h9⟩
      have hn := b.next m
      have e := (h2 m).trans (h2 (m + 1)).symm
      dsimp only
      generalize b.state (m + 1) = s' at hn
      generalize b.outcomes (m + 1) = o' at hn e
      cases hn with
      | step h => exact .inr (.inl h)
      | event h => exact .inr (.inr h)
      | request x =>
        have := congrArg List.length e
        simp at this
      | stay => exact .inl rfl
    · exact ⟨(fun _ => System.init k 0, fun _ => 0), fun n hn => absurd (List.getElem?_eq_some_iff.mp hn).1 hi⟩
  obtain ⟨b, hb'⟩ := Classical.axiomOfChoice hex
  obtain ⟨pos, who, time, hmerge⟩ := merged_exists hN (fun i m => (b i).2 m) base
  have inst : ∀ i, i < d.instances.length → ∃ x, d.instances[i]? = some x := fun i hi => ⟨_, List.getElem?_eq_getElem hi⟩
  have hm : ∀ i m, i < d.instances.length → (b i).2 m ≤ (b i).2 (m + 1) := fun i m hi => by
    obtain ⟨x, hx⟩ := inst i hi
    exact (hb' i x hx).2.2.2.1.mono m
  have h0 : ∀ i, i < d.instances.length → (b i).2 0 = base := fun i hi => by
    obtain ⟨x, hx⟩ := inst i hi
    exact (hb' i x hx).2.2.1
  have hu : ∀ i, i < d.instances.length → ∀ T, ∃ m, T < (b i).2 m := fun i hi T => by
    obtain ⟨x, hx⟩ := inst i hi
    obtain ⟨_, _, _, hc, ht, _⟩ := hb' i x hx
    obtain ⟨m, inp, h1, _, hv, hs, _⟩ := ht (max ((b i).2 0) (T + 1)) (by tomega)
    refine ⟨m + 1, ?_⟩
    have h2 := hc.collector (m + 1)
    rw [hs] at h2
    have h3 : ((b i).1 m).world.clock ≤ ((b i).1 m).world.clock := Int.le_refl _
    have h4 : inp.now2 ≤ (b i).2 (m + 1) := h2
    have h5 := hv.clock
    tomega
  have slow : ∀ i, i < d.instances.length → Slow fun n => pos n i := fun i hi => hmerge.slow hm h0 hu hi
  have mono := hmerge.mono hm h0
  have lower : ∀ n i, i < d.instances.length → (b i).2 (pos n i) ≤ time n := fun n i hi => hmerge.lower hm h0 n hi
  let st : Nat → Cluster κ := fun n => { d with instances := d.instances.mapIdx fun i (x : Instance κ) => { x with back := (b i).1 (pos n i) } }
  have hget : ∀ n i, (st n).instances[i]? = d.instances[i]?.map fun x : Instance κ => { x with back := (b i).1 (pos n i) } := fun n i => by
    show (d.instances.mapIdx _)[i]? = _
    rw [List.getElem?_mapIdx]
  -- one proxy
  have hone : ∀ (i : Nat) (s : Nat → Instance κ), (∀ n, (st n).instances[i]? = some (s n)) → ∃ x, d.instances[i]? = some x ∧ ∀ n, s n = { x with back := (b i).1 (pos n i) } := fun i s hs => by
    cases hx : d.instances[i]? with
    | none => have := hs 0; rw [hget, hx] at this; cases this
    | some x =>
      refine ⟨x, rfl, fun n => ?_⟩
      have := hs n
      rw [hget, hx] at this
      exact (Option.some.inj this).symm
  refine ⟨st, fun _ => q, time, ⟨fun n => ?_, hmerge.time0, fun i s hs => ?_, fun i s hs n => ?_, fun i s hs n p => ?_, fun i s hs n => ?_, fun i s hs T hT => ?_, fun i s hs T hT => ?_, fun i s hs n hbusy => ?_,
    fun i s hs n => ?_, fun n p v e => append_ne _ _ _ (congrArg Cluster.topic e)⟩, ?_, fun _ => rfl⟩
  · -- whose turn is it
    obtain ⟨x, hx⟩ := inst (who n) (hmerge.lt n)
    obtain ⟨_, hnext, _⟩ := hb' _ x hx
    have hcur : (st n).instances[who n]? = some { x with back := (b (who n)).1 (pos n (who n)) } := by rw [hget, hx]; rfl
    have hset : st (n + 1) = { st n with instances := (st n).instances.set (who n) { x with back := (b (who n)).1 (pos n (who n) + 1) } } := by
      show ({ d with instances := _ } : Cluster κ) = { d with instances := _ }
      congr 1
      apply List.ext_getElem?
      intro i
      rw [show (d.instances.mapIdx fun i (x : Instance κ) => ({ x with back := (b i).1 (pos (n + 1) i) } : Instance κ)) = (st (n + 1)).instances from rfl, hget]
      by_cases hi : who n = i
      · subst hi
        rw [List.getElem?_set_self (List.getElem?_eq_some_iff.mp hcur).1, hx]
        show some _ = some _
        rw [hmerge.move, if_pos rfl]
      · rw [List.getElem?_set_ne hi, hget, hmerge.move, if_neg (fun e => hi e.symm)]
    rw [hset]
    rcases hnext (pos n (who n)) with e | e | e
    · have : (st n).instances.set (who n) { x with back := (b (who n)).1 (pos n (who n) + 1) } = (st n).instances := by
        rw [e]
        obtain ⟨hl, hh⟩ := List.getElem?_eq_some_iff.mp hcur
        rw [← hh]
        exact List.set_getElem_self hl
      rw [this]; exact .stay
    · exact .step (.back hcur (.back (n := { x with back := (b (who n)).1 (pos n (who n)) }) e))
    · exact .step (.back hcur (.event (n := { x with back := (b (who n)).1 (pos n (who n)) }) e))
  · obtain ⟨x, hx, hs'⟩ := hone i s hs
    have hi := (List.getElem?_eq_some_iff.mp hx).1
    obtain ⟨_, _, _, hc, _⟩ := hb' i x hx
    exact ⟨mono, fun n => by (try dsimp only); rw [hs']; exact Int.le_trans (hc.collector _) (lower n i hi), fun n t ht => by (try dsimp only at ht); rw [hs'] at ht; exact Int.le_trans (hc.flushes _ t ht) (lower n i hi)⟩
  · obtain ⟨x, hx, hs'⟩ := hone i s hs
    exact ⟨n, Nat.le_refl _, by tomega, by (try dsimp only); rw [hs']; exact (hd x (List.mem_of_getElem? hx)).1⟩
  · obtain ⟨x, hx, hs'⟩ := hone i s hs
    refine ⟨n, Nat.le_refl _, by tomega, fun cl hcl e => ?_⟩
    rw [hs'] at hcl
    subst e
    exact (hd x (List.mem_of_getElem? hx)).2.1 cl hcl
  · obtain ⟨x, hx, hs'⟩ := hone i s hs
    have hi := (List.getElem?_eq_some_iff.mp hx).1
    obtain ⟨_, _, _, _, _, hr, _⟩ := hb' i x hx
    obtain ⟨M, hM, ht, hp⟩ := hr (pos n i)
    have hl := lower n i hi
    by_cases e : M = pos n i
    · refine ⟨n, Nat.le_refl _, by tomega, ?_⟩
      (try dsimp only); rw [hs', ← e]; exact hp
    · obtain ⟨m, hm', e1, e2⟩ := (slow i hi).later (n := n) (M := M - 1) (by (try dsimp only); omega)
      have e3 : M - 1 + 1 = M := by omega
      have ht' := hmerge.turn e1 e2
      rw [e3] at ht' e2
      refine ⟨m + 1, by omega, by rw [ht']; tomega, ?_⟩
      try dsimp only at e2 ⊢
      rw [hs', e2]; exact hp
  · obtain ⟨x, hx, hs'⟩ := hone i s hs
    have hi := (List.getElem?_eq_some_iff.mp hx).1
    obtain ⟨_, _, hb0, _, hticks, _⟩ := hb' i x hx
    obtain ⟨M, inp, h1, h2, h3, h4⟩ := hticks T (by rw [hb0, ← hmerge.time0]; exact hT)
    obtain ⟨m, _, e1, e2⟩ := (slow i hi).later (n := 0) (M := M) (by (try dsimp only); rw [hmerge.pos0]; omega)
    have ht' := hmerge.turn e1 e2
    try dsimp only at e1 e2
    exact ⟨m, inp, h1, by rw [ht']; exact h2, by (try dsimp only); rw [hs', e1]; exact h3, by (try dsimp only); rw [hs', hs', e1, e2]; exact h4⟩
  · obtain ⟨x, hx, hs'⟩ := hone i s hs
    have hi := (List.getElem?_eq_some_iff.mp hx).1
    obtain ⟨_, _, hb0, _, _, _, hticks, _⟩ := hb' i x hx
    obtain ⟨M, since, now, h1, h2, h3, h4⟩ := hticks T (by rw [hb0, ← hmerge.time0]; exact hT)
    obtain ⟨m, _, e1, e2⟩ := (slow i hi).later (n := 0) (M := M) (by (try dsimp only); rw [hmerge.pos0]; omega)
    have ht' := hmerge.turn e1 e2
    try dsimp only at e1 e2
    exact ⟨m, since, now, h1, by rw [ht']; exact h2, by rw [ht']; exact h3, by (try dsimp only); rw [hs', hs', e1, e2]; exact h4⟩
  · obtain ⟨x, hx, hs'⟩ := hone i s hs
    have hi := (List.getElem?_eq_some_iff.mp hx).1
    obtain ⟨_, _, hb0, _, _, _, _, hsend, _⟩ := hb' i x hx
    try dsimp only at hbusy
    rw [hs'] at hbusy
    obtain ⟨M, hM, h1, h2⟩ := hsend (pos n i) hbusy
    obtain ⟨m, hm', e1, e2⟩ := (slow i hi).later (n := n) (M := M) hM
    have ht' := hmerge.turn e1 e2
    have hl := lower n i hi
    try dsimp only at e1 e2
    exact ⟨m, hm', by rw [ht']; tomega, by (try dsimp only); rw [hs', hs', e1, e2]; exact h2⟩
  · obtain ⟨x, hx, hs'⟩ := hone i s hs
    obtain ⟨_, _, _, hc, _, _, _, _, hrec⟩ := hb' i x hx
    try dsimp only
    rw [hs', hs']
    dsimp only
    rw [hmerge.move]
    by_cases hi : i = who n
    · subst hi
      rw [if_pos rfl, hmerge.turn (n := n) (j := who n) rfl (by rw [hmerge.move, if_pos rfl])]
      exact hrec _
    · rw [if_neg hi]
      exact .same rfl rfl rfl
  · show ({ d with instances := _ } : Cluster κ) = d
    have : (d.instances.mapIdx fun i (x : Instance κ) => ({ x with back := (b i).1 (pos 0 i) } : Instance κ)) = d.instances := by
      apply List.ext_getElem?
      intro i
      rw [List.getElem?_mapIdx]
      cases hx : d.instances[i]? with
      | none => rfl
      | some x =>
        show some _ = some x
        rw [hmerge.pos0, (hb' i x hx).1]
    rw [this]

theorem Cluster.Steps.length {c d : Cluster κ} (h : c.Steps conv part d) : d.instances.length = c.instances.length := by
  induction h with
  | refl => rfl
  | step _ h ih => rw [← ih]; exact (Cluster.Next.step (requests := fun _ => []) h).length

theorem steps_received {c d : Cluster κ} (h : c.Steps conv part d) {i : Nat} {n n' : Instance κ} (hn : c.instances[i]? = some n) (hn' : d.instances[i]? = some n') :
    n.back.world.received <+: n'.back.world.received ∧ n.back.sink.times <+: n'.back.sink.times ∧ n.back.sink.log <+: n'.back.sink.log := by
  induction h generalizing n' with
  | refl =>
    rw [hn] at hn'; cases hn'
    exact ⟨List.prefix_rfl, List.prefix_rfl, List.prefix_rfl⟩
  | @step d e hs h ih =>
    have hlt : i < d.instances.length := by rw [hs.length]; exact (List.getElem?_eq_some_iff.mp hn).1
    have hm := List.getElem?_eq_getElem hlt
    obtain ⟨o, o', hb⟩ := (Cluster.Next.step (requests := fun _ => []) h).behind hm hn'
    obtain ⟨i1, i2, i3⟩ := ih hm
    suffices key : (d.instances[i]).back.world.received <+: n'.back.world.received ∧ (d.instances[i]).back.sink.times <+: n'.back.sink.times ∧ (d.instances[i]).back.sink.log <+: n'.back.sink.log from
      ⟨i1.trans key.1, i2.trans key.2.1, i3.trans key.2.2⟩
    generalize n'.back = b' at hb
    generalize (d.instances[i]).back = b at hb
    cases hb with
    | step h =>
      cases h with
      | collect => exact ⟨List.prefix_append _ _, List.prefix_rfl, List.prefix_rfl⟩
      | sinkRead => exact ⟨List.prefix_rfl, List.prefix_append _ _, List.prefix_append _ _⟩
      | _ => exact ⟨List.prefix_rfl, List.prefix_rfl, List.prefix_rfl⟩
    | event h =>
      cases h with
      | sinkTick => exact ⟨List.prefix_rfl, List.prefix_append _ _, List.prefix_append _ _⟩
      | _ => exact ⟨List.prefix_rfl, List.prefix_rfl, List.prefix_rfl⟩
    | request o => exact ⟨List.prefix_rfl, List.prefix_rfl, List.prefix_rfl⟩
    | stay => exact ⟨List.prefix_rfl, List.prefix_rfl, List.prefix_rfl⟩

/-- Steps in which nothing is received and nothing flushed read no time. -/
theorem Cluster.Steps.at (T : Time) {c d : Cluster κ} (h : c.Steps conv part d)
    (hsame : ∀ (i : Nat) n n', c.instances[i]? = some n → d.instances[i]? = some n' → n'.back.world.received.length ≤ n.back.world.received.length ∧ n'.back.sink.times.length ≤ n.back.sink.times.length ∧
      n'.back.sink.log.length ≤ n.back.sink.log.length) : c.StepsAt conv part T d := by
  induction h with
  | refl => exact .refl
  | @step d e hs h ih =>
    have one : d.Steps conv part e := .step .refl h
    refine .step (ih fun i n m hn hm => ?_) h fun i m n' hm hn' => ?_
    · have hlt : i < e.instances.length := by rw [one.length]; exact (List.getElem?_eq_some_iff.mp hm).1
      have hn' := List.getElem?_eq_getElem hlt
      obtain ⟨a1, a2, a3⟩ := steps_received one hm hn'
      obtain ⟨b1, b2, b3⟩ := hsame i n _ hn hn'
      exact ⟨Nat.le_trans a1.length_le b1, Nat.le_trans a2.length_le b2, Nat.le_trans a3.length_le b3⟩
    · have hlt : i < c.instances.length := by rw [← hs.length]; exact (List.getElem?_eq_some_iff.mp hm).1
      have hn := List.getElem?_eq_getElem hlt
      obtain ⟨a1, a2, a3⟩ := steps_received hs hn hm
      obtain ⟨b1, b2, b3⟩ := hsame i _ n' hn hn'
      obtain ⟨c1, c2, c3⟩ := steps_received one hm hn'
      exact .same (c1.eq_of_length_le (Nat.le_trans b1 a1.length_le)).symm (c2.eq_of_length_le (Nat.le_trans b2 a2.length_le)).symm (c3.eq_of_length_le (Nat.le_trans b3 a3.length_le)).symm

/-- Everything is read, without waiting. -/
theorem backs_at (hnd : assignment.flatten.Nodup) {outcomes : List Parsed} {T : Time} {c : Cluster κ} (h : Cluster.Settled conv k part assignment outcomes c) (hid : ∀ n ∈ c.instances, n.front.Idle)
    (hT : ∀ n ∈ c.instances, n.back.Until T) :
    ∃ d, c.StepsAt conv part T d ∧ (∀ n ∈ d.instances, n.front.Idle ∧ n.CaughtUp d.topic ∧ ¬ n.back.Pending) ∧ ∀ n ∈ d.instances, n.back.Until T := by
  generalize hn : (c.instances.map (Instance.left c.topic)).sum = w
  induction w using Nat.strongRecOn generalizing c with
  | _ w ih =>
    by_cases hw : ∀ n ∈ c.instances, n.CaughtUp c.topic ∧ ¬ n.back.Pending
    · exact ⟨c, .refl, fun n hn => ⟨hid n hn, hw n hn⟩, hT⟩
    · have : ∃ n ∈ c.instances, ¬ (n.CaughtUp c.topic ∧ ¬ n.back.Pending) := by
        refine Classical.byContradiction fun hno => hw fun n hn => Classical.byContradiction fun e => hno ⟨n, hn, e⟩
      obtain ⟨n, hnm, hne⟩ := this
      obtain ⟨i, hi⟩ := List.getElem?_of_mem hnm
      obtain ⟨gs, inv⟩ := h.inv (List.pairwise_flatten.mp hnd).1
      obtain ⟨g, hg⟩ := inv.get hi
      obtain ⟨_, ps, _, cinv⟩ := inv.inst i n g hi hg
      obtain ⟨_, bouts, hb, _⟩ := (h.reachable hnd).inv.instances n hnm
      obtain ⟨n', x, hs, hlt, hf, hu, hr⟩ : ∃ n' x, n.Step conv c.topic n' x ∧ n'.left c.topic < n.left c.topic ∧ n'.front = n.front ∧ n'.back.Until T ∧ n.back.ReadsAt T n'.back := by
        obtain ⟨n', x, hs, hlt, hf, ⟨b, hb1, _⟩ | ⟨e1, e2⟩⟩ := instance_progress cinv.toClaimsBase hb (fun h => hne ⟨cinv.caughtUp h.1, h.2⟩)
        · obtain ⟨b', h1, h2, h4⟩ := step_in_time hb1 (hT n hnm)
          have := C67_terminates hb h1
          exact ⟨_, _, .back h1, by unfold Instance.left; dsimp only; omega, rfl, h2, h4⟩
        · refine ⟨n', x, hs, hlt, hf, ?_, .same (by rw [e1]) (by rw [e2]) (by rw [e2])⟩
          unfold System.Until
          rw [e1, e2]
          exact hT n hnm
      have hstep : c.Step conv part _ := .back hi hs
      have := sum_map_set (Instance.left c.topic) (q' := n') hi
      obtain ⟨d, hd, hdone⟩ := ih _ (by dsimp only; omega) (h.step hstep) (fun m hm => by
        rcases List.mem_or_eq_of_mem_set hm with hm | rfl
        · exact hid m hm
        · rw [hf]; exact hid n hnm) (fun m hm => by
        rcases List.mem_or_eq_of_mem_set hm with hm | rfl
        · exact hT m hm
        · exact hu) rfl
      refine ⟨d, (Cluster.StepsAt.step .refl hstep fun j m m' hm hm' => ?_).trans hd, hdone⟩
      by_cases hj : i = j
      · subst hj
        dsimp only at hm'
        rw [List.getElem?_set_self (List.getElem?_eq_some_iff.mp hi).1] at hm'
        cases hm'
        rw [hi] at hm
        cases hm
        exact hr
      · dsimp only at hm'
        rw [List.getElem?_set_ne hj, hm] at hm'
        cases hm'
        exact .same rfl rfl rfl

/-- As C69, without waiting. -/
theorem settled_at (hnd : assignment.flatten.Nodup) {outcomes : List Parsed} {T : Time} {c : Cluster κ} (h : Cluster.Settled conv k part assignment outcomes c) (hsmall : ∀ x, Accepted outcomes x → Small x)
    (hT : ∀ n ∈ c.instances, n.back.Until T) :
    ∃ d, c.StepsAt conv part T d ∧ (∀ n ∈ d.instances, n.front.Idle ∧ n.CaughtUp d.topic ∧ ¬ n.back.Pending) ∧ ∀ n ∈ d.instances, n.back.Until T := by
  obtain ⟨d, h1, h2, h3⟩ := settled_fronts hnd h hsmall
  have hback : ∀ (i : Nat) n n', c.instances[i]? = some n → d.instances[i]? = some n' → n'.back = n.back := fun i n n' hn hn' => by
    obtain ⟨f, hf⟩ := h3 i n hn
    rw [hf] at hn'; cases hn'
    rfl
  obtain ⟨e, h4, h5⟩ := backs_at (T := T) hnd (h.steps h1) h2 (fun n' hn' => by
    obtain ⟨i, hi⟩ := List.getElem?_of_mem hn'
    have hlt : i < c.instances.length := by rw [← h1.length]; exact (List.getElem?_eq_some_iff.mp hi).1
    rw [hback i _ n' (List.getElem?_eq_getElem hlt) hi]
    exact hT _ (List.getElem_mem hlt))
  exact ⟨e, (h1.at T fun i n n' hn hn' => by rw [hback i n n' hn hn']; exact ⟨Nat.le_refl _, Nat.le_refl _, Nat.le_refl _⟩).trans h4, h5⟩

/-- The requests, one after the other, before everything else. -/
theorem timed_requests (hnd : assignment.flatten.Nodup) (hN : 0 < assignment.length) (qs : List (Nat × Parsed)) : ∀ (outs : List Parsed) (c : Cluster κ) (q : Nat → List Parsed),
    Cluster.Settled conv k part assignment outs c → c.instances.length = assignment.length → (∀ x ∈ qs, x.1 < assignment.length) → (∀ x, Accepted (outs ++ qs.map (·.2)) x → Small x) →
    ∀ base, (∀ n ∈ c.instances, n.back.Until base) →
    ∃ state requests time, TimedTail conv part base state requests time ∧ state 0 = c ∧ requests 0 = q ∧ (∃ n, time n = base ∧ ∀ i, requests n i = q i ++ (qs.filter (·.1 = i)).map (·.2)) ∧
      ∀ m i, requests m i <+: q i ++ (qs.filter (·.1 = i)).map (·.2) := by
  induction qs with
  | nil =>
    intro outs c q h hlen _ hs base hbase
    obtain ⟨d, h1, h2, hu⟩ := settled_at hnd h (by simpa using hs) hbase
    have hd := h.steps h1.steps
    obtain ⟨state, requests, time, h3, h4, h5⟩ := timed_steps h1 (timed_end (conv := conv) (k := k) (part := part) q (by rw [h1.steps.length, hlen]; exact hN) (fun n hn => ⟨(h2 n hn).1, (h2 n hn).2.1.done⟩) (fun n hn =>
      let ⟨_, o, ho, _⟩ := (hd.reachable hnd).inv.instances n hn; ⟨o, ho⟩) hu)
    exact ⟨state, requests, time, h3, h4, h5 0, ⟨0, h3.time0, fun i => by rw [h5]; simp⟩, fun m i => by rw [h5]; exact List.prefix_append _ _⟩
  | cons x qs ih =>
    intro outs c q h hlen hi hs base hbase
    obtain ⟨i, o⟩ := x
    have hlt : i < c.instances.length := by rw [hlen]; exact hi _ List.mem_cons_self
    have hget := List.getElem?_eq_getElem hlt
    obtain ⟨state, requests, time, h1, h2, h3, ⟨n, h4, h5⟩, h6⟩ := ih (outs ++ [o]) _ (fun j => if j = i then q j ++ [o] else q j) (.request o h hget) (by rw [List.length_set]; exact hlen)
      (fun x hx => hi x (List.mem_cons_of_mem _ hx)) (by simpa using hs) base (fun m hm => by
        rcases List.mem_or_eq_of_mem_set hm with hm | rfl
        · exact hbase m hm
        · have := hbase _ (List.getElem_mem hlt)
          exact this)
    refine ⟨_, _, _, h1.prepend (q := q) (c := c) (by rw [h2, h3]; exact .request o hget) ?_ (by rw [h2]; exact same_closed _), rfl, rfl, ⟨n + 1, h4, fun j => ?_⟩, fun m j => ?_⟩
    · rw [h2]
      intro j m m' hm hm'
      by_cases hj : i = j
      · subst hj
        rw [List.getElem?_set_self hlt] at hm'
        cases hm'
        rw [hget] at hm
        cases hm
        exact .same rfl rfl rfl
      · rw [List.getElem?_set_ne hj, hm] at hm'
        cases hm'
        exact .same rfl rfl rfl
    · show requests n j = _
      rw [h5]
      by_cases hj : j = i
      · subst hj; simp
      · rw [if_neg hj, List.filter_cons_of_neg (by simpa using fun e : i = j => hj e.symm)]
    · cases m with
      | zero => exact List.prefix_append _ _
      | succ m =>
        refine (h6 m j).trans ?_
        by_cases hj : j = i
        · subst hj; simp
        · rw [if_neg hj, List.filter_cons_of_neg (by simpa using fun e : i = j => hj e.symm)]
          exact List.prefix_rfl

/-- C147: for all requests whose spans are small there is an execution in which everybody is in time, without any delay. -/
theorem C147_exists (conv : κ → Span → Option Span × κ) (k : κ) (part : List UInt8 → Nat) (hnd : assignment.flatten.Nodup) (hN : 0 < assignment.length) (qs : List (Nat × Parsed))
    (hi : ∀ x ∈ qs, x.1 < assignment.length) (hs : ∀ x, Accepted (qs.map (·.2)) x → Small x) : ∃ (r : ClusterExecution conv k part assignment) (time : Nat → Time), r.InTime time atOnce ∧
      (∀ i s, r.Proxy i s → System.CollectorClockSeq (fun n => (s n).back) time ∧ System.SinkClockSeq (fun n => (s n).back) time) ∧ r.Closed ∧ (∃ n, time n = time 0 ∧ ∀ i, r.requests n i = (qs.filter (·.1 = i)).map (·.2)) ∧
      ∀ m i, r.requests m i <+: (qs.filter (·.1 = i)).map (·.2) := by
  obtain ⟨base, hbase⟩ := until_all (Cluster.assigned k 0 assignment).instances
  obtain ⟨state, requests, time, h1, h2, h3, ⟨n, h4, h5⟩, h6⟩ := timed_requests (conv := conv) (k := k) (part := part) hnd hN qs [] _ (fun _ => []) (.init 0) (by simp [Cluster.assigned]) hi (by simpa using hs) base hbase
  refine ⟨⟨state, requests, ⟨0, h2⟩, fun i => by rw [h3], h1.next⟩, time, ⟨h1.clock, h1.writes, h1.reads, h1.works, h1.ticks, h1.sinkTicks, Int.le_refl _, h1.sends⟩, fun i s hs => ⟨fun n hne => ?_, fun n => (h1.receives i s hs n).sink, fun n => (h1.receives i s hs n).ticks⟩, h1.closed, ⟨n, by rw [h4, h1.time0],
    fun i => by simpa using h5 i⟩, fun m i => by simpa using h6 m i⟩
  obtain ⟨x, hx⟩ := (h1.receives i s hs n).collect.resolve_left hne
  exact ⟨_, _, x, hx, (h1.clock i s hs).mono n, Int.le_refl _⟩

/-- Two proxies, twelve partitions: two spans of a trace, posted to different proxies at the same time, have both left the collector of the second one 40.1 seconds later; and after 43.9 seconds all that
it finished was given to the transport or discarded. -/
theorem C147_witness (conv : κ → Span → Option Span × κ) (k : κ) : ∃ (r : ClusterExecution conv k (fun key => (key.headD 0).toNat % 12) [[0, 2, 4, 6, 8, 10], [1, 3, 5, 7, 9, 11]]) (time : Nat → Time)
    (s : Nat → Instance κ), r.InTime time atOnce ∧ r.Proxy 1 s ∧
    (∃ n, time n = time 0 ∧ r.requests n 0 = [.spans [{ id := 1, trace := 19 }]] ∧ r.requests n 1 = [.spans [{ id := 2, parent := 1, trace := 19 }]]) ∧
    (∃ m, time m ≤ time 0 + 40100000001 ∧ Span.withTags { id := 1, trace := 19 } ∈ (s m).back.world.left) ∧
    ∃ m m' chunks current, time m ≤ time 0 + 40100000001 ∧ time m' ≤ time 0 + 43900000001 ∧ Span.withTags { id := 2, parent := 1, trace := 19 } ∈ (s m).back.world.left ∧ Partition (s m').back.sink chunks current ∧
      ∀ t ∈ convertTraces conv k (emittedOf (s m).back.world.removed), t ≠ [] → ∃ (i : Nat) (chunk : List Span), chunks[i]? = some chunk ∧ t <:+: chunk ∧
        ((∃ b, (s m').back.sink.log[i]? = some (false, b)) ∨ ∃ call ∈ (s m').back.sent, Call chunk call) := by
  obtain ⟨r, time, h1, _, _, ⟨n, h2, h4⟩, _⟩ := C147_exists conv k (fun key => (key.headD 0).toNat % 12) (assignment := [[0, 2, 4, 6, 8, 10], [1, 3, 5, 7, 9, 11]]) (by decide) (by decide)
    [(0, .spans [{ id := 1, trace := 19 }]), (1, .spans [{ id := 2, parent := 1, trace := 19 }])] (by simp) (by
      rintro x ⟨l, hl, hx⟩
      simp only [List.map_cons, List.map_nil, List.mem_cons, List.not_mem_nil, or_false, Parsed.spans.injEq] at hl
      rcases hl with rfl | rfl
      all_goals
        rw [List.mem_singleton] at hx
        subst hx
        exact C104_small (by decide +kernel))
  have hnd : ∀ ps ∈ ([[0, 2, 4, 6, 8, 10], [1, 3, 5, 7, 9, 11]] : List (List Nat)), ps.Nodup := by decide
  obtain ⟨s0, hs0⟩ := r.proxy (i := 0) (by decide)
  obtain ⟨s, hs⟩ := r.proxy (i := 1) (by decide)
  have e0 : r.requests n 0 = [.spans [{ id := 1, trace := 19 }]] := h4 0
  have e1 : r.requests n 1 = [.spans [{ id := 2, parent := 1, trace := 19 }]] := h4 1
  obtain ⟨_, m0, _, _, _, _, _, t0, l0, _⟩ := C147_request h1 hnd hs0 (n := n) (c := 0) (l := [{ id := 1, trace := 19 }]) (by rw [e0]; rfl) hs rfl (p := 7) (by decide)
  obtain ⟨_, m1, m', chunks, current, _, _, t1, l1, t2, hpart, hall⟩ := C147_request h1 hnd hs (n := n) (c := 0) (l := [{ id := 2, parent := 1, trace := 19 }]) (by rw [e1]; rfl) hs rfl (p := 7) (by decide)
  dsimp only [atOnce] at t0 t1 t2
  refine ⟨r, time, s, h1, hs, ⟨n, h2, e0, e1⟩, ⟨m0, by tomega, ?_⟩, m1, m', chunks, current, by tomega, by tomega, ?_, hpart, hall⟩
  · exact l0.subset (by
      rw [List.mem_filter, List.mem_map]
      refine ⟨⟨_, ?_, rfl⟩, by decide +kernel⟩
      unfold goTo
      rw [List.mem_filter]
      exact ⟨List.mem_cons_self, by decide +kernel⟩)
  · exact l1.subset (by
      rw [List.mem_filter, List.mem_map]
      refine ⟨⟨_, ?_, rfl⟩, by decide +kernel⟩
      unfold goTo
      rw [List.mem_filter]
      exact ⟨List.mem_cons_self, by decide +kernel⟩)

end Verif
