import Verif.Proofs.FairCluster
import Verif.Props.FairSender
import Verif.Spec.Pieces

/-!
# Every span gets to the collector of its trace: C105
-/

namespace Verif

open Spec

variable {κ : Type} {conv : κ → Span → Option Span × κ} {k : κ} {part : List UInt8 → Nat} {assignment : List (List Nat)} {r : ClusterExecution conv k part assignment}

theorem small_front (hs : r.AllSmall) {i : Nat} {f : FrontExecution part} (hf : ∀ n, f.outcomes n = r.requests n i) : f.AllSmall := fun n x hx => hs n i x (by rw [← hf]; exact hx)

/-- C105: every request to any of the proxies is answered: with 202 if it was parsed, with 400 if not. -/
theorem C105_answered (h : r.Fair) (hs : r.AllSmall) {i : Nat} {s : Nat → Instance κ} (hi : r.Proxy i s) {n c : Nat} {p : Parsed} (hp : (r.requests n i)[c]? = some p) :
    (∀ l, p = .spans l → ∃ m, n ≤ m ∧ ∀ m', m ≤ m' → (s m').front.http.conns[c]? = some (.answered 202)) ∧
    (p = .err → ∃ m, n ≤ m ∧ ∀ m', m ≤ m' → (s m').front.http.conns[c]? = some (.answered 400)) := by
  obtain ⟨f, h1, h2, _, _⟩ := Proxy.front hi
  have := C104_answered (fair_front h1 (h.front i s hi)) (small_front hs h2) (n := n) (i := c) (p := p) (by rw [h2]; exact hp)
  simpa only [h1] using this

/-- C105: whoever wrote it, all that is in the partitions of a proxy is received by its collector, in order. -/
theorem C105_read (h : r.Fair) (hnd : ∀ ps ∈ assignment, ps.Nodup) {i : Nat} {s : Nat → Instance κ} (hi : r.Proxy i s) {ps : List Nat} (hps : assignment[i]? = some ps) {p : Nat} (hp : p ∈ ps) (n : Nat) :
    ∃ m, n ≤ m ∧ ∀ m', m ≤ m' → (((r.state n).topic p).filterMap decodeKafkaMessage).Sublist (s m').back.world.received := by
  obtain ⟨b, calls, log, hf, hinv⟩ := Proxy.fair h hi hps (hnd ps (List.mem_of_getElem? hps))
  exact hf.received hinv hp n

/-- C105: all spans of an accepted request get into the topic. -/
theorem C105_written (h : r.Fair) (hs : r.AllSmall) {j : Nat} {sj : Nat → Instance κ} (hj : r.Proxy j sj) {n c : Nat} {l : List Span} (hp : (r.requests n j)[c]? = some (.spans l)) :
    ∃ m, n ≤ m ∧ ∀ m', m ≤ m' → ∀ p, ((goTo part p l).map Span.withTags).Sublist (((r.state m').topic p).filterMap decodeKafkaMessage) := by
  obtain ⟨f, h1, h2, h0, h3⟩ := Proxy.front hj
  obtain ⟨m, hm, hw⟩ := C104_written (fair_front h1 (h.front j sj hj)) (small_front hs h2) h0 (n := n) (i := c) (l := l) (by rw [h2]; exact hp)
  refine ⟨m, hm, fun m' hm' p => (hw m' hm' p).trans ?_⟩
  have := (h3 m' p).filterMap decodeKafkaMessage
  rw [List.filterMap_map] at this
  exact this

theorem all_proxies (hnd : ∀ ps ∈ assignment, ps.Nodup) {P : Nat → Nat → Nat → Prop} {n : Nat} (h : ∀ i ps p, assignment[i]? = some ps → p ∈ ps → ∃ m, n ≤ m ∧ ∀ m', m ≤ m' → P i p m') :
    ∃ m, n ≤ m ∧ ∀ m', m ≤ m' → ∀ i ps p, assignment[i]? = some ps → p ∈ ps → P i p m' := by
  obtain ⟨m, hm, hall⟩ := eventually_all (P := fun i m' => ∀ ps p, assignment[i]? = some ps → p ∈ ps → P i p m') n (List.range assignment.length) (fun i hi => by
    rw [List.mem_range] at hi
    have hps := List.getElem?_eq_getElem hi
    obtain ⟨m, hm, hall⟩ := eventually_all (P := fun p m' => P i p m') n assignment[i] (fun p hp => h i _ p hps hp)
    refine ⟨m, hm, fun m' hm' ps p hps' hp => ?_⟩
    rw [hps] at hps'; cases hps'
    exact hall m' hm' p hp)
  exact ⟨m, hm, fun m' hm' i ps p hps hp => hall m' hm' i (List.mem_range.mpr (List.getElem?_eq_some_iff.mp hps).1) ps p hps hp⟩

/-- C105: every span of an accepted request to any proxy gets to the collector of the proxy to which its partition is assigned, unchanged; the spans for one partition in the order of the request. -/
theorem C105_received (h : r.Fair) (hs : r.AllSmall) (hnd : ∀ ps ∈ assignment, ps.Nodup) {j : Nat} {sj : Nat → Instance κ} (hj : r.Proxy j sj) {n c : Nat} {l : List Span}
    (hp : (r.requests n j)[c]? = some (.spans l)) : ∃ m, n ≤ m ∧ ∀ m', m ≤ m' → ∀ i ps p, assignment[i]? = some ps → p ∈ ps → ∀ s, r.Proxy i s →
      ((goTo part p l).map Span.withTags).Sublist (s m').back.world.received := by
  obtain ⟨m, hm, hw⟩ := C105_written h hs hj hp
  obtain ⟨m1, hm1, hall⟩ := all_proxies hnd (P := fun i p m' => ∀ s, r.Proxy i s → ((goTo part p l).map Span.withTags).Sublist (s m').back.world.received) (n := m) (fun i ps p hps hp => by
    obtain ⟨s, hi⟩ := r.proxy (List.getElem?_eq_some_iff.mp hps).1
    obtain ⟨m1, hm1, hr⟩ := C105_read h hnd hi hps hp m
    refine ⟨m1, hm1, fun m' hm' s' hi' => ?_⟩
    have : s' m' = s m' := Option.some.inj ((hi' m').symm.trans (hi m'))
    rw [this]
    exact (hw m (Nat.le_refl _) p).trans (hr m' hm'))
  exact ⟨m1, by omega, hall⟩

/-- C105: and there it meets its fate: its trace is finished, and what is emitted gets to the sink and to the buffer. -/
theorem C105_fate (h : r.Fair) (hs : r.AllSmall) (hnd : ∀ ps ∈ assignment, ps.Nodup) (ht : ∀ i s, r.Proxy i s → System.TicksAgain fun n => (s n).back)
    {j : Nat} {sj : Nat → Instance κ} (hj : r.Proxy j sj) {n c : Nat} {l : List Span} (hp : (r.requests n j)[c]? = some (.spans l)) : ∃ m, n ≤ m ∧ ∀ m', m ≤ m' →
      (sj m').front.http.conns[c]? = some (.answered 202) ∧ ∀ i ps p, assignment[i]? = some ps → p ∈ ps → ∀ s, r.Proxy i s →
      List.Subperm (((goTo part p l).map Span.withTags).filter fun s => decide (Traced s)) (s m').back.world.left ∧
      ∃ m'', m' ≤ m'' ∧ convertTraces conv k (emittedOf (s m').back.world.removed) <+: (s m'').back.sink.received ∧
        ∃ ts, convertTraces conv k (emittedOf (s m').back.world.removed) <+: ts ∧ (Ring.new 2048).readFrom ts = some (s m'').back.ring := by
  obtain ⟨m1, hm1, ha⟩ := (C105_answered h hs hj hp).1 l rfl
  obtain ⟨m2, hm2, hr⟩ := C105_received h hs hnd hj hp
  obtain ⟨m3, hm3, hall⟩ := all_proxies hnd (n := m2) (P := fun i p m' => ∀ s, r.Proxy i s →
      List.Subperm (((goTo part p l).map Span.withTags).filter fun s => decide (Traced s)) (s m').back.world.left ∧
      ∃ m'', m' ≤ m'' ∧ convertTraces conv k (emittedOf (s m').back.world.removed) <+: (s m'').back.sink.received ∧
        ∃ ts, convertTraces conv k (emittedOf (s m').back.world.removed) <+: ts ∧ (Ring.new 2048).readFrom ts = some (s m'').back.ring) (fun i ps p hps hp => by
    obtain ⟨s, hi⟩ := r.proxy (List.getElem?_eq_some_iff.mp hps).1
    obtain ⟨b, calls, log, hf, _⟩ := Proxy.fair h hi hps (hnd ps (List.mem_of_getElem? hps))
    have hticks : b.Ticks := by
      have e : b.state = fun n => (s n).back := funext hf.state
      have := ht i s hi
      rw [← e] at this
      exact this
    obtain ⟨m3, hm3, hl⟩ := C100_left hticks m2
    refine ⟨m3, hm3, fun m' hm' s' hi' => ?_⟩
    have e : s' = s := funext fun n => Option.some.inj ((hi' n).symm.trans (hi n))
    subst e
    have h1 := hl m' hm' ((goTo part p l).map Span.withTags) (by rw [hf.state]; exact hr m2 (Nat.le_refl _) i ps p hps hp s' hi)
    obtain ⟨m4, hm4, hd⟩ := C100_delivered hf.fair m'
    obtain ⟨hd1, ts, hd2, _, hd3⟩ := hd m4 (Nat.le_refl _)
    rw [hf.state, hf.state] at hd1
    rw [hf.state] at h1 hd2 hd3
    exact ⟨h1, m4, hm4, hd1, ts, hd2, hd3⟩)
  exact ⟨max m1 m3, by omega, fun m' hm' => ⟨ha m' (by omega), hall m' (by omega)⟩⟩

/-! ## Fair executions exist -/

/-- A sequence of steps of one proxy, slowed down. -/
structure Slow (cnt : Nat → Nat) : Prop where
  zero : cnt 0 = 0
  next : ∀ n, cnt (n + 1) = cnt n ∨ cnt (n + 1) = cnt n + 1
  again : ∀ n, ∃ m, n ≤ m ∧ cnt (m + 1) = cnt m + 1

theorem Slow.mono {cnt : Nat → Nat} (h : Slow cnt) {n m : Nat} (hm : n ≤ m) : cnt n ≤ cnt m := by
  induction hm with
  | refl => exact Nat.le_refl _
  | @step m hm ih => exact Nat.le_trans ih (by have := h.next m; show cnt m ≤ cnt (m + 1); omega)

theorem Slow.passes {cnt : Nat → Nat} (h : Slow cnt) {n M : Nat} (hn : cnt n = M) : ∃ m, cnt m = M ∧ cnt (m + 1) = M + 1 := by
  rcases goes_on (P := fun m => cnt m = M) (Q := fun m => cnt (m + 1) = M + 1) hn (fun m _ e => by have := h.next m; rw [e] at this; exact this.symm) with hall | ⟨m, _, h1, h2⟩
  · obtain ⟨m, hm, e⟩ := h.again n
    have h1 := hall m hm
    have h2 := hall (m + 1) (by omega)
    omega
  · exact ⟨m, h1, h2⟩

theorem Slow.hits {cnt : Nat → Nat} (h : Slow cnt) (M : Nat) : ∃ n, cnt n = M ∧ cnt (n + 1) = M + 1 := by
  induction M with
  | zero => exact h.passes h.zero
  | succ M ih =>
    obtain ⟨n, _, h2⟩ := ih
    exact h.passes h2

/-- The step after time `n` that is number `M`. -/
theorem Slow.later {cnt : Nat → Nat} (h : Slow cnt) {n M : Nat} (hM : cnt n ≤ M) : ∃ m, n ≤ m ∧ cnt m = M ∧ cnt (m + 1) = M + 1 := by
  obtain ⟨m, h1, h2⟩ := h.hits M
  refine ⟨m, ?_, h1, h2⟩
  by_cases hm : n ≤ m
  · exact hm
  · have := h.mono (show m + 1 ≤ n by omega)
    omega

theorem slow_weakly {can : Nat → Prop} {does : Nat → Nat → Prop} {cnt : Nat → Nat} (h : Slow cnt) (hw : Weakly can fun n => does n (n + 1)) : Weakly (fun n => can (cnt n)) fun n => does (cnt n) (cnt (n + 1)) := fun n => by
  obtain ⟨M, hM, hh⟩ := hw (cnt n)
  obtain ⟨m, hm, h1, h2⟩ := h.later hM
  exact ⟨m, hm, by dsimp only; rw [h1, h2]; exact hh⟩

theorem slow_strongly {can : Nat → Prop} {does : Nat → Nat → Prop} {cnt : Nat → Nat} (h : Slow cnt) (hw : Strongly can fun n => does n (n + 1)) : Strongly (fun n => can (cnt n)) fun n => does (cnt n) (cnt (n + 1)) := fun he n => by
  obtain ⟨M, hM, hh⟩ := hw (fun M => by
    obtain ⟨n, h1, _⟩ := h.hits M
    obtain ⟨m, hm, hc⟩ := he n
    exact ⟨cnt m, by have := h.mono hm; omega, hc⟩) (cnt n)
  obtain ⟨m, hm, h1, h2⟩ := h.later hM
  exact ⟨m, hm, by dsimp only; rw [h1, h2]; exact hh⟩

theorem slow_fair {b : Execution conv k} (h : b.Fair) {cnt : Nat → Nat} (hc : Slow cnt) : System.FairSeq conv fun n => b.state (cnt n) :=
  have w : ∀ a, b.Weak a → Weakly (fun n => (b.state (cnt n)).Enabled conv a) (fun n => (b.state (cnt n)).Does conv a (b.state (cnt (n + 1)))) := fun a hw =>
    slow_weakly (can := fun n => (b.state n).Enabled conv a) (does := fun n m => (b.state n).Does conv a (b.state m)) hc hw
  have st : ∀ a, b.Strong a → Strongly (fun n => (b.state (cnt n)).Enabled conv a) (fun n => (b.state (cnt n)).Does conv a (b.state (cnt (n + 1)))) := fun a hw =>
    slow_strongly (can := fun n => (b.state n).Enabled conv a) (does := fun n m => (b.state n).Does conv a (b.state m)) hc hw
  ⟨fun i => st _ (h.handler i), st _ h.collect, w _ h.emit, w _ h.forward, w _ h.sinkTake, w _ h.sinkRead, w _ h.ringTake, w _ h.ringRead⟩

theorem slow_ticks {b : Execution conv k} (h : b.Ticks) {cnt : Nat → Nat} (hc : Slow cnt) : System.TicksAgain fun n => b.state (cnt n) := fun n T => by
  obtain ⟨M, i, hM, h1, h2⟩ := h (cnt n) T
  obtain ⟨m, hm, e1, e2⟩ := hc.later hM
  exact ⟨m, i, hm, h1, by dsimp only; rw [e1, e2]; exact h2⟩

theorem slow_sender {b : Execution conv k} (h : b.SenderFair) {cnt : Nat → Nat} (hc : Slow cnt) : System.SenderFairSeq fun n => b.state (cnt n) :=
  ⟨slow_weakly (can := fun n => ∃ s', (b.state n).SenderTakes s') (does := fun n m => (b.state n).SenderTakes (b.state m)) hc h.take,
    slow_weakly (can := fun n => ∃ s', (b.state n).SenderSends s') (does := fun n m => (b.state n).SenderSends (b.state m)) hc h.send⟩

theorem slow_sinkTicks {b : Execution conv k} (h : b.SinkTicks) {cnt : Nat → Nat} (hc : Slow cnt) : System.SinkTicksAgain fun n => b.state (cnt n) := fun n T => by
  obtain ⟨M, i, j, hM, h1, h2⟩ := h (cnt n) T
  obtain ⟨m, hm, e1, e2⟩ := hc.later hM
  exact ⟨m, i, j, hm, h1, by dsimp only; rw [e1, e2]; exact h2⟩

/-- The turns of proxy `i` among `N`. -/
def turns (N i : Nat) : Nat → Nat
  | 0 => 0
  | n + 1 => if n % N = i then turns N i n + 1 else turns N i n

theorem turns_slow {N i : Nat} (hi : i < N) : Slow (turns N i) where
  zero := rfl
  next := fun n => by
    show (if n % N = i then turns N i n + 1 else turns N i n) = _ ∨ _
    by_cases h : n % N = i
    · exact .inr (if_pos h)
    · exact .inl (if_neg h)
  again := fun n => by
    refine ⟨n * N + i, ?_, ?_⟩
    · have := Nat.le_mul_of_pos_right n (show 0 < N by omega)
      omega
    · show (if (n * N + i) % N = i then _ else _) = _
      rw [if_pos (by rw [Nat.mul_comm, Nat.mul_add_mod, Nat.mod_eq_of_lt hi])]

/-- An execution, from any state on. -/
structure ClusterTail (conv : κ → Span → Option Span × κ) (part : List UInt8 → Nat) (state : Nat → Cluster κ) (requests : Nat → Nat → List Parsed) : Prop where
  next : ∀ n, Cluster.Next conv part (requests n) (state n) (requests (n + 1)) (state (n + 1))
  front : ∀ (i : Nat) (s : Nat → Instance κ), (∀ n, (state n).instances[i]? = some (s n)) → Front.FairSeq part fun n => (s n).front
  back : ∀ (i : Nat) (s : Nat → Instance κ), (∀ n, (state n).instances[i]? = some (s n)) → System.FairSeq conv fun n => (s n).back
  claim : ∀ (i : Nat) (s : Nat → Instance κ), (∀ n, (state n).instances[i]? = some (s n)) → ∀ j,
    Weakly (fun n => ∃ s', (s n).Serves (state n).topic j s') (fun n => (s n).Serves (state n).topic j (s (n + 1)))
  ticks : ∀ (i : Nat) (s : Nat → Instance κ), (∀ n, (state n).instances[i]? = some (s n)) → System.TicksAgain fun n => (s n).back
  sender : ∀ (i : Nat) (s : Nat → Instance κ), (∀ n, (state n).instances[i]? = some (s n)) → System.SenderFairSeq fun n => (s n).back
  sinkTicks : ∀ (i : Nat) (s : Nat → Instance κ), (∀ n, (state n).instances[i]? = some (s n)) → System.SinkTicksAgain fun n => (s n).back
  closed : ∀ n p v, state (n + 1) ≠ { state n with topic := appendTopic (state n).topic p v }

theorem append_ne (topic : Nat → List (List UInt8)) (p : Nat) (v : List UInt8) : topic ≠ appendTopic topic p v := fun e => by
  have := congrArg List.length (congrFun e p)
  rw [show appendTopic topic p v p = topic p ++ [v] from if_pos rfl] at this
  simp at this

/-- A step of a proxy is not a message of somebody else. -/
theorem Cluster.Step.closed {c c' : Cluster κ} (h : c.Step conv part c') (p : Nat) (v : List UInt8) : c' ≠ { c with topic := appendTopic c.topic p v } := fun e => by
  cases h with
  | back _ _ => exact append_ne _ _ _ (congrArg Cluster.topic e)
  | @front i n f x hi hs =>
    cases x with
    | none => exact append_ne _ _ _ (congrArg Cluster.topic e)
    | some x =>
      have h1 : (c.instances.set i { n with front := f })[i]? = c.instances[i]? := congrArg (fun c : Cluster κ => c.instances[i]?) e
      rw [List.getElem?_set_self (List.getElem?_eq_some_iff.mp hi).1, hi] at h1
      have h2 : f = n.front := congrArg Instance.front (Option.some.inj h1)
      cases hs with
      | produce hl _ =>
        have := congrArg (fun f : Front => f.inflight.length) h2
        simp [hl] at this

theorem same_closed {c : Cluster κ} (is : List (Instance κ)) (p : Nat) (v : List UInt8) : ({ c with instances := is } : Cluster κ) ≠ { c with topic := appendTopic c.topic p v } :=
  fun e => append_ne _ _ _ (congrArg Cluster.topic e)

def startWith {α : Type} (a : α) (f : Nat → α) : Nat → α
  | 0 => a
  | n + 1 => f n

theorem weakly_shift {can does : Nat → Prop} (h : Weakly (fun n => can (n + 1)) fun n => does (n + 1)) : Weakly can does := fun n => by
  obtain ⟨m, hm, hh⟩ := h n
  exact ⟨m + 1, by omega, hh⟩

theorem strongly_shift {can does : Nat → Prop} (h : Strongly (fun n => can (n + 1)) fun n => does (n + 1)) : Strongly can does := fun he n => by
  obtain ⟨m, hm, hh⟩ := h (fun n => by
    obtain ⟨m, hm, he⟩ := he (n + 1)
    obtain ⟨m, rfl⟩ : ∃ m', m = m' + 1 := ⟨m - 1, by omega⟩
    exact ⟨m, by omega, he⟩) n
  exact ⟨m + 1, by omega, hh⟩

theorem ClusterTail.prepend {state : Nat → Cluster κ} {requests : Nat → Nat → List Parsed} (h : ClusterTail conv part state requests) {q : Nat → List Parsed} {c : Cluster κ}
    (hn : Cluster.Next conv part q c (requests 0) (state 0)) (hc : ∀ p v, state 0 ≠ { c with topic := appendTopic c.topic p v }) :
    ClusterTail conv part (startWith c state) (startWith q requests) where
  next := fun n => by cases n with
    | zero => exact hn
    | succ n => exact h.next n
  front := fun i s hs => by
    have := h.front i (fun n => s (n + 1)) (fun n => hs (n + 1))
    exact ⟨fun i => strongly_shift (this.handler i), weakly_shift this.send, weakly_shift this.input, weakly_shift this.dispatch, fun p => weakly_shift (this.produce p)⟩
  back := fun i s hs => by
    have := h.back i (fun n => s (n + 1)) (fun n => hs (n + 1))
    exact ⟨fun i => strongly_shift (this.handler i), strongly_shift this.collect, weakly_shift this.emit, weakly_shift this.forward, weakly_shift this.sinkTake,
      weakly_shift this.sinkRead, weakly_shift this.ringTake, weakly_shift this.ringRead⟩
  claim := fun i s hs j => weakly_shift (h.claim i (fun n => s (n + 1)) (fun n => hs (n + 1)) j)
  ticks := fun i s hs n T => by
    obtain ⟨m, x, hm, hh⟩ := h.ticks i (fun n => s (n + 1)) (fun n => hs (n + 1)) n T
    exact ⟨m + 1, x, by omega, hh⟩
  sender := fun i s hs => by
    have := h.sender i (fun n => s (n + 1)) (fun n => hs (n + 1))
    exact ⟨weakly_shift this.take, weakly_shift this.send⟩
  sinkTicks := fun i s hs n T => by
    obtain ⟨m, x, y, hm, hh⟩ := h.sinkTicks i (fun n => s (n + 1)) (fun n => hs (n + 1)) n T
    exact ⟨m + 1, x, y, by omega, hh⟩
  closed := fun n => by cases n with
    | zero => exact hc
    | succ n => exact h.closed n

/-- Any number of steps before. -/
theorem tail_steps {P : (Nat → Cluster κ) → Prop} (hP : ∀ c s, P s → P (startWith c s)) {c d : Cluster κ} (hs : c.Steps conv part d) {q : Nat → List Parsed} :
    (∃ state requests, ClusterTail conv part state requests ∧ state 0 = d ∧ (∀ n, requests n = q) ∧ P state) →
    ∃ state requests, ClusterTail conv part state requests ∧ state 0 = c ∧ (∀ n, requests n = q) ∧ P state := by
  induction hs with
  | refl => exact id
  | step _ hs ih =>
    rintro ⟨state, requests, h, h1, h2, h3⟩
    refine ih ⟨_, _, h.prepend (q := q) (c := _) (by rw [h1, h2]; exact .step hs) (by rw [h1]; exact hs.closed), rfl, fun n => ?_, hP _ _ h3⟩
    cases n with
    | zero => rfl
    | succ n => exact h2 n

/-- When everything is read, the proxies take turns. -/
theorem tail_end {d : Cluster κ} (q : Nat → List Parsed) (hd : ∀ n ∈ d.instances, n.front.Idle ∧ n.Done d.topic)
    (hb : ∀ n ∈ d.instances, ∃ o, System.Reachable conv k o n.back) : ∃ state requests, ClusterTail conv part state requests ∧ state 0 = d ∧ ∀ n, requests n = q := by
  have hex : ∀ i : Nat, ∃ b : Nat → System κ, ∀ n, d.instances[i]? = some n → b 0 = n.back ∧ (∀ m, b (m + 1) = b m ∨ (b m).Step conv (b (m + 1)) ∨ (b m).Event (b (m + 1))) ∧
      ∀ cnt, Slow cnt → System.FairSeq conv (fun m => b (cnt m)) ∧ System.TicksAgain (fun m => b (cnt m)) ∧ System.SenderFairSeq (fun m => b (cnt m)) ∧
        System.SinkTicksAgain fun m => b (cnt m) := fun i => by
    by_cases hi : i < d.instances.length
    · have hget := List.getElem?_eq_getElem hi
      obtain ⟨o, ho⟩ := hb _ (List.getElem_mem hi)
      obtain ⟨b, h1, h2, h3, h4, h5, h6⟩ := C101_exists ho
      refine ⟨b.state, fun n hn => ?_⟩
      rw [hget] at hn; cases hn
      refine ⟨h1, fun m => ?_, fun cnt hc => ⟨slow_fair h3 hc, slow_ticks h4 hc, slow_sender h5 hc, slow_sinkTicks h6 hc⟩⟩
      have hn := b.next m
      have e := (h2 m).trans (h2 (m + 1)).symm
      generalize b.state (m + 1) = s' at hn
      generalize b.outcomes (m + 1) = o' at hn e
      cases hn with
      | step h => exact .inr (.inl h)
      | event h => exact .inr (.inr h)
      | request x =>
        have := congrArg List.length e
        simp at this
      | stay => exact .inl rfl
    · exact ⟨fun _ => System.init k 0, fun n hn => absurd (List.getElem?_eq_some_iff.mp hn).1 hi⟩
  obtain ⟨b, hb'⟩ := Classical.axiomOfChoice hex
  let N := d.instances.length
  let st : Nat → Cluster κ := fun n => { d with instances := d.instances.mapIdx fun i (x : Instance κ) => { x with back := b i (turns N i n) } }
  have hget : ∀ n i, (st n).instances[i]? = d.instances[i]?.map fun x : Instance κ => { x with back := b i (turns N i n) } := fun n i => by
    show (d.instances.mapIdx _)[i]? = _
    rw [List.getElem?_mapIdx]
  -- one proxy
  have hone : ∀ (i : Nat) (s : Nat → Instance κ), (∀ n, (st n).instances[i]? = some (s n)) → ∃ x, d.instances[i]? = some x ∧ ∀ n, s n = { x with back := b i (turns N i n) } := fun i s hs => by
    cases hx : d.instances[i]? with
    | none => have := hs 0; rw [hget, hx] at this; cases this
    | some x =>
      refine ⟨x, rfl, fun n => ?_⟩
      have := hs n
      rw [hget, hx] at this
      exact (Option.some.inj this).symm
  refine ⟨st, fun _ => q, ⟨fun n => ?_, fun i s hs => ?_, fun i s hs => ?_, fun i s hs j => ?_, fun i s hs => ?_, fun i s hs => ?_, fun i s hs => ?_,
    fun n p v e => append_ne d.topic p v (congrArg Cluster.topic e)⟩, ?_, fun _ => rfl⟩
  · -- whose turn is it
    by_cases hN : N = 0
    · have : st (n + 1) = st n := by
        have e : d.instances = [] := List.eq_nil_of_length_eq_zero hN
        show ({ d with instances := d.instances.mapIdx _ } : Cluster κ) = { d with instances := d.instances.mapIdx _ }
        rw [e]; rfl
      rw [this]; exact .stay
    · have hlt : n % N < N := Nat.mod_lt _ (by omega)
      have hx := List.getElem?_eq_getElem (show n % N < d.instances.length from hlt)
      generalize d.instances[n % N] = x at hx
      obtain ⟨_, hnext, _⟩ := hb' _ x hx
      have hcur : (st n).instances[n % N]? = some { x with back := b (n % N) (turns N (n % N) n) } := by rw [hget, hx]; rfl
      have hset : st (n + 1) = { st n with instances := (st n).instances.set (n % N) { x with back := b (n % N) (turns N (n % N) n + 1) } } := by
        show ({ d with instances := _ } : Cluster κ) = { d with instances := _ }
        congr 1
        apply List.ext_getElem?
        intro i
        rw [show (d.instances.mapIdx fun i (x : Instance κ) => ({ x with back := b i (turns N i (n + 1)) } : Instance κ)) = (st (n + 1)).instances from rfl, hget]
        by_cases hi : n % N = i
        · subst hi
          rw [List.getElem?_set_self (List.getElem?_eq_some_iff.mp hcur).1, hx]
          show some _ = some _
          rw [show turns N (n % N) (n + 1) = turns N (n % N) n + 1 from if_pos rfl]
        · rw [List.getElem?_set_ne hi, hget, show turns N i (n + 1) = turns N i n from if_neg hi]
      rw [hset]
      rcases hnext (turns N (n % N) n) with e | e | e
      · have : (st n).instances.set (n % N) { x with back := b (n % N) (turns N (n % N) n + 1) } = (st n).instances := by
          rw [e]
          obtain ⟨hl, hh⟩ := List.getElem?_eq_some_iff.mp hcur
          rw [← hh]
          exact List.set_getElem_self hl
        rw [this]; exact .stay
      · exact .step (.back hcur (.back (n := { x with back := b (n % N) (turns N (n % N) n) }) e))
      · exact .step (.back hcur (.event (n := { x with back := b (n % N) (turns N (n % N) n) }) e))
  · obtain ⟨x, hx, hs'⟩ := hone i s hs
    have e : (fun n => (s n).front) = fun _ => x.front := funext fun n => by rw [hs']
    rw [e]
    have hidle := (hd x (List.mem_of_getElem? hx)).1
    exact ⟨fun i he => absurd (he 0).choose_spec.2 (hidle.disabled _), fun n => ⟨n, Nat.le_refl _, .inl (hidle.disabled _)⟩, fun n => ⟨n, Nat.le_refl _, .inl (hidle.disabled _)⟩,
      fun n => ⟨n, Nat.le_refl _, .inl (hidle.disabled _)⟩, fun p n => ⟨n, Nat.le_refl _, .inl (hidle.disabled _)⟩⟩
  · obtain ⟨x, hx, hs'⟩ := hone i s hs
    have e : (fun n => (s n).back) = fun n => b i (turns N i n) := funext fun n => by rw [hs']
    rw [e]
    exact ((hb' i x hx).2.2 _ (turns_slow (List.getElem?_eq_some_iff.mp hx).1)).1
  · obtain ⟨x, hx, hs'⟩ := hone i s hs
    have hup := (hd x (List.mem_of_getElem? hx)).2.1
    refine fun n => ⟨n, Nat.le_refl _, .inl ?_⟩
    rintro ⟨s', hserve⟩
    have hc : (s n).claims = x.claims := by rw [hs']
    cases hserve with
    | skip h1 h2 h3 h4 =>
      rw [hc] at h1
      have := (hup _ (List.mem_of_getElem? h1)).2
      have h5 := (List.getElem?_eq_some_iff.mp h3).1
      exact Nat.not_le_of_lt h5 this
    | call h1 h2 h3 h4 =>
      rw [hc] at h1
      have := (hup _ (List.mem_of_getElem? h1)).2
      have h5 := (List.getElem?_eq_some_iff.mp h3).1
      exact Nat.not_le_of_lt h5 this
    | mark h1 h2 h3 =>
      rw [hc] at h1
      rw [(hup _ (List.mem_of_getElem? h1)).1] at h2
      cases h2
  · obtain ⟨x, hx, hs'⟩ := hone i s hs
    have e : (fun n => (s n).back) = fun n => b i (turns N i n) := funext fun n => by rw [hs']
    rw [e]
    exact ((hb' i x hx).2.2 _ (turns_slow (List.getElem?_eq_some_iff.mp hx).1)).2.1
  · obtain ⟨x, hx, hs'⟩ := hone i s hs
    have e : (fun n => (s n).back) = fun n => b i (turns N i n) := funext fun n => by rw [hs']
    rw [e]
    exact ((hb' i x hx).2.2 _ (turns_slow (List.getElem?_eq_some_iff.mp hx).1)).2.2.1
  · obtain ⟨x, hx, hs'⟩ := hone i s hs
    have e : (fun n => (s n).back) = fun n => b i (turns N i n) := funext fun n => by rw [hs']
    rw [e]
    exact ((hb' i x hx).2.2 _ (turns_slow (List.getElem?_eq_some_iff.mp hx).1)).2.2.2
  · show ({ d with instances := _ } : Cluster κ) = d
    have : (d.instances.mapIdx fun i (x : Instance κ) => ({ x with back := b i (turns N i 0) } : Instance κ)) = d.instances := by
      apply List.ext_getElem?
      intro i
      rw [List.getElem?_mapIdx]
      cases hx : d.instances[i]? with
      | none => rfl
      | some x =>
        show some _ = some x
        rw [show turns N i 0 = 0 from rfl, (hb' i x hx).1]
    rw [this]

/-- The requests, one after the other, before everything else. -/
theorem exists_from (hnd : assignment.flatten.Nodup) (qs : List (Nat × Parsed)) : ∀ (outs : List Parsed) (c : Cluster κ) (q : Nat → List Parsed), Cluster.Settled conv k part assignment outs c →
    c.instances.length = assignment.length → (∀ x ∈ qs, x.1 < assignment.length) → (∀ x, Accepted (outs ++ qs.map (·.2)) x → Small x) →
    ∃ state requests, ClusterTail conv part state requests ∧ state 0 = c ∧ requests 0 = q ∧ (∃ n, ∀ i, requests n i = q i ++ (qs.filter (·.1 = i)).map (·.2)) ∧
      ∀ m i o, o ∈ requests m i → o ∈ q i ∨ (i, o) ∈ qs := by
  induction qs with
  | nil =>
    intro outs c q h _ _ hs
    obtain ⟨d, h1, h2, _⟩ := C69_eventually hnd h (by simpa using hs)
    have hd := h.steps h1
    obtain ⟨st, rq, t1, t2, t3⟩ := tail_end (conv := conv) (k := k) (part := part) q (fun n hn => ⟨(h2 n hn).1, (h2 n hn).2.1.done⟩) (fun n hn =>
      let ⟨_, o, ho, _⟩ := (hd.reachable hnd).inv.instances n hn; ⟨o, ho⟩)
    obtain ⟨state, requests, h3, h4, h5, _⟩ := tail_steps (P := fun _ => True) (fun _ _ _ => trivial) h1 ⟨st, rq, t1, t2, t3, trivial⟩
    exact ⟨state, requests, h3, h4, h5 0, ⟨0, fun i => by rw [h5]; simp⟩, fun m i o ho => .inl (by rw [h5] at ho; exact ho)⟩
  | cons x qs ih =>
    intro outs c q h hlen hi hs
    obtain ⟨i, o⟩ := x
    have hlt : i < c.instances.length := by rw [hlen]; exact hi _ List.mem_cons_self
    have hget := List.getElem?_eq_getElem hlt
    obtain ⟨state, requests, h1, h2, h3, ⟨n, h4⟩, h5⟩ := ih (outs ++ [o]) _ (fun j => if j = i then q j ++ [o] else q j) (.request o h hget) (by rw [List.length_set]; exact hlen)
      (fun x hx => hi x (List.mem_cons_of_mem _ hx)) (by simpa using hs)
    refine ⟨_, _, h1.prepend (q := q) (c := c) (by rw [h2, h3]; exact .request o hget) (by rw [h2]; exact same_closed _), rfl, rfl, ⟨n + 1, fun j => ?_⟩, fun m j o' ho' => ?_⟩
    · show requests n j = _
      rw [h4]
      by_cases hj : j = i
      · subst hj; simp
      · rw [if_neg hj, List.filter_cons_of_neg (by simpa using fun e : i = j => hj e.symm)]
    · cases m with
      | zero => exact .inl ho'
      | succ m =>
        rcases h5 m j o' ho' with h | h
        · by_cases hj : j = i
          · subst hj
            rw [if_pos rfl, List.mem_append, List.mem_singleton] at h
            rcases h with h | rfl
            · exact .inl h
            · exact .inr List.mem_cons_self
          · rw [if_neg hj] at h; exact .inl h
        · exact .inr (List.mem_cons_of_mem _ h)

/-- C105: fair executions exist, with ticks, for all requests whose spans are small. -/
theorem C105_exists (conv : κ → Span → Option Span × κ) (k : κ) (part : List UInt8 → Nat) (hnd : assignment.flatten.Nodup) (qs : List (Nat × Parsed)) (hi : ∀ x ∈ qs, x.1 < assignment.length)
    (hs : ∀ x, Accepted (qs.map (·.2)) x → Small x) : ∃ r : ClusterExecution conv k part assignment, r.Fair ∧ r.AllSmall ∧ (∀ i s, r.Proxy i s → System.TicksAgain fun n => (s n).back) ∧
      ∃ n, ∀ i, r.requests n i = (qs.filter (·.1 = i)).map (·.2) := by
  obtain ⟨state, requests, h1, h2, h3, ⟨n, h4⟩, h5⟩ := exists_from (conv := conv) (k := k) (part := part) hnd qs [] _ (fun _ => []) (.init 0) (by simp [Cluster.assigned]) hi (by simpa using hs)
  refine ⟨⟨state, requests, ⟨0, h2⟩, fun i => by rw [h3], h1.next⟩, ⟨h1.front, h1.back, h1.claim⟩, fun m i x hx => ?_, h1.ticks, n, fun i => by simpa using h4 i⟩
  obtain ⟨l, hl, hx⟩ := hx
  rcases h5 m i _ hl with h | h
  · cases h
  · exact hs x ⟨l, List.mem_map.mpr ⟨_, h, rfl⟩, hx⟩

/-- Two proxies, twelve partitions: two spans of a trace, posted to different proxies, both leave the collector of the second one. -/
theorem C105_witness (conv : κ → Span → Option Span × κ) (k : κ) : ∃ r : ClusterExecution conv k (fun key => (key.headD 0).toNat % 12) [[0, 2, 4, 6, 8, 10], [1, 3, 5, 7, 9, 11]], ∃ s : Nat → Instance κ, ∃ m,
    r.Fair ∧ r.AllSmall ∧ r.Proxy 1 s ∧ (∃ n, r.requests n 0 = [.spans [{ id := 1, trace := 19 }]] ∧ r.requests n 1 = [.spans [{ id := 2, parent := 1, trace := 19 }]]) ∧
      Span.withTags { id := 1, trace := 19 } ∈ (s m).back.world.left ∧ Span.withTags { id := 2, parent := 1, trace := 19 } ∈ (s m).back.world.left := by
  obtain ⟨r, h1, h2, h3, n, h4⟩ := C105_exists conv k (fun key => (key.headD 0).toNat % 12) (assignment := [[0, 2, 4, 6, 8, 10], [1, 3, 5, 7, 9, 11]]) (by decide)
    [(0, .spans [{ id := 1, trace := 19 }]), (1, .spans [{ id := 2, parent := 1, trace := 19 }])] (by simp) (by
      rintro x ⟨l, hl, hx⟩
      simp only [List.map_cons, List.map_nil, List.mem_cons, List.not_mem_nil, or_false, Parsed.spans.injEq] at hl
      rcases hl with rfl | rfl
      all_goals
        rw [List.mem_singleton] at hx
        subst hx
        exact C104_small (by decide +kernel))
  have hnd : ∀ ps ∈ ([[0, 2, 4, 6, 8, 10], [1, 3, 5, 7, 9, 11]] : List (List Nat)), ps.Nodup := by decide
  obtain ⟨s0, hs0⟩ := r.proxy (i := 0) (by decide)
  obtain ⟨s, hs⟩ := r.proxy (i := 1) (by decide)
  have e0 : r.requests n 0 = [.spans [{ id := 1, trace := 19 }]] := h4 0
  have e1 : r.requests n 1 = [.spans [{ id := 2, parent := 1, trace := 19 }]] := h4 1
  obtain ⟨m0, _, hm0⟩ := C105_fate h1 h2 hnd h3 hs0 (n := n) (c := 0) (l := [{ id := 1, trace := 19 }]) (by rw [e0]; rfl)
  obtain ⟨m1, _, hm1⟩ := C105_fate h1 h2 hnd h3 hs (n := n) (c := 0) (l := [{ id := 2, parent := 1, trace := 19 }]) (by rw [e1]; rfl)
  refine ⟨r, s, max m0 m1, h1, h2, hs, ⟨n, e0, e1⟩, ?_, ?_⟩
  · have := ((hm0 (max m0 m1) (by omega)).2 1 _ 7 rfl (by decide) s hs).1
    exact this.subset (by
      rw [List.mem_filter, List.mem_map]
      refine ⟨⟨_, ?_, rfl⟩, by decide +kernel⟩
      unfold goTo
      rw [List.mem_filter]
      exact ⟨List.mem_cons_self, by decide +kernel⟩)
  · have := ((hm1 (max m0 m1) (by omega)).2 1 _ 7 rfl (by decide) s hs).1
    exact this.subset (by
      rw [List.mem_filter, List.mem_map]
      refine ⟨⟨_, ?_, rfl⟩, by decide +kernel⟩
      unfold goTo
      rw [List.mem_filter]
      exact ⟨List.mem_cons_self, by decide +kernel⟩)

end Verif
