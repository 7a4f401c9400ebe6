import Verif.Proofs.Pieces
import Verif.Props.Settling

/-!
# A trace that is posted in pieces to several proxies gets to Datadog in one: C106
-/

namespace Verif

open Spec

variable {part : List UInt8 → Nat} {assignment : List (List Nat)} {r : ClusterExecution plainConverter () part assignment}

theorem sender_back {κ : Type} {conv : κ → Span → Option Span × κ} {k : κ} {b : Execution conv k} {s : Nat → System κ} (hb : ∀ n, b.state n = s n) (h : System.SenderFairSeq s) : b.SenderFair := by
  have e : b.state = s := funext hb
  subst e
  exact ⟨h.take, h.send⟩

theorem sinkTicks_back {κ : Type} {conv : κ → Span → Option Span × κ} {k : κ} {b : Execution conv k} {s : Nat → System κ} (hb : ∀ n, b.state n = s n) (h : System.SinkTicksAgain s) : b.SinkTicks := by
  have e : b.state = s := funext hb
  subst e
  exact h

/-- What the collector receives of a healthy trace are spans of it, and it looks at them in time: they are sent in one call. -/
theorem one_call {e : Execution plainConverter ()} {s : Nat → System Unit} (hst : ∀ n, e.state n = s n) (hf : e.Fair) (hs : System.SenderFairSeq s) (ht : System.SinkTicksAgain s)
    {k : Id} {l : List Span} (hh : Healthy k l) (hsub : ∀ m, List.Subperm (receivedFor k (s m).world.received) (l.map Span.withTags))
    {n n1 n2 : Nat} {es fs : List CEvent} {a b : Time} {i : TickInput} (hfresh : receivedFor k (s n).world.received = []) (hrun : Runs (s n).world es (s n1).world)
    (hq : Quick k es) (hc : Calm (s n).world es) (harr : l.length ≤ (receivedFor k (s n1).world.received).length) (htimes : timesOf k es = some (a, b))
    (hn1 : n1 ≤ n2) (hrun' : Runs (s n1).world (fs ++ [.tick i]) (s n2).world) (hc' : Calm (s n1).world (fs ++ [.tick i]))
    (hlate : b + 8000000000 ≤ i.now1) (hby : TicksBy (a + 10000000000) (fs ++ [.tick i])) :
    ∃ spans, (spans.map Span.withTags).Perm (l.map Span.withTags) ∧
      (∃ m, n2 ≤ m ∧ (OneCall (s m) spans ∨ InDiscarded (s m) spans)) ∧
      ∀ m, n2 ≤ m → List.Subperm ((s m).sent.flatten.flatten.filter fun d => d.traceID = k.toUInt64) (spans.map toDatadog) := by
  have hlen : ∀ m, (receivedFor k (s m).world.received).length ≤ l.length := fun m => by have := (hsub m).length_le; rwa [List.length_map] at this
  have rec1 : receivedFor k (s n1).world.received = spansOf k es := by rw [hrun.received k, hfresh, List.nil_append]
  have hperm : (spansOf k es).Perm (l.map Span.withTags) := by
    rw [← rec1]
    exact (hsub n1).perm_of_length_le (by rw [List.length_map]; exact harr)
  have hperm' : ((spansOf k es).map Span.withTags).Perm (l.map Span.withTags) := by
    have := hperm.map Span.withTags
    rw [List.map_map] at this
    exact this.trans (.of_eq (List.map_congr_left fun x _ => by simp [Span.withTags]))
  have mono : ∀ {m m' : Nat}, m ≤ m' → receivedFor k (s m).world.received <+: receivedFor k (s m').world.received := fun {m m'} hm => by
    obtain ⟨gs, hgs⟩ := e.runs hm
    rw [hst, hst] at hgs
    rw [hgs.received k]
    exact List.prefix_append _ _
  have hlast : ∀ m, receivedFor k (s m).world.received <+: spansOf k es := fun m => by
    rw [← rec1]
    rcases Nat.le_total m n1 with hm | hm
    · exact mono hm
    · have := (mono hm).eq_of_length (by have h1 := hlen m; have h2 := (mono hm).length_le; omega)
      rw [this]
      exact List.prefix_rfl
  have key := C102_intact hf (sender_back hst hs) (sinkTicks_back hst ht) (k := k) (n := n) (n1 := n1) (n2 := n2) (es := es) (fs := fs) (a := a) (b := b) (i := i)
  simp only [hst] at key
  obtain ⟨spans, h1, h2, h3⟩ := key hfresh hrun hq hc (hh.of_perm hperm') htimes hn1 hrun' hc' hlate hby hlast
  exact ⟨spans, h1.trans hperm', h2, h3⟩

/-- Of a trace of which the collector received nothing, nothing is sent. -/
theorem nothing_sent {e : Execution plainConverter ()} {s : System Unit} {m : Nat} (hst : e.state m = s) {k : Id} (hno : receivedFor k s.world.received = []) :
    (s.sent.flatten.flatten.filter fun d => d.traceID = k.toUInt64) = [] := by
  rw [← hst] at hno ⊢
  have habs := (fresh_absent (reachable_inv (e.world m)) hno).2
  have := sink_trace (r := e) k m
  rw [show (e.state m).world.removed.filter (fun q => q.id == k) = [] from List.filter_eq_nil_iff.mpr fun q hq => by simpa using habs q hq] at this
  exact List.subperm_nil.mp (sent_trace (out := []) this)

/-- C106: the spans of a healthy trace, posted in any pieces to any proxies. The one proxy to which its partition is assigned sends them to Datadog, in one call as one trace; no other proxy sends anything of it. -/
theorem C106_pieces (h : r.Fair) (hclosed : r.Closed) (hnd : assignment.flatten.Nodup)
    -- the trace, and the proxy to which its partition is assigned
    {k : Id} {l : List Span} (hh : Healthy k l) {i0 : Nat} {s : Nat → Instance Unit} (hi : r.Proxy i0 s) {ps : List Nat} (hps : assignment[i0]? = some ps) (hp : partitionOf part k ∈ ps)
    (hs : System.SenderFairSeq fun n => (s n).back) (ht : System.SinkTicksAgain fun n => (s n).back)
    -- what is ever posted of this trace, to all proxies, are these spans
    (hposted : ∀ m, List.Subperm (r.posted k m) l)
    -- they come to the collector of this proxy
    {n n1 n2 : Nat} {es fs : List CEvent} {a b : Time} {i : TickInput} (hfresh : receivedFor k (s n).back.world.received = []) (hrun : Runs (s n).back.world es (s n1).back.world)
    (hq : Quick k es) (hc : Calm (s n).back.world es) (harr : l.length ≤ (receivedFor k (s n1).back.world.received).length) (htimes : timesOf k es = some (a, b))
    -- which then looks at them in time
    (hn1 : n1 ≤ n2) (hrun' : Runs (s n1).back.world (fs ++ [.tick i]) (s n2).back.world) (hc' : Calm (s n1).back.world (fs ++ [.tick i]))
    (hlate : b + 8000000000 ≤ i.now1) (hby : TicksBy (a + 10000000000) (fs ++ [.tick i])) :
    (∃ spans, (spans.map Span.withTags).Perm (l.map Span.withTags) ∧
      (∃ m, n2 ≤ m ∧ (OneCall (s m).back spans ∨ InDiscarded (s m).back spans)) ∧
      ∀ m, n2 ≤ m → List.Subperm ((s m).back.sent.flatten.flatten.filter fun d => d.traceID = k.toUInt64) (spans.map toDatadog)) ∧
    ∀ j sj, r.Proxy j sj → j ≠ i0 → ∀ m, ((sj m).back.sent.flatten.flatten.filter fun d => d.traceID = k.toUInt64) = [] := by
  have hnd' := (List.pairwise_flatten.mp hnd).1
  constructor
  · obtain ⟨e, calls, log, hf, _⟩ := Proxy.fair h hi hps (hnd' ps (List.mem_of_getElem? hps))
    exact one_call (s := fun n => (s n).back) hf.state hf.fair hs ht hh (fun m => (Closed.received hclosed hnd hi hps hp m).trans (subperm_map _ (hposted m))) hfresh hrun hq hc harr htimes hn1 hrun' hc' hlate hby
  · intro j sj hj hij m
    have hlt : j < assignment.length := by
      have := (List.getElem?_eq_some_iff.mp (hj 0)).1
      obtain ⟨_, _, _, hl⟩ := hclosed.settled 0
      omega
    have hqs := List.getElem?_eq_getElem hlt
    obtain ⟨e, calls, log, hf, _⟩ := Proxy.fair h hj hqs (hnd' _ (List.mem_of_getElem? hqs))
    exact nothing_sent (hf.state m) (Closed.elsewhere hclosed hnd hj hps hp hij m)

/-! ## An execution in which this happens -/

/-- The two spans of a trace, in 2020. -/
def rootPiece : Span := { id := 7, trace := 9, parent := 7, name := b!"n", service := b!"s", timestamp := 1577836800000000001, duration := 5000 }
def childPiece : Span := { id := 8, trace := 9, parent := 7, name := b!"m", service := b!"s", timestamp := 1577836800000000501, duration := 3000 }

theorem pieces_healthy : Healthy 9 [rootPiece, childPiece] := by
  refine ⟨by decide, by decide, by decide, by decide, ⟨rootPiece, ⟨by simp, .inl rfl⟩, fun q hq => ?_⟩, by decide, fun s hs ha => ?_⟩
  · obtain ⟨h1, h2⟩ := hq
    rcases List.mem_pair.mp h1 with rfl | rfl
    · rfl
    · exact absurd h2 (by decide)
  · rcases List.mem_pair.mp hs with rfl | rfl
    · exact absurd ha (by decide)
    · exact absurd ha (by decide)

theorem instance_steps {κ : Type} {conv : κ → Span → Option Span × κ} {part : List UInt8 → Nat} {c : Cluster κ} {is : List (Instance κ)} {i : Nat} {n n' : Instance κ} {x : Option Span}
    (h : Cluster.Steps conv part c { instances := is.set i n, topic := c.topic }) (hi : i < is.length) (hs : n.Step conv c.topic n' x) :
    Cluster.Steps conv part c { instances := is.set i n', topic := c.topic } := by
  have := Cluster.Step.back (part := part) (c := { instances := is.set i n, topic := c.topic }) (i := i) (n := n) (n' := n') (x := x) (List.getElem?_set_self hi) hs
  rw [List.set_set] at this
  exact .step h this

/-- A message is consumed, from the call to its mark. -/
theorem consume_steps {κ : Type} {conv : κ → Span → Option Span × κ} {part : List UInt8 → Nat} {c : Cluster κ} {is : List (Instance κ)} {i : Nat} {f : Front} {p o : Nat} {v : List UInt8} {y : Span} {b : System κ}
    (h : Cluster.Steps conv part c { instances := is.set i { front := f, claims := [{ partition := p, offset := o }], back := b }, topic := c.topic }) (hi : i < is.length)
    (hv : (c.topic p)[o]? = some v) (hy : decodeKafkaMessage v = some y) (hch : b.http.channel = []) (hout : b.outbox = []) (hclock : b.world.clock = 0) :
    Cluster.Steps conv part c { instances := is.set i { front := f, claims := [{ partition := p, offset := o + 1 }], back := { b with http := { conns := b.http.conns ++ [.answered 202], channel := [] }, world := b.world.receive 0 0 y } }, topic := c.topic } := by
  have last : ∀ (l : List Conn) (x : Conn), (l ++ [x])[l.length]? = some x := fun l x => by simp
  have swap : ∀ (l : List Conn) (x y : Conn), (l ++ [x]).set l.length y = l ++ [y] := fun l x y => by simp
  have h1 := instance_steps h hi (.call (j := 0) rfl rfl hv hy)
  have h2 := instance_steps h1 hi (.back (.http (.push (i := b.http.conns.length) (s := y) (rest := []) _ (last _ _) (by dsimp only; rw [hch]; decide))))
  dsimp only [] at h2
  rw [swap, hch, List.nil_append] at h2
  have h3 := instance_steps h2 hi (.back (.collect 0 0 hout rfl (by show b.world.clock ≤ 0; rw [hclock]) (Int.le_refl _)))
  have h4 := instance_steps h3 hi (.back (.http (.accept (i := b.http.conns.length) _ (last _ _))))
  dsimp only [] at h4
  rw [swap] at h4
  have h5 := instance_steps h4 hi (.mark (j := 0) rfl rfl (last _ _))
  exact h5

theorem calm_of_no_tick {w : World} {es : List CEvent} (h : ∀ i, CEvent.tick i ∉ es) : Calm w es := fun _ i _ hp _ =>
  absurd (hp.subset (List.mem_append_right _ List.mem_cons_self)) (h i)

theorem quick_of_no_tick {k : Id} {es : List CEvent} (h : ∀ i, CEvent.tick i ∉ es) : Quick k es := fun _ i _ _ hp _ =>
  absurd (hp.subset (List.mem_append_right _ List.mem_cons_self)) (h i)

theorem runs_nil {w u : World} (h : Runs w [] u) : u = w := by
  generalize hes : ([] : List CEvent) = es at h
  cases h with
  | nil => rfl
  | receive _ _ _ _ _ _ => simp at hes
  | tick _ _ _ _ => simp at hes

/-- Two proxies, with a request each. -/
def twoRequests : Cluster Unit :=
  { instances := [{ front := { http := { conns := [Conn.start (.spans [rootPiece])] } }, claims := [{ partition := 1, offset := 0 }], back := System.init () 0 },
      { front := { http := { conns := [Conn.start (.spans [childPiece])] } }, claims := [{ partition := 0, offset := 0 }], back := System.init () 0 }] }

/-- The two spans are posted to different proxies; both get into the topic. -/
theorem pieces_written : ∃ (d : Cluster Unit) (f0 f1 : Front) (v1 v2 : List UInt8) (y1 y2 : Span),
    twoRequests.Steps plainConverter (fun _ => 0) d ∧ Cluster.Settled plainConverter () (fun _ => 0) [[1], [0]] [.spans [rootPiece], .spans [childPiece]] d ∧ f0.Idle ∧ f1.Idle ∧
    d.instances = [{ front := f0, claims := [{ partition := 1, offset := 0 }], back := System.init () 0 }, { front := f1, claims := [{ partition := 0, offset := 0 }], back := System.init () 0 }] ∧
    (∀ p, p ≠ 0 → d.topic p = []) ∧ d.topic 0 = [v1, v2] ∧ decodeKafkaMessage v1 = some y1 ∧ decodeKafkaMessage v2 = some y2 ∧
    ((y1 = rootPiece.withTags ∧ y2 = childPiece.withTags) ∨ (y1 = childPiece.withTags ∧ y2 = rootPiece.withTags)) := by
  have hnd : ([[1], [0]] : List (List Nat)).flatten.Nodup := by decide
  -- the requests
  have h0 : Cluster.Settled plainConverter () (fun _ => 0) [[1], [0]] [] _ := .init 0
  have h1 := Cluster.Settled.request (i := 0) (.spans [rootPiece]) h0 rfl
  have h2 := Cluster.Settled.request (i := 1) (.spans [childPiece]) h1 rfl
  have hsmall : ∀ x, Accepted ([] ++ [Parsed.spans [rootPiece]] ++ [.spans [childPiece]]) x → Small x := by
    rintro x ⟨l, hl, hx⟩
    simp at hl
    rcases hl with rfl | rfl
    all_goals
      rw [List.mem_singleton] at hx
      subst hx
      exact C104_small (by decide +kernel)
  -- the fronts send everything
  obtain ⟨d, hsteps, hidle, hsame⟩ := settled_fronts hnd h2 hsmall
  have hd := h2.steps hsteps
  obtain ⟨gs, inv⟩ := hd.inv (List.pairwise_flatten.mp hnd).1
  obtain ⟨f0, hf0⟩ := hsame 0 _ rfl
  obtain ⟨f1, hf1⟩ := hsame 1 _ rfl
  have hlen : d.instances.length = 2 := by
    have : ∀ {c d : Cluster Unit}, c.Steps plainConverter (fun _ => 0) d → d.instances.length = c.instances.length := by
      intro c d hs
      induction hs with
      | refl => rfl
      | step _ hs ih => cases hs <;> simpa using ih
    rw [this hsteps]; rfl
  have hins : d.instances = [{ front := f0, claims := [{ partition := 1, offset := 0 }], back := System.init () 0 }, { front := f1, claims := [{ partition := 0, offset := 0 }], back := System.init () 0 }] := by
    match e : d.instances, hlen with
    | [a, b], _ =>
      rw [e] at hf0 hf1
      rw [Option.some.inj hf0, Option.some.inj hf1]
      rfl
  -- what is in the topic
  have hacc : ∀ t, spansOfTrace t (acceptedSpans ([] ++ [Parsed.spans [rootPiece]] ++ [.spans [childPiece]])) = if t = 9 then [rootPiece, childPiece] else [] := fun t => by
    by_cases ht : t = 9
    · subst ht; rfl
    · rw [if_neg ht]
      refine List.filter_eq_nil_iff.mpr fun x hx hxt => ht ?_
      rw [decide_eq_true_eq] at hxt
      rw [← hxt]
      rcases List.mem_pair.mp (show x ∈ [rootPiece, childPiece] from hx) with rfl | rfl <;> rfl
  have hdec : ∀ (p : Nat) (v : List UInt8), v ∈ d.topic p → p = 0 ∧ ∃ y, decodeKafkaMessage v = some y ∧ y.trace = 9 := fun p v hv => by
    obtain ⟨x, hx, rfl, hp⟩ := inv.value hv
    have hp0 : p = 0 := hp
    subst hp0
    refine ⟨rfl, _, hx.decode, ?_⟩
    have := (inv.idle hidle x.1.withTags.trace).subset (List.mem_filter.mpr ⟨List.mem_filterMap.mpr ⟨_, hv, hx.decode⟩, by simp⟩)
    rw [hacc] at this
    by_cases ht : x.1.withTags.trace = 9
    · exact ht
    · rw [if_neg ht] at this; cases this
  have hperm : ((d.topic 0).filterMap decodeKafkaMessage).Perm [rootPiece.withTags, childPiece.withTags] := by
    have := inv.idle hidle 9
    rw [hacc, if_pos rfl] at this
    rw [show spansOfTrace 9 ((d.topic (partitionOf (fun _ => 0) 9)).filterMap decodeKafkaMessage) = (d.topic 0).filterMap decodeKafkaMessage from
      List.filter_eq_self.mpr fun x hx => by
        obtain ⟨v, hv, hx⟩ := List.mem_filterMap.mp hx
        obtain ⟨_, y, hy, ht⟩ := hdec _ v hv
        rw [hx] at hy; cases hy
        simpa using ht] at this
    exact this
  have hempty : ∀ p, p ≠ 0 → d.topic p = [] := fun p hp => by
    cases e : d.topic p with
    | nil => rfl
    | cons v l => exact absurd (hdec p v (by rw [e]; exact List.mem_cons_self)).1 hp
  obtain ⟨v1, v2, y1, y2, htop, hy1, hy2, hys⟩ : ∃ v1 v2 y1 y2, d.topic 0 = [v1, v2] ∧ decodeKafkaMessage v1 = some y1 ∧ decodeKafkaMessage v2 = some y2 ∧
      ((y1 = rootPiece.withTags ∧ y2 = childPiece.withTags) ∨ (y1 = childPiece.withTags ∧ y2 = rootPiece.withTags)) := by
    have hlen2 : ∀ l : List (List UInt8), (∀ v ∈ l, ∃ y, decodeKafkaMessage v = some y) → (l.filterMap decodeKafkaMessage).length = l.length := by
      intro l hl
      induction l with
      | nil => rfl
      | cons v l ih =>
        obtain ⟨y, hy⟩ := hl v List.mem_cons_self
        rw [List.filterMap_cons_some hy, List.length_cons, List.length_cons, ih fun v hv => hl v (List.mem_cons_of_mem _ hv)]
    have e := hlen2 (d.topic 0) fun v hv => let ⟨_, y, hy, _⟩ := hdec 0 v hv; ⟨y, hy⟩
    rw [hperm.length_eq] at e
    match e' : d.topic 0, e with
    | [v1, v2], _ =>
      obtain ⟨_, y1, hy1, _⟩ := hdec 0 v1 (by rw [e']; simp)
      obtain ⟨_, y2, hy2, _⟩ := hdec 0 v2 (by rw [e']; simp)
      refine ⟨v1, v2, y1, y2, rfl, hy1, hy2, ?_⟩
      rw [e', List.filterMap_cons_some hy1, List.filterMap_cons_some hy2, List.filterMap_nil] at hperm
      have m1 := List.mem_pair.mp (hperm.subset (show y1 ∈ [y1, y2] by simp))
      have m2 := List.mem_pair.mp (hperm.subset (show y2 ∈ [y1, y2] by simp))
      have hne : y1 ≠ y2 := by
        have : [y1, y2].Nodup := hperm.nodup_iff.mpr (by
          rw [List.nodup_cons]
          exact ⟨fun h => absurd (congrArg Span.id (List.mem_singleton.mp h)) (by decide), by simp⟩)
        simpa using this
      rcases m1 with h | h <;> rcases m2 with h' | h'
      · exact absurd (h.trans h'.symm) hne
      · exact .inl ⟨h, h'⟩
      · exact .inr ⟨h, h'⟩
      · exact absurd (h.trans h'.symm) hne
  exact ⟨d, f0, f1, v1, v2, y1, y2, hsteps, hd, hidle _ (List.mem_of_getElem? hf0), hidle _ (List.mem_of_getElem? hf1), hins, hempty, htop, hy1, hy2, hys⟩

/-- Two proxies. The two spans are posted to different proxies; both get to the collector of the second one. -/
theorem C106_witness : ∃ (r : ClusterExecution plainConverter () (fun _ => 0) [[1], [0]]) (s : Nat → Instance Unit) (n1 n2 : Nat) (es : List CEvent) (i : TickInput),
    r.Fair ∧ r.Closed ∧ r.Proxy 1 s ∧ System.SenderFairSeq (fun n => (s n).back) ∧ System.SinkTicksAgain (fun n => (s n).back) ∧
    r.requests 2 0 = [.spans [rootPiece]] ∧ r.requests 2 1 = [.spans [childPiece]] ∧ (∀ m, List.Subperm (r.posted 9 m) [rootPiece, childPiece]) ∧
    receivedFor 9 (s 0).back.world.received = [] ∧ Runs (s 0).back.world es (s n1).back.world ∧ Quick 9 es ∧ Calm (s 0).back.world es ∧
    2 ≤ (receivedFor 9 (s n1).back.world.received).length ∧ timesOf 9 es = some (0, 0) ∧ n1 ≤ n2 ∧ Runs (s n1).back.world ([] ++ [.tick i]) (s n2).back.world ∧
    Calm (s n1).back.world ([] ++ [.tick i]) ∧ (0 : Time) + 8000000000 ≤ i.now1 ∧ TicksBy (0 + 10000000000) ([] ++ [.tick i]) := by
  have hnd : ([[1], [0]] : List (List Nat)).flatten.Nodup := by decide
  obtain ⟨d, f0, f1, v1, v2, y1, y2, hsteps, hd, hid0, hid1, hins, hempty, htop, hy1, hy2, hys⟩ := pieces_written
  have hid : f0.Idle ∧ f1.Idle := ⟨hid0, hid1⟩
  have hlen : d.instances.length = 2 := by rw [hins]; rfl
  -- the second proxy consumes the two messages
  let b1 : System Unit := { System.init () 0 with http := { conns := [.answered 202], channel := [] }, world := (System.init () 0).world.receive 0 0 y1 }
  let b2 : System Unit := { b1 with http := { conns := [.answered 202, .answered 202], channel := [] }, world := b1.world.receive 0 0 y2 }
  let n0 : Instance Unit := { front := f0, claims := [{ partition := 1, offset := 0 }], back := System.init () 0 }
  let c1 : Cluster Unit := { instances := [n0, { front := f1, claims := [{ partition := 0, offset := 2 }], back := b2 }], topic := d.topic }
  have hs1 : d.Steps plainConverter (fun _ => 0) c1 := by
    have g0 : d.Steps plainConverter (fun _ => 0) { instances := d.instances.set 1 { front := f1, claims := [{ partition := 0, offset := 0 }], back := System.init () 0 }, topic := d.topic } := by
      have : ({ instances := d.instances.set 1 { front := f1, claims := [{ partition := 0, offset := 0 }], back := System.init () 0 }, topic := d.topic } : Cluster Unit) = d := by
        have : d.instances.set 1 { front := f1, claims := [{ partition := 0, offset := 0 }], back := System.init () 0 } = d.instances := by rw [hins]; rfl
        rw [this]
      rw [this]; exact .refl
    have g1 := consume_steps (i := 1) (o := 0) g0 (by rw [hlen]; decide) (by rw [htop]; rfl) hy1 rfl rfl rfl
    have g2 := consume_steps (i := 1) (o := 1) (b := b1) g1 (by rw [hlen]; decide) (by rw [htop]; rfl) hy2 rfl rfl rfl
    rw [hins] at g2
    exact g2
  have hc1 := hd.steps hs1
  -- a tick after 8 seconds
  obtain ⟨i, hv, hn1, hn2, _⟩ := exists_valid b2.world.c 8000000000 8000000000 (fun _ => 0) (Int.le_refl _)
  have hclock : b2.world.clock ≤ i.now1 := by
    rw [hn1]
    show (0 : Int) ≤ 8000000000
    decide
  let b3 : System Unit := { b2 with world := b2.world.tick i, outbox := emittedOf (b2.world.c.tick i).2 }
  let c2 : Cluster Unit := { instances := [n0, { front := f1, claims := [{ partition := 0, offset := 2 }], back := b3 }], topic := d.topic }
  have st2 : c1.Step plainConverter (fun _ => 0) c2 := Cluster.Step.back (i := 1) rfl (.event (b := b3) (.tick i rfl hv hclock))
  have hc2 := hc1.steps (.step .refl st2)
  -- and from there on, they take turns
  let q : Nat → List Parsed := fun j => if j = 1 then (if j = 0 then [Parsed.spans [rootPiece]] else []) ++ [.spans [childPiece]] else if j = 0 then [Parsed.spans [rootPiece]] else []
  obtain ⟨st, rq, t1, t2, t3⟩ := tail_end (conv := plainConverter) (k := ()) (part := fun _ => 0) (d := c2) q (fun n hn => by
    rcases List.mem_pair.mp hn with rfl | rfl
    · refine ⟨hid.1, fun cl hcl => ?_, rfl⟩
      rw [List.mem_singleton.mp hcl]
      exact ⟨rfl, by show (d.topic 1).length ≤ 0; rw [hempty 1 (by decide)]; rfl⟩
    · refine ⟨hid.2, fun cl hcl => ?_, rfl⟩
      rw [List.mem_singleton.mp hcl]
      exact ⟨rfl, by show (d.topic 0).length ≤ 2; rw [htop]; rfl⟩)
    (fun n hn => let ⟨_, o, ho, _⟩ := (hc2.reachable hnd).inv.instances n hn; ⟨o, ho⟩)
  have p2 := t1.prepend (q := q) (c := c1) (by rw [t2, t3]; exact .step st2) (by rw [t2]; exact st2.closed)
  obtain ⟨st', rq', p3, p4, p5, n1, n2, e0, e1, e2⟩ := tail_steps (P := fun s => ∃ n1 n2, n1 ≤ n2 ∧ s n1 = c1 ∧ s n2 = c2) (fun c s ⟨n1, n2, h0, h1, h2⟩ => ⟨n1 + 1, n2 + 1, by omega, h1, h2⟩)
    (hsteps.trans hs1) (q := q) ⟨_, _, p2, rfl, fun n => by cases n with | zero => rfl | succ n => exact t3 n, 0, 1, by omega, rfl, t2⟩
  let c0 : Cluster Unit := { instances := [{ front := { http := { conns := [Conn.start (.spans [rootPiece])] } }, claims := [{ partition := 1, offset := 0 }], back := System.init () 0 },
      { claims := [{ partition := 0, offset := 0 }], back := System.init () 0 }] }
  have p6 := p3.prepend (q := fun j => if j = 0 then [Parsed.spans [rootPiece]] else []) (c := c0) (by
    rw [p4, p5]
    exact .request (c := c0) (i := 1) (n := { claims := [{ partition := 0, offset := 0 }], back := System.init () 0 }) (.spans [childPiece]) rfl) (by rw [p4]; exact same_closed (c := c0) _)
  have p7 := p6.prepend (q := fun _ => []) (c := Cluster.assigned () 0 [[1], [0]])
    (.request (c := Cluster.assigned () 0 [[1], [0]]) (i := 0) (n := { claims := [{ partition := 1, offset := 0 }], back := System.init () 0 }) (.spans [rootPiece]) rfl)
    (same_closed (c := Cluster.assigned () 0 [[1], [0]]) c0.instances)
  let r : ClusterExecution plainConverter () (fun _ => 0) [[1], [0]] := ⟨_, _, ⟨0, rfl⟩, fun _ => rfl, p7.next⟩
  obtain ⟨s, hs⟩ := r.proxy (i := 1) (by decide)
  have w0 : (s 0).back.world = (System.init () 0).world := by
    have : s 0 = { claims := [{ partition := 0, offset := 0 }], back := System.init () 0 } := Option.some.inj ((hs 0).symm.trans rfl)
    rw [this]
  have w1 : (s (n1 + 2)).back.world = b2.world := by
    have := hs (n1 + 2)
    rw [show r.state (n1 + 2) = c1 from e1] at this
    rw [← Option.some.inj this]
  have w2 : (s (n2 + 2)).back.world = b2.world.tick i := by
    have := hs (n2 + 2)
    rw [show r.state (n2 + 2) = c2 from e2] at this
    rw [← Option.some.inj this]
  have hy : Traced y1 ∧ y1.trace = 9 ∧ Traced y2 ∧ y2.trace = 9 := by
    rcases hys with ⟨rfl, rfl⟩ | ⟨rfl, rfl⟩ <;> decide +kernel
  refine ⟨r, s, n1 + 2, n2 + 2, [.receive 0 0 y1] ++ [.receive 0 0 y2], i, ⟨p7.front, p7.back, p7.claim⟩, p7.closed, hs, p7.sender 1 s hs, p7.sinkTicks 1 s hs,
    congrFun (p5 0) 0, congrFun (p5 0) 1, fun m => ?_, by rw [w0]; rfl, ?_, quick_of_no_tick (by simp), calm_of_no_tick (by simp), ?_, ?_, by omega, ?_, ?_, by rw [hn1]; decide, ?_⟩
  · match m with
    | 0 => exact List.nil_sublist _ |>.subperm
    | 1 => exact (List.Sublist.cons_cons rootPiece (List.nil_sublist [childPiece])).subperm
    | m + 2 =>
      have : r.requests (m + 2) = q := p5 m
      show List.Subperm (spansOfTrace 9 (acceptedSpans ((List.range 2).flatMap (r.requests (m + 2))))) _
      rw [this]
      exact List.Subperm.refl _
  · rw [w0, w1]
    exact .receive 0 0 y2 (.receive (es := []) 0 0 y1 .nil (Int.le_refl _) (Int.le_refl _)) (Int.le_refl _) (Int.le_refl _)
  · rw [w1]
    show 2 ≤ (receivedFor 9 ([] ++ [y1] ++ [y2])).length
    unfold receivedFor
    rw [List.filter_eq_self.mpr]
    · exact Nat.le_refl 2
    · intro x hx
      simp only [List.nil_append, List.cons_append, List.mem_pair] at hx
      rcases hx with rfl | rfl <;> simp [hy]
  · simp [timesOf, hy]
  · rw [w1, w2]
    exact .tick (es := []) i .nil hv hclock
  · intro pre j u hp hu
    have hl := hp.length_le
    match pre, hp with
    | [], _ =>
      rw [runs_nil hu, w1]
      show counted (World.receive (World.receive { clock := 0 } 0 0 y1) 0 0 y2).c.traces.toList ≤ 100000
      rcases hys with ⟨rfl, rfl⟩ | ⟨rfl, rfl⟩ <;> decide +kernel
    | x :: pre, hp => simp at hl
  · intro pre j hp
    have hl := hp.length_le
    match pre, hp with
    | [], ⟨t, ht⟩ =>
      simp at ht
      rw [ht.1, hn2]
      decide
    | x :: pre, hp => simp at hl

/-- They are sent to Datadog in one call. -/
theorem C106_example : ∃ (r : ClusterExecution plainConverter () (fun _ => 0) [[1], [0]]) (s : Nat → Instance Unit), r.Proxy 1 s ∧ r.requests 2 0 = [.spans [rootPiece]] ∧ r.requests 2 1 = [.spans [childPiece]] ∧
    ∃ spans, (spans.map Span.withTags).Perm [rootPiece.withTags, childPiece.withTags] ∧ ∃ m, OneCall (s m).back spans ∨ InDiscarded (s m).back spans := by
  obtain ⟨r, s, n1, n2, es, i, h, hcl, hi, hs, ht, q0, q1, hpost, hfresh, hrun, hq, hc, harr, htimes, hn, hrun', hc', hlate, hby⟩ := C106_witness
  obtain ⟨⟨spans, h1, ⟨m, _, h2⟩, _⟩, _⟩ := C106_pieces h hcl (by decide) pieces_healthy hi (ps := [0]) rfl (by decide) hs ht hpost hfresh hrun hq hc harr htimes hn hrun' hc' hlate hby
  exact ⟨r, s, hi, q0, q1, spans, h1, m, h2⟩

end Verif
