import Verif.Proofs.Moved
import Verif.Props.Pieces
import Verif.Props.Recovery
import Verif.Props.Account
import Verif.Props.Clocks

/-!
# Traces while partitions move from proxy to proxy: C151
-/

namespace Verif

open Spec

section
variable {part : List UInt8 → Nat} {r : Recovery plainConverter () part}

/-- C151, partial: whatever happened before, the spans of a healthy trace of which nothing was posted before the last upheaval, posted in any pieces to any proxies, are sent to Datadog in one call as one trace by
the proxy that has its partition; no other proxy sends anything of it. Missing: traces that are posted while their partition moves (`C151_fails`). -/
theorem C151_partial (h : r.Fair)
    -- the trace is new, and the proxies alone write it
    {k : Id} (hnew : r.New k) (hclosed : r.ClosedFor k) {l : List Span} (hh : Healthy k l)
    -- the proxy to which its partition is assigned now
    {i0 : Nat} {s : Nat → Instance Unit} (hi : r.Proxy i0 s) {cl : Claim} (hcl : cl ∈ (s 0).claims) (hp : cl.partition = partitionOf part k)
    (hs : System.SenderFairSeq fun n => (s n).back) (ht : System.SinkTicksAgain fun n => (s n).back)
    -- what is ever posted of this trace, to all proxies, are these spans
    (hposted : ∀ m, List.Subperm (r.posted k m) l)
    -- they come to the collector of this proxy
    {n n1 n2 : Nat} {es fs : List CEvent} {a b : Time} {i : TickInput} (hrun : Runs (s n).back.world es (s n1).back.world) (hfresh : receivedFor k (s n).back.world.received = [])
    (hq : Quick k es) (hc : Calm (s n).back.world es) (harr : l.length ≤ (receivedFor k (s n1).back.world.received).length) (htimes : timesOf k es = some (a, b))
    -- which then looks at them in time
    (hn1 : n1 ≤ n2) (hrun' : Runs (s n1).back.world (fs ++ [.tick i]) (s n2).back.world) (hc' : Calm (s n1).back.world (fs ++ [.tick i]))
    (hlate : b + 8000000000 ≤ i.now1) (hby : TicksBy (a + 10000000000) (fs ++ [.tick i])) :
    (∃ spans, (spans.map Span.withTags).Perm (l.map Span.withTags) ∧
      (∃ m, n2 ≤ m ∧ (OneCall (s m).back spans ∨ InDiscarded (s m).back spans)) ∧
      ∀ m, n2 ≤ m → List.Subperm ((s m).back.sent.flatten.flatten.filter fun d => d.traceID = k.toUInt64) (spans.map toDatadog)) ∧
    ∀ j sj, r.Proxy j sj → j ≠ i0 → ∀ m, ((sj m).back.sent.flatten.flatten.filter fun d => d.traceID = k.toUInt64) = [] := by
  obtain ⟨outcomes, foreign, hreach, hno⟩ := hnew
  constructor
  · obtain ⟨e, he, hf, hrec⟩ := Recovery.new_received h hreach hno hclosed hi
    exact one_call (s := fun n => (s n).back) he hf hs ht hh (fun m => (hrec m).1.trans (subperm_map _ (hposted m))) hfresh hrun hq hc harr htimes hn1 hrun' hc' hlate hby
  · intro j sj hj hij m
    obtain ⟨e, he, hf, hrec⟩ := Recovery.new_received h hreach hno hclosed hj
    refine nothing_sent (he m) ((hrec m).2 fun cl' hcl' e' => hij ?_)
    have h1 := mem_parts (hj 0) hcl'
    have h2 := mem_parts (hi 0) hcl
    rw [e', ← hp] at h1
    exact hreach.apart _ _ _ h1 h2

/-- C151: before anything of it arrives, the collectors have nothing of such a trace. -/
theorem C151_fresh (h : r.Fair) {k : Id} (hnew : r.New k) (hclosed : r.ClosedFor k) {j : Nat} {s : Nat → Instance Unit} (hj : r.Proxy j s) : receivedFor k (s 0).back.world.received = [] := by
  obtain ⟨outcomes, foreign, hreach, hno⟩ := hnew
  obtain ⟨e, he, hf, hrec⟩ := Recovery.new_received h hreach hno hclosed hj
  have := (hrec 0).1
  have e0 : r.posted k 0 = [] := by
    unfold Recovery.posted
    rw [List.flatMap_eq_nil_iff.mpr fun i _ => r.noRequests i]
    rfl
  rw [e0] at this
  exact List.subperm_nil.mp this

end

/-! ## An execution in which this happens, after a crash -/

/-- Proxy 0 got a request with a span of another trace, and crashed. Then, the two spans of a trace are posted to two proxies; both get to the second one. -/
theorem C151_witness : ∃ (r : Recovery plainConverter () (fun _ => 0)) (s : Nat → Instance Unit) (n1 n2 : Nat) (es : List CEvent) (i : TickInput) (cl : Claim),
    r.Fair ∧ r.New 9 ∧ (∃ outcomes, outcomes ≠ [] ∧ Cluster.Reachable plainConverter () (fun _ => 0) outcomes [] (r.state 0)) ∧ r.ClosedFor 9 ∧ r.Proxy 1 s ∧ cl ∈ (s 0).claims ∧ cl.partition = partitionOf (fun _ => 0) 9 ∧
    System.SenderFairSeq (fun n => (s n).back) ∧ System.SinkTicksAgain (fun n => (s n).back) ∧
    r.requests 2 0 = [.spans [rootPiece]] ∧ r.requests 2 1 = [.spans [childPiece]] ∧ (∀ m, List.Subperm (r.posted 9 m) [rootPiece, childPiece]) ∧
    Runs (s 0).back.world es (s n1).back.world ∧ receivedFor 9 (s 0).back.world.received = [] ∧ Quick 9 es ∧ Calm (s 0).back.world es ∧
    2 ≤ (receivedFor 9 (s n1).back.world.received).length ∧ timesOf 9 es = some (0, 0) ∧ n1 ≤ n2 ∧ Runs (s n1).back.world ([] ++ [.tick i]) (s n2).back.world ∧
    Calm (s n1).back.world ([] ++ [.tick i]) ∧ (0 : Time) + 8000000000 ≤ i.now1 ∧ TicksBy (0 + 10000000000) ([] ++ [.tick i]) := by
  obtain ⟨r, s, n1, n2, es, i, hfair, hclosed, hs, h1, h2, h3, h4, h5, h6, h7, h8, h9, h10, h11, h12, h13, h14, h15, h16⟩ := C106_witness
  obtain ⟨now, h0⟩ := r.start
  have hreach : Cluster.Reachable plainConverter () (fun _ => 0) [] [] (Cluster.assigned () now [[1], [0]]) := (Cluster.Settled.init now).reachable (by decide)
  -- a request, a crash, and the partition is assigned again
  have hcrash : Cluster.Reachable plainConverter () (fun _ => 0) [.spans [{ id := 1, trace := 5 }]] [] (Cluster.assigned () now [[1], [0]]) := by
    have k1 := hreach.request (i := 0) (.spans [{ id := 1, trace := 5 }]) rfl
    have k2 := k1.upheaval (.crash 0 now)
    have k3 := k2.upheaval (.assign (i := 0) 1 0 rfl (by
      intro n' hn cl hcl
      rcases List.mem_pair.mp (show n' ∈ [{ back := System.init () now }, { claims := [{ partition := 0, offset := 0 }], back := System.init () now }] from hn) with rfl | rfl
      · cases hcl
      · rw [List.mem_singleton.mp hcl]; decide))
    exact k3
  let r' : Recovery plainConverter () (fun _ => 0) := ⟨r.state, r.requests, ⟨_, _, by rw [h0]; exact hcrash⟩, r.noRequests, r.next⟩
  have e0 : s 0 = { claims := [{ partition := 0, offset := 0 }], back := System.init () now } := by
    have := hs 0
    rw [h0] at this
    exact Option.some.inj (this.symm.trans rfl)
  have hlen : (r.state 0).instances.length = 2 := by rw [h0]; rfl
  refine ⟨r', s, n1, n2, es, i, { partition := 0, offset := 0 }, ⟨hfair.front, hfair.back, hfair.claim⟩, ⟨_, _, by show Cluster.Reachable _ _ _ _ _ (r.state 0); rw [h0]; exact hcrash, ?_⟩,
    ⟨[.spans [{ id := 1, trace := 5 }]], by simp, by show Cluster.Reachable _ _ _ _ _ (r.state 0); rw [h0]; exact hcrash⟩, fun n p v x e => absurd e (hclosed n p v), hs, by rw [e0]; simp, rfl, h1, h2, h3, h4, fun m => ?_, h7, h6, h8, h9, h10, h11, h12, h13, h14, h15, h16⟩
  · rintro x (⟨q, ⟨l, hl, hq⟩, rfl⟩ | ⟨v, hv, _⟩)
    · rw [List.mem_singleton] at hl
      cases hl
      rw [List.mem_singleton.mp hq]
      decide
    · cases hv
  · unfold Recovery.posted
    show List.Subperm (spansOfTrace 9 (acceptedSpans ((List.range (r.state 0).instances.length).flatMap (r.requests m)))) _
    rw [hlen]
    exact h5 m

/-! ## C151 is false while a partition moves -/

variable {κ : Type} {conv : κ → Span → Option Span × κ} {k : κ} {part : List UInt8 → Nat}

/-- Behind Kafka, a proxy can do with a message whatever a proxy without Kafka can do with a request of one span. -/
theorem embed {outs : List Parsed} {s : System κ} (h : System.Reachable conv k outs s) : ∃ now, ∀ (c : Cluster κ) (i : Nat) (p o : Nat) (v : List UInt8) (x : Span),
    c.instances[i]? = some { claims := [{ partition := p, offset := o }], back := System.init k now } → (c.topic p)[o]? = some v → decodeKafkaMessage v = some x →
    (outs = [] → c.Steps conv part { instances := c.instances.set i { claims := [{ partition := p, offset := o }], back := s }, topic := c.topic }) ∧
    (outs = [.spans [x]] → c.Steps conv part { instances := c.instances.set i { claims := [{ partition := p, offset := o + 1, busy := some 0 }], back := s }, topic := c.topic }) := by
  induction h with
  | init now =>
    refine ⟨now, fun c i p o v x hi _ _ => ⟨fun _ => ?_, fun e => by cases e⟩⟩
    obtain ⟨hlt, e⟩ := List.getElem?_eq_some_iff.mp hi
    rw [← e, List.set_getElem_self]
    exact .refl
  | @request outs s q hr ih =>
    obtain ⟨now, ih⟩ := ih
    refine ⟨now, fun c i p o v x hi hv hx => ⟨fun e => by simp at e, fun e => ?_⟩⟩
    have hlt := (List.getElem?_eq_some_iff.mp hi).1
    obtain ⟨rfl, hq⟩ : outs = [] ∧ q = .spans [x] := by
      cases outs with
      | nil => exact ⟨rfl, by simpa using e⟩
      | cons a l => simp at e
    subst hq
    obtain ⟨_, _, _, _, inv⟩ := hr.inv
    have hlen : s.http.conns.length = 0 := (C33_all_or_nothing inv.http).1
    have h1 := instance_steps ((ih c i p o v x hi hv hx).1 rfl) hlt (.call (j := 0) rfl rfl hv hx)
    dsimp only at h1
    rw [hlen] at h1
    exact h1
  | step hr hs ih =>
    obtain ⟨now, ih⟩ := ih
    refine ⟨now, fun c i p o v x hi hv hx => ?_⟩
    have hlt := (List.getElem?_eq_some_iff.mp hi).1
    exact ⟨fun e => instance_steps ((ih c i p o v x hi hv hx).1 e) hlt (.back hs), fun e => instance_steps ((ih c i p o v x hi hv hx).2 e) hlt (.back hs)⟩
  | event hr hs ih =>
    obtain ⟨now, ih⟩ := ih
    refine ⟨now, fun c i p o v x hi hv hx => ?_⟩
    have hlt := (List.getElem?_eq_some_iff.mp hi).1
    exact ⟨fun e => instance_steps ((ih c i p o v x hi hv hx).1 e) hlt (.event hs), fun e => instance_steps ((ih c i p o v x hi hv hx).2 e) hlt (.event hs)⟩

theorem Cluster.Reachable.steps {outcomes foreign} {c d : Cluster κ} (h : Cluster.Reachable conv k part outcomes foreign c) (hs : c.Steps conv part d) : Cluster.Reachable conv k part outcomes foreign d := by
  induction hs with
  | refl => exact h
  | step _ hs ih => exact .step ih hs

/-- A history in which one of the two spans is all that there is, and is sent. -/
theorem piece_alone {x : Span} (hx : x = rootPiece.withTags ∨ x = childPiece.withTags) : ∃ s : System Unit, System.Reachable plainConverter () [.spans [x]] s ∧ ¬ s.Pending ∧ s.world.received = [x] ∧
    ∃ d ∈ s.sent.flatten.flatten, d.traceID = 9 ∧ d.spanID = x.id.toUInt64 := by
  let world : World := World.receive { clock := 0 } 0 0 x
  let input : TickInput := { now1 := 9000000000, now2 := 9000000000, nowFake := fun _ => 0, order := world.c.traces.toList, sorted := [], blOrder := [] }
  have hv : input.Valid world.c := by
    rcases hx with rfl | rfl
    · exact ⟨.refl _, RaceWitness.perm_nil (by decide +kernel), .nil, RaceWitness.perm_nil (by decide +kernel), Int.le_refl _⟩
    · exact ⟨.refl _, RaceWitness.perm_nil (by decide +kernel), .nil, RaceWitness.perm_nil (by decide +kernel), Int.le_refl _⟩
  have hw : Reachable (world.tick input) := .tick input (.receive 0 0 _ (.init 0) (by decide) (by decide)) hv (by show (0 : Int) ≤ 9000000000; decide)
  have hem : (convertTraces plainConverter () (emittedOf (world.tick input).removed)).map (fun t => t.map fun y => (y.id, y.trace)) = [[(x.id, 9)]] := by
    rcases hx with rfl | rfl <;> decide +kernel
  obtain ⟨s, hr, hp, hf, hsw⟩ := adequate_exact plainConverter () hw
  have hrec : (world.tick input).received = [x] := by
    show world.received = [x]
    rfl
  rw [hrec] at hr
  refine ⟨s, hr, hp, by rw [hsw]; exact hrec, ?_⟩
  have hsink := (C61_complete hr hp).1
  rw [hsw] at hsink
  rw [← hsink] at hem
  obtain ⟨y, hl⟩ : ∃ y, s.sink.received = [[y]] := by
    generalize s.sink.received = l at hem
    rcases l with _ | ⟨_ | ⟨y, _ | ⟨z, l⟩⟩, _ | ⟨t, l'⟩⟩
    all_goals first
      | exact ⟨_, rfl⟩
      | (simp at hem)
  rw [hl] at hem
  simp only [List.map_cons, List.map_nil, List.cons.injEq, Prod.mk.injEq, and_true] at hem
  obtain ⟨call, hc, hall, _⟩ := C92_whole hr hf (trace := [y]) (by rw [hl]; simp) (by simp)
  obtain ⟨t, ht, hd⟩ := hall y (by simp)
  refine ⟨toDatadog y, List.mem_flatten.mpr ⟨t, List.mem_flatten.mpr ⟨call, hc, ht⟩, hd⟩, ?_, ?_⟩
  · show y.trace.toUInt64 = 9
    rw [hem.2]; decide
  · show y.id.toUInt64 = _
    rw [hem.1]

theorem not_pending_answered {x : Span} {s : System κ} (hr : System.Reachable conv k [.spans [x]] s) (hp : ¬ s.Pending) : s.http.conns[0]? = some (.answered 202) := by
  obtain ⟨log, _, _, _, inv⟩ := hr.inv
  obtain ⟨hl, hall, _⟩ := C33_all_or_nothing inv.http
  have hlt : 0 < s.http.conns.length := by rw [hl]; exact Nat.zero_lt_one
  have hc := List.getElem?_eq_getElem hlt
  have hao := hall 0 _ _ rfl hc
  have hno := (not_pending hp).2.2.1 _ (List.mem_of_getElem? hc)
  rw [hc]
  generalize pushedBy 0 log = pushed at hao
  generalize s.http.conns[0] = cn at hao hno
  generalize hq : Parsed.spans [x] = q at hao
  cases hao with
  | pushing => exact absurd rfl (hno _)
  | accepted => rfl
  | failing | rejected | panicked | waiting => cases hq

/-- C151 is false: the two spans of a healthy trace are posted, and while they are in the topic, their partition moves from one proxy to another. One proxy sends one of them, and the other one the other. -/
theorem C151_fails : ∃ (outcomes : List Parsed) (c : Cluster Unit) (i j : Nat) (n m : Instance Unit) (x y : Span), Cluster.Reachable plainConverter () (fun _ => 0) outcomes [] c ∧ i ≠ j ∧
    c.instances[i]? = some n ∧ c.instances[j]? = some m ∧ Healthy 9 (acceptedSpans outcomes) ∧ acceptedSpans outcomes = [rootPiece, childPiece] ∧
    [x, y].Perm (([rootPiece, childPiece]).map Span.withTags) ∧ n.back.world.received = [x] ∧ m.back.world.received = [y] ∧
    (∃ d ∈ n.back.sent.flatten.flatten, d.traceID = 9 ∧ d.spanID = x.id.toUInt64) ∧ (∃ d ∈ m.back.sent.flatten.flatten, d.traceID = 9 ∧ d.spanID = y.id.toUInt64) := by
  obtain ⟨d, f0, f1, v1, v2, y1, y2, _, hd, _, _, hins, _, htop, hy1, hy2, hys⟩ := pieces_written
  have hr0 := hd.reachable (by decide)
  -- two more proxies, that the partition goes to, one after the other
  obtain ⟨s1, a1, a2, a3, a4⟩ := piece_alone (x := y1) (by rcases hys with h | h <;> simp [h])
  obtain ⟨s2, b1, b2, b3, b4⟩ := piece_alone (x := y2) (by rcases hys with h | h <;> simp [h])
  obtain ⟨now1, e1⟩ := embed (part := fun _ => 0) a1
  obtain ⟨now2, e2⟩ := embed (part := fun _ => 0) b1
  -- the partition is taken from proxy 1
  have hr1 := hr0.upheaval (.revoke (i := 1) (n := { front := f1, claims := [{ partition := 0, offset := 0 }], back := System.init () 0 }) (l := []) (l' := []) (by rw [hins]; rfl) rfl rfl)
  have hr2 := hr1.upheaval (.start now1)
  have hr3 := hr2.upheaval (.start now2)
  let n0 : Instance Unit := { front := f0, claims := [{ partition := 1, offset := 0 }], back := System.init () 0 }
  let n1 : Instance Unit := { front := f1, claims := [], back := System.init () 0 }
  have hr3 : Cluster.Reachable plainConverter () (fun _ => 0) [.spans [rootPiece], .spans [childPiece]] [] { instances := [n0, n1, { back := System.init () now1 }, { back := System.init () now2 }], topic := d.topic } := by
    have := hr3
    dsimp only at this
    rw [hins] at this
    exact this
  -- and assigned to proxy 2
  have hr4 := hr3.upheaval (.assign (i := 2) 0 0 rfl (by
    intro n' hn cl hcl
    simp only [List.mem_cons, List.not_mem_nil, or_false] at hn
    rcases hn with rfl | rfl | rfl | rfl
    · rw [List.mem_singleton.mp hcl]; decide
    all_goals cases hcl))
  have hr5 := hr4.steps ((e1 _ 2 0 0 v1 y1 rfl (by dsimp only; rw [htop]; rfl) hy1).2 rfl)
  have hr6 := hr5.step (.back (i := 2) rfl (.mark (j := 0) (i := 0) rfl rfl (not_pending_answered a1 a2)))
  have hr7 := hr6.upheaval (.revoke (i := 2) (l := []) (l' := []) rfl rfl rfl)
  -- from there to proxy 3
  have hr8 := hr7.upheaval (.assign (i := 3) 0 1 rfl (by
    intro n' hn cl hcl
    have hn : n' ∈ [n0, n1, { claims := [], back := s1 }, { back := System.init () now2 }] := hn
    simp only [List.mem_cons, List.not_mem_nil, or_false] at hn
    rcases hn with rfl | rfl | rfl | rfl
    · rw [List.mem_singleton.mp hcl]; decide
    all_goals cases hcl))
  have hr9 := hr8.steps ((e2 _ 3 0 1 v2 y2 rfl (by dsimp only; rw [htop]; rfl) hy2).2 rfl)
  refine ⟨_, _, 2, 3, _, _, y1, y2, hr9, by decide, rfl, rfl, pieces_healthy, rfl, ?_, a3, b3, a4, b4⟩
  rcases hys with ⟨rfl, rfl⟩ | ⟨rfl, rfl⟩
  · exact .refl _
  · exact List.Perm.swap _ _ _

end Verif
