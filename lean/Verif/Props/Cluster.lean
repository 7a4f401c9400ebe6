import Verif.Proofs.Settled

/-!
# Proxies that share a Kafka topic: C68, C69, C70
-/

namespace Verif

open Spec

variable {κ : Type} {conv : κ → Span → Option Span × κ} {k : κ} {part : List UInt8 → Nat} {outcomes : List Parsed} {foreign : List (List UInt8)} {c : Cluster κ}

/-- C68: under every schedule of any number of proxies, with crashes, rebalancing and lost messages, everything that a proxy gives to the Datadog transport is the report of a span with ids
that stems from a span accepted by some proxy, from a message that others wrote to the topic, or from a fake root. -/
theorem C68_transport (h : Cluster.Reachable conv k part outcomes foreign c) {n : Instance κ} (hn : n ∈ c.instances) {call : List (List DDSpan)} (hc : call ∈ n.back.sent)
    {t : List DDSpan} (ht : t ∈ call) {d : DDSpan} (hd : d ∈ t) : ∃ x, StemsFromTopic conv outcomes foreign x ∧ Reported x d := by
  obtain ⟨_, bouts, hb, hall⟩ := h.inv.instances n hn
  obtain ⟨x, hx, hr⟩ := C61_transport hb hc ht hd
  exact ⟨x, stemsFromTopic h.inv.topic hall hx, hr⟩

/-- C68: so is everything in its admin view. -/
theorem C68_buffer (h : Cluster.Reachable conv k part outcomes foreign c) {n : Instance κ} (hn : n ∈ c.instances) {x : Span} (hx : x ∈ n.back.ring.toSlice) :
    StemsFromTopic conv outcomes foreign x := by
  obtain ⟨_, bouts, hb, hall⟩ := h.inv.instances n hn
  exact stemsFromTopic h.inv.topic hall (C61_buffer hb hx)

/-- C69: with a fixed assignment, a proxy gets only spans of traces whose partition is assigned to it. -/
theorem C69_local {assignment : List (List Nat)} (hnd : assignment.flatten.Nodup) (h : Cluster.Settled conv k part assignment outcomes c) {i : Nat} {n : Instance κ}
    (hn : c.instances[i]? = some n) {x : Span} (hx : x ∈ n.back.world.received) : ∃ ps, assignment[i]? = some ps ∧ partitionOf part x.trace ∈ ps := by
  obtain ⟨gs, inv⟩ := h.inv (List.pairwise_flatten.mp hnd).1
  obtain ⟨g, hg⟩ := inv.get hn
  obtain ⟨_, ps, hps, cinv⟩ := inv.inst i n g hn hg
  refine ⟨ps, hps, ?_⟩
  have : x ∈ g.pushes.map (·.2) := by
    rw [(C33_all_or_nothing cinv.http).2.2.2]; exact List.mem_append_left _ hx
  obtain ⟨e, he, rfl⟩ := List.mem_map.mp this
  obtain ⟨q, hq⟩ := cinv.entry he
  obtain ⟨h1, v, hv, hd⟩ := cinv.mine _ (List.mem_of_getElem? hq)
  have := inv.decoded hv hd
  dsimp only at this h1
  rw [← this]; exact h1

theorem flatten_index {α : Type} {l : List (List α)} (hnd : l.flatten.Nodup) {i j : Nat} {a b : List α} (hi : l[i]? = some a) (hj : l[j]? = some b) {x : α} (ha : x ∈ a) (hb : x ∈ b) : i = j := by
  have hp := (List.pairwise_flatten.mp hnd).2
  rw [List.pairwise_iff_getElem] at hp
  obtain ⟨hi', rfl⟩ := List.getElem?_eq_some_iff.mp hi
  obtain ⟨hj', rfl⟩ := List.getElem?_eq_some_iff.mp hj
  rcases Nat.lt_trichotomy i j with h | h | h
  · exact absurd rfl (hp i j hi' hj' h x ha x hb)
  · exact h
  · exact absurd rfl (hp j i hj' hi' h x hb x ha)

/-- C69: so no two proxies get spans of the same trace. -/
theorem C69_together {assignment : List (List Nat)} (hnd : assignment.flatten.Nodup) (h : Cluster.Settled conv k part assignment outcomes c) {i j : Nat} {n m : Instance κ}
    (hn : c.instances[i]? = some n) (hm : c.instances[j]? = some m) {x y : Span} (hx : x ∈ n.back.world.received) (hy : y ∈ m.back.world.received) (ht : x.trace = y.trace) : i = j := by
  obtain ⟨ps, hps, h1⟩ := C69_local hnd h hn hx
  obtain ⟨qs, hqs, h2⟩ := C69_local hnd h hm hy
  rw [ht] at h1
  exact flatten_index hnd hps hqs h1 h2

/-- C69: the collector gets the spans of a trace in the order in which they are in the topic, … -/
theorem C69_order {assignment : List (List Nat)} (hnd : assignment.flatten.Nodup) (h : Cluster.Settled conv k part assignment outcomes c) {i : Nat} {n : Instance κ} {ps : List Nat}
    (hn : c.instances[i]? = some n) (hps : assignment[i]? = some ps) (t : Id) (ht : partitionOf part t ∈ ps) :
    spansOfTrace t n.back.world.received <+: spansOfTrace t ((c.topic (partitionOf part t)).filterMap decodeKafkaMessage) := by
  obtain ⟨gs, inv⟩ := h.inv (List.pairwise_flatten.mp hnd).1
  obtain ⟨g, hg⟩ := inv.get hn
  obtain ⟨_, ps', hps', cinv⟩ := inv.inst i n g hn hg
  rw [hps, Option.some.injEq] at hps'; subst hps'
  have hmem := ht
  rw [← cinv.parts] at hmem
  obtain ⟨cl, hcl, hpart⟩ := List.mem_map.mp hmem
  have h1 := cinv.trace (fun p v x hv hd => inv.decoded hv hd) t
  rw [(C33_all_or_nothing cinv.http).2.2.2] at h1
  have h2 : spansOfTrace t n.back.world.received <+: spansOfTrace t (n.back.world.received ++ n.back.http.channel) := by
    unfold spansOfTrace
    rw [List.filter_append]; exact List.prefix_append _ _
  rw [h1] at h2
  refine h2.trans ?_
  rw [← hpart]
  refine List.IsPrefix.filter _ ?_
  refine List.IsPrefix.trans (l₂ := callsOf cl.partition g.calls) ?_ ?_
  · rw [← cinv.order cl hcl]; exact List.prefix_append _ _
  · rw [cinv.read cl hcl]
    exact List.IsPrefix.filterMap _ (List.take_prefix _ _)

/-- When the proxies have nothing to send, the topic has exactly what was posted of a trace. -/
theorem SettledInv.idle {assignment outcomes gs} {c : Cluster κ} (inv : SettledInv part assignment outcomes gs c) (hidle : ∀ m ∈ c.instances, m.front.Idle) (t : Id) :
    (spansOfTrace t ((c.topic (partitionOf part t)).filterMap decodeKafkaMessage)).Perm ((spansOfTrace t (acceptedSpans outcomes)).map Span.withTags) := by
  refine List.Perm.trans (inv.inTopic t) ?_
  -- all requests are done
  have done : ∀ (gs : List Ghost) (ns : List (Instance κ)), gs.length = ns.length → (∀ (i : Nat) n g, ns[i]? = some n → gs[i]? = some g → FrontInv g.outs g.log g.prod g.fly g.rest n.front) →
      (∀ m ∈ ns, m.front.Idle) → ((gs.flatMap (·.prod)).map (·.1)).Perm (acceptedSpans (gs.flatMap (·.outs))) := by
    intro gs
    induction gs with
    | nil => intro ns _ _ _; exact .refl _
    | cons g gs ih =>
      intro ns hl hi hid
      cases ns with
      | nil => cases hl
      | cons m ns =>
        have ih := ih ns (by simpa using hl) (fun i n g hn hg => hi (i + 1) n g (by simpa using hn) (by simpa using hg)) (fun m hm => hid m (List.mem_cons_of_mem _ hm))
        have finv := hi 0 m g rfl rfl
        obtain ⟨d1, d2, d3, d4, d5⟩ := hid m (by simp)
        unfold acceptedSpans at ih ⊢
        rw [List.flatMap_cons, List.flatMap_cons, List.map_append, List.flatMap_append]
        refine List.Perm.append ?_ ih
        have hfly : g.fly = [] := List.map_eq_nil_iff.mp (finv.inflight.trans d5)
        have hrest : g.rest = [] := by
          have := finv.before
          rw [d3, d4] at this
          exact List.map_eq_nil_iff.mp this
        have hm := finv.msgs
        rw [hfly, hrest, List.append_nil, List.append_nil] at hm
        refine (hm.map _).trans ?_
        have hlog := (C33_all_or_nothing finv.http).2.2.2
        rw [d2, List.append_nil] at hlog
        rw [← hlog]
        exact (http_done finv.http d1).symm
  have hperm := done gs c.instances inv.length (fun i n g hn hg => (inv.inst i n g hn hg).1) hidle
  have hout : (acceptedSpans (gs.flatMap (·.outs))).Perm (acceptedSpans outcomes) := inv.outs.flatMap_right _
  have hfin := ((hperm.trans hout).map Span.withTags).filter (fun s => s.trace = t)
  rw [List.map_map] at hfin
  refine hfin.trans (.of_eq ?_)
  unfold spansOfTrace
  rw [List.filter_map]
  rfl

/-- … and when nothing is on its way, the proxy to which the partition is assigned has got exactly the spans of this trace of all requests to all proxies. -/
theorem C69_complete {assignment : List (List Nat)} (hnd : assignment.flatten.Nodup) (h : Cluster.Settled conv k part assignment outcomes c) {i : Nat} {n : Instance κ} {ps : List Nat}
    (hn : c.instances[i]? = some n) (hps : assignment[i]? = some ps) (t : Id) (ht : partitionOf part t ∈ ps) (hidle : ∀ m ∈ c.instances, m.front.Idle) (hup : n.CaughtUp c.topic) :
    (spansOfTrace t n.back.world.received).Perm ((spansOfTrace t (acceptedSpans outcomes)).map Span.withTags) := by
  obtain ⟨gs, inv⟩ := h.inv (List.pairwise_flatten.mp hnd).1
  obtain ⟨g, hg⟩ := inv.get hn
  obtain ⟨_, ps', hps', cinv⟩ := inv.inst i n g hn hg
  rw [hps, Option.some.injEq] at hps'; subst hps'
  have hmem := ht
  rw [← cinv.parts] at hmem
  obtain ⟨cl, hcl, hpart⟩ := List.mem_map.mp hmem
  -- the received spans are those in the partition
  have h1 := cinv.trace (fun p v x hv hd => inv.decoded hv hd) t
  rw [(C33_all_or_nothing cinv.http).2.2.2, hup.2, List.append_nil, ← hpart] at h1
  have h2 := cinv.order cl hcl
  have h3 : pendOf n.back.http.conns cl = [] := by unfold pendOf; rw [(hup.1 cl hcl).1]
  rw [h3, List.append_nil] at h2
  rw [h1, h2, cinv.read cl hcl, (hup.1 cl hcl).2, List.take_length, hpart]
  -- these are the messages of all proxies
  exact inv.idle hidle t

end Verif
