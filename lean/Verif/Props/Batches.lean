import Verif.Spec.Batches
import Verif.Props.Posted
import Verif.Props.Pieces
import Verif.Props.Jaeger

/-!
# C111: A trace that is posted in batches, in any of the formats, gets to Datadog in one
-/

namespace Verif

open Spec

/-- What a request says, with the buffer and the memory that it gets: the spans of its document; nothing if it is not accepted. -/
inductive RequestSays (env : HandlerEnv) (req : Request) : List Item → Prop
  /-- everything that is accepted as version 1 (C90), with what was in the memory of the pool -/
  | v1 {body : Reader} {after : Cells MemV1} : req.route = .v1 → b!"application/json" <:+: req.contentType → req.Delivers body → TokensFit env.buf.length body.data → 0 < env.buf.length →
      BodyV1 body.data (poolMemory env.pool) after → RequestSays env req (after.list.map fun m => .v1 m.span)
  /-- everything that is accepted as version 2 (C90) -/
  | v2 {body : Reader} {vs : List SpanV2} : req.route = .v2 → req.Delivers body → TokensFit env.buf.length body.data → 0 < env.buf.length → BodyV2 body.data vs → RequestSays env req (vs.map .v2)
  /-- a document of the jaeger format (C76) -/
  | jaeger {body : Reader} {floatFails : Str → Bool} {w t z : Str} {j : Json} {l : List JaegerData} : req.route = .jaeger → (∀ r, env.decodeJaeger r = goDecodeJaeger floatFails r.data) →
      req.Delivers body → body.data = w ++ t ++ z → Blank w → Writes JsonNumber j t → Nesting 10000 j → JaegerOf ClearNames PlainHexOf (GoNumber floatFails) j l → RequestSays env req (jaegerItems l)
  | nothing {out : Parsed} : Returns (fun fuel => handleRequest env fuel req) out → (∀ l, out ≠ .spans l) → RequestSays env req []

/-- All requests that ever come to this proxy, what they say, and what the proxy makes of them. -/
def Requests (outcomes : Nat → List Parsed) (env : Nat → HandlerEnv) (req : Nat → Request) (items : Nat → List Item) : Prop :=
  ∀ m i out, (outcomes m)[i]? = some out → Returns (fun fuel => handleRequest (env i) fuel (req i)) out ∧ RequestSays (env i) (req i) (items i)

/-! ## From documents to spans -/

/-- The span for a span of a document. -/
def Item.Means : Item → Span → Prop
  | .v1 v, s => MeansV1 v s
  | .v2 v, s => MeansV2 v s
  | .jaeger procs v, s => MeansJaeger procs v s

theorem shownJaeger {procs : TagMap} {v : JaegerSpan} {s : Span} (h : MeansJaeger procs v s) : ShownJaeger procs v (toDatadog s) := by
  have r := C58_reported s
  obtain ⟨h1, h2, h3, h4, h5, h6, h7, h8, _⟩ := h
  refine ⟨by rw [r.spanID, h1], by rw [r.traceID, h2], by rw [r.parentID, h3], by rw [r.service.1, r.service.2, h5]; exact ⟨rfl, rfl⟩, by rw [r.resource, h4], by rw [r.start, h7],
    by rw [r.duration, h8], fun key => by rw [r.tags, h6], r.sampled, ?_⟩
  rw [← h6]
  exact r.error

theorem meansJaeger_withTags {procs : TagMap} {v : JaegerSpan} {s q : Span} (h : MeansJaeger procs v s) (e : q.withTags = s.withTags) : MeansJaeger procs v q := by
  have e1 : q.id = s.id := by have := congrArg Span.id e; exact this
  have e2 : q.trace = s.trace := by have := congrArg Span.trace e; exact this
  have e3 : q.parent = s.parent := by have := congrArg Span.parent e; exact this
  have e4 : q.name = s.name := by have := congrArg Span.name e; exact this
  have e5 : q.service = s.service := by have := congrArg Span.service e; exact this
  have e6 : q.tags.getD ∅ = s.tags.getD ∅ := by have := congrArg Span.tags e; exact Option.some.inj this
  have e7 : q.timestamp = s.timestamp := by have := congrArg Span.timestamp e; exact this
  have e8 : q.duration = s.duration := by have := congrArg Span.duration e; exact this
  have e9 : q.timings = s.timings := by have := congrArg Span.timings e; exact this
  unfold MeansJaeger
  rw [e1, e2, e3, e4, e5, e6, e7, e8, e9]
  exact h

namespace Item

theorem Means.shown {v : Item} {s : Span} (h : v.Means s) : v.Shown (toDatadog s) := by
  cases v with
  | v1 v => exact shownV1 h
  | v2 v => exact shownV2 h
  | jaeger procs v => exact shownJaeger h

theorem Means.withTags {v : Item} {s q : Span} (h : v.Means s) (e : q.withTags = s.withTags) : v.Means q := by
  cases v with
  | v1 v => exact meansV1_withTags h e
  | v2 v => exact meansV2_withTags h e
  | jaeger procs v => exact meansJaeger_withTags h e

theorem Means.id {v : Item} {s : Span} (h : v.Means s) : s.id = v.id := by
  cases v <;> exact h.1

theorem Means.trace {v : Item} {s : Span} (h : v.Means s) : s.trace = v.trace := by
  cases v <;> exact h.2.1

theorem Means.parent {v : Item} {s : Span} (h : v.Means s) : s.parent = v.parent := by
  cases v <;> exact h.2.2.1

theorem Means.start {v : Item} {s : Span} (h : v.Means s) : s.timestamp = v.start := by
  cases v with
  | v1 v => exact h.2.2.2.2.2.2.2.1
  | v2 v => exact h.2.2.2.2.2.2.1
  | jaeger procs v => exact h.2.2.2.2.2.2.1

theorem Means.agree {v : Item} {s : Span} (h : v.Means s) (hv : v.Agrees) (ha : HasAllTimings s) :
    s.timings.CS = s.timestamp ∧ s.timings.CR - s.timings.CS = s.duration ∧ skew s = 0 := by
  cases v with
  | v1 v =>
    obtain ⟨_, _, _, _, _, _, ht, hts, hd⟩ := h
    have ha' := ha
    unfold HasAllTimings at ha'
    rw [ht] at ha'
    obtain ⟨a1, a2, a3, a4⟩ := ha'
    obtain ⟨b1, b2, b3, b4⟩ := hv a1 a2 a3 a4
    unfold skew
    rw [if_pos ha, ht, hts, hd, if_pos ⟨b1, b2⟩, if_pos ⟨b1, b2⟩]
    refine ⟨rfl, ?_, b4⟩
    unfold orMillisecond
    rw [if_neg b3]
  | v2 v =>
    obtain ⟨_, _, _, _, _, _, _, _, _, hc, _, hs⟩ := h
    have h1 : KindClient v.kind := Classical.byContradiction fun hn => ha.1 (hc hn).1
    have h2 : KindServer v.kind := Classical.byContradiction fun hn => ha.2.2.1 (hs hn).2
    exact (kinds_differ h1 h2).elim
  | jaeger procs v =>
    obtain ⟨_, _, _, _, _, _, _, _, _, hc, _, hs⟩ := h
    have h1 : KindClient (kindJaeger v) := Classical.byContradiction fun hn => ha.1 (hc hn).1
    have h2 : KindServer (kindJaeger v) := Classical.byContradiction fun hn => ha.2.2.1 (hs hn).2
    exact (kinds_differ h1 h2).elim

end Item

/-- A healthy trace, in whatever order. -/
theorem HealthyItems.of_perm {k : Id} {l l' : List Item} (h : HealthyItems k l) (hp : l'.Perm l) : HealthyItems k l' := by
  have hm : ∀ {v}, v ∈ l' ↔ v ∈ l := hp.mem_iff
  obtain ⟨r, hr, h1, h2⟩ := h.root
  refine ⟨h.some, fun v hv => h.trace v (hm.mp hv), (hp.map _).nodup_iff.mpr h.ids, by rw [hp.length_eq]; exact h.few, ⟨r, hm.mpr hr, ?_, fun v hv hne => ?_⟩, fun v hv => h.recent v (hm.mp hv), fun v hv => h.agree v (hm.mp hv)⟩
  · exact h1.imp id fun h q hq => h q (hm.mp hq)
  · obtain ⟨a, q, hq, e⟩ := h2 v (hm.mp hv) hne
    exact ⟨a, q, hm.mpr hq, e⟩

theorem HealthyItems.spans {k : Id} {vs : List Item} (h : HealthyItems k vs) {l : List Span} (hm : Pairwise₂ Item.Means vs l) : Healthy k l := by
  have hids : l.map Span.id = vs.map Item.id := pairwise₂_map_eq (fun _ _ h => h.id) hm
  have hnd : (l.map Span.id).Nodup := by rw [hids]; exact h.ids
  refine ⟨h.some, fun s hs => ?_, hnd, by rw [← pairwise_length hm]; exact h.few, ?_, fun s hs => ?_, fun s hs ha => ?_⟩
  · obtain ⟨v, hv, hr⟩ := pairwise₂_mem_right hm hs
    rw [hr.trace, hr.id]
    exact h.trace v hv
  · obtain ⟨r, hr, hroot, hrest⟩ := h.root
    obtain ⟨s, hs, hrs⟩ := pairwise₂_mem_left hm hr
    refine ⟨s, ⟨hs, ?_⟩, fun q hq => ?_⟩
    · rcases hroot with e | e
      · exact .inl (by rw [hrs.parent, hrs.id, e])
      · refine .inr fun q hq => ?_
        obtain ⟨v, hv, hvq⟩ := pairwise₂_mem_right hm hq
        rw [hvq.id, hrs.parent]
        exact e v hv
    · obtain ⟨v, hv, hvq⟩ := pairwise₂_mem_right hm hq.1
      have hid : q.id = s.id := Classical.byContradiction fun hne => by
        obtain ⟨h1, p, hp, h2⟩ := hrest v hv (by rw [← hvq.id, ← hrs.id]; exact hne)
        obtain ⟨ps, hps, hpp⟩ := pairwise₂_mem_left hm hp
        rcases hq.2 with e | e
        · exact h1 (by rw [← hvq.parent, ← hvq.id]; exact e)
        · exact e ps hps (by rw [hpp.id, hvq.parent, h2])
      exact mem_eq_of_id hnd hq.1 hs hid
  · obtain ⟨v, hv, hr⟩ := pairwise₂_mem_right hm hs
    rw [hr.start]
    exact h.recent v hv
  · obtain ⟨v, hv, hr⟩ := pairwise₂_mem_right hm hs
    exact hr.agree (h.agree v hv) ha

theorem shownItems_perm {vs : List Item} {l spans : List Span} (hmeans : Pairwise₂ Item.Means vs l) (hperm : (spans.map Span.withTags).Perm (l.map Span.withTags)) :
    ∃ vs', vs'.Perm vs ∧ Pairwise₂ Item.Shown vs' (spans.map toDatadog) := by
  have hm1 : Pairwise₂ (fun v (q : Span) => ∃ s, Item.Means v s ∧ s.withTags = q) vs (l.map Span.withTags) := pairwise₂_map_right _ (fun v s hv => ⟨s, hv, rfl⟩) hmeans
  obtain ⟨vs', hp', hm2⟩ := pairwise₂_perm hm1 hperm.symm
  have hm3 : Pairwise₂ Item.Means vs' spans := pairwise₂_of_map _ (fun v q ⟨s, hv, e⟩ => hv.withTags e.symm) hm2
  exact ⟨vs', hp', pairwise₂_map_right _ (fun v s hv => hv.shown) hm3⟩

/-! ## From requests to spans -/

theorem pairwise₂_append {α β : Type} {R : α → β → Prop} {a a' : List α} {b b' : List β} (h : Pairwise₂ R a b) (h' : Pairwise₂ R a' b') : Pairwise₂ R (a ++ a') (b ++ b') := by
  induction h with
  | nil => exact h'
  | cons hr _ ih => exact .cons hr ih

theorem pairwise₂_filter {α β : Type} {R : α → β → Prop} {p : α → Bool} {q : β → Bool} (hpq : ∀ a b, R a b → p a = q b) {l : List α} {l' : List β} (h : Pairwise₂ R l l') :
    Pairwise₂ R (l.filter p) (l'.filter q) := by
  induction h with
  | nil => exact .nil
  | @cons a b l l' hr _ ih =>
    rw [List.filter_cons, List.filter_cons, hpq _ _ hr]
    by_cases hq : q b = true
    · rw [if_pos hq, if_pos hq]; exact .cons hr ih
    · rw [if_neg hq, if_neg hq]; exact ih

theorem spansOf_means {l : List JaegerData} {spans : List Span} (h : SpansOf l spans) : Pairwise₂ Item.Means (jaegerItems l) spans := by
  induction h with
  | nil => exact .nil
  | @cons d l s1 s2 hd _ ih =>
    unfold jaegerItems at ih ⊢
    rw [List.flatMap_cons]
    exact pairwise₂_append (pairwise₂_map_left (Q := Item.Means) (.jaeger d.processes) (fun _ _ h => h) hd) ih

/-- What the proxy makes of a request is what it says. -/
theorem RequestSays.outcome {env : HandlerEnv} {req : Request} {items : List Item} (h : RequestSays env req items) {out : Parsed} (hout : Returns (fun fuel => handleRequest env fuel req) out) :
    (∃ l, out = .spans l ∧ Pairwise₂ Item.Means items l) ∨ items = [] ∧ ∀ l, out ≠ .spans l := by
  cases h with
  | @v1 body after hroute htype hdel hfit hbuf hbody =>
    obtain ⟨l, pool', hmeans, hparse, _, _⟩ := C90_v1 env.newCap body.data env.pool hbody
    exact .inl ⟨l, hout.unique (handled_v1 hparse hroute htype hdel rfl hfit hbuf), pairwise₂_map_left (Q := Item.Means) (fun m : MemV1 => .v1 m.span) (fun _ _ h => h) hmeans⟩
  | @v2 body vs hroute hdel hfit hbuf hbody =>
    obtain ⟨l, hmeans, hparse⟩ := (C90_v2 body.data).1 vs hbody
    exact .inl ⟨l, hout.unique (C33_document hparse env req hroute hdel rfl hfit hbuf), pairwise₂_map_left (Q := Item.Means) .v2 (fun _ _ h => h) hmeans⟩
  | @jaeger body floatFails w t z j l hroute henv hdel hdata hw ht hn hd =>
    obtain ⟨spans, hs, hparse⟩ := C76_jaeger_partial (s := z) hw ht hn hd
    exact .inl ⟨spans, hout.unique ⟨0, fun fuel _ => hparse env fuel req body henv hroute hdel hdata⟩, spansOf_means hs⟩
  | nothing h hno => exact .inr ⟨rfl, by rw [hout.unique h]; exact hno⟩

/-- All requests together. -/
theorem Requests.posted {outcomes : Nat → List Parsed} {env : Nat → HandlerEnv} {req : Nat → Request} {items : Nat → List Item} (h : Requests outcomes env req items) (k : Id) (m : Nat) :
    Pairwise₂ Item.Means (postedItems items k (outcomes m).length) (spansOfTrace k (acceptedSpans (outcomes m))) := by
  have key : ∀ n, n ≤ (outcomes m).length → Pairwise₂ Item.Means ((List.range n).flatMap items) (acceptedSpans ((outcomes m).take n)) := by
    intro n hn
    induction n with
    | zero => exact .nil
    | succ n ih =>
      have hi := List.getElem?_eq_getElem (show n < (outcomes m).length by omega)
      rw [List.range_succ, List.flatMap_append, List.take_add_one, hi]
      unfold acceptedSpans
      rw [List.flatMap_append]
      refine pairwise₂_append (ih (by omega)) ?_
      obtain ⟨ho, hs⟩ := h m n _ hi
      rw [List.flatMap_singleton]
      show Pairwise₂ _ _ ([_].flatMap _)
      rw [List.flatMap_singleton]
      generalize (outcomes m)[n] = out at ho
      rcases hs.outcome ho with ⟨l, rfl, hl⟩ | ⟨e, hno⟩
      · exact hl
      · rw [e]
        cases out with
        | spans l => exact absurd rfl (hno l)
        | _ => exact .nil
  have := key _ (Nat.le_refl _)
  rw [List.take_length] at this
  exact pairwise₂_filter (fun v s h => by rw [h.trace]) this

/-! ## One proxy -/

variable {r : Execution plainConverter ()}

/-- The collector has nothing of a trace that was not posted. -/
theorem received_accepted {κ : Type} {conv : κ → Span → Option Span × κ} {c : κ} (r : Execution conv c) (k : Id) (m : Nat) :
    List.Subperm (receivedFor k (r.state m).world.received) (spansOfTrace k (acceptedSpans (r.outcomes m))) := by
  obtain ⟨log, _, _, _, inv⟩ := (r.reach m).inv
  have h4 := (C33_all_or_nothing inv.http).2.2.2
  have hs : List.Sublist (receivedFor k (r.state m).world.received) (spansOfTrace k (r.state m).world.received) := by
    unfold receivedFor spansOfTrace
    rw [show (fun s : Span => decide (Traced s) && s.trace == k) = fun s => (decide (Traced s) && decide (s.trace = k)) from funext fun s => by simp [beq_eq_decide], ← List.filter_filter]
    exact List.filter_sublist
  refine hs.subperm.trans (List.Subperm.filter _ (List.Subperm.trans ?_ (http_log inv.http)))
  rw [h4]
  exact (List.sublist_append_left _ _).subperm

/-- C111: the spans of a healthy trace, in any number of requests, each in any format, and each with whatever else. The requests are answered with 202, and in the end one call has, as one trace, exactly one span for
each span of the trace, with its values; or the trace was in a batch that was discarded because eight others were waiting. No other call has a span of it. -/
theorem C111_batches (h : r.Fair) (hs : r.SenderFair) (ht : r.SinkTicks)
    -- all requests; those with spans of this trace have these
    {env : Nat → HandlerEnv} {req : Nat → Request} {items : Nat → List Item} (hreq : Requests r.outcomes env req items) {k : Id} {l : List Item} (hh : HealthyItems k l)
    (hposted : ∀ m, List.Subperm (postedItems items k (r.outcomes m).length) l)
    -- they come to the collector
    {n n1 n2 : Nat} {es fs : List CEvent} {a b : Time} {i : TickInput} (hfresh : receivedFor k (r.state n).world.received = []) (hrun : Runs (r.state n).world es (r.state n1).world) (hq : Quick k es)
    (hc : Calm (r.state n).world es) (harr : l.length ≤ (receivedFor k (r.state n1).world.received).length) (htimes : timesOf k es = some (a, b))
    -- which then looks at them in time
    (hn1 : n1 ≤ n2) (hrun' : Runs (r.state n1).world (fs ++ [.tick i]) (r.state n2).world) (hc' : Calm (r.state n1).world (fs ++ [.tick i]))
    (hlate : b + 8000000000 ≤ i.now1) (hby : TicksBy (a + 10000000000) (fs ++ [.tick i])) :
    (∀ m j, j < (r.outcomes m).length → items j ≠ [] → ∃ m0, ∀ m', m0 ≤ m' → (r.state m').http.conns[j]? = some (.answered 202)) ∧
    ∃ l' spans, l'.Perm l ∧ Pairwise₂ Item.Shown l' (spans.map toDatadog) ∧
      (∃ m, n2 ≤ m ∧ (OneCall (r.state m) spans ∨ InDiscarded (r.state m) spans)) ∧
      ∀ m, n2 ≤ m → List.Subperm ((r.state m).sent.flatten.flatten.filter fun d => d.traceID = k.toUInt64) (spans.map toDatadog) := by
  constructor
  · intro m j hj hne
    obtain ⟨ho, hsay⟩ := hreq m j _ (List.getElem?_eq_getElem hj)
    rcases hsay.outcome ho with ⟨l, e, _⟩ | ⟨e, _⟩
    · obtain ⟨m0, _, h0⟩ := (C100_answered h (List.getElem?_eq_getElem hj)).1 l e
      exact ⟨m0, h0⟩
    · exact absurd e hne
  · have hlen : ∀ m, (receivedFor k (r.state m).world.received).length ≤ l.length := fun m =>
      Nat.le_trans (received_accepted r k m).length_le (by rw [← pairwise_length (hreq.posted k m)]; exact (hposted m).length_le)
    have rec1 : receivedFor k (r.state n1).world.received = spansOf k es := by rw [hrun.received k, hfresh, List.nil_append]
    have hmeans := hreq.posted k n1
    have hlen1 := pairwise_length hmeans
    have hle1 := (received_accepted r k n1).length_le
    have hle2 := (hposted n1).length_le
    have hperm : (spansOf k es).Perm (spansOfTrace k (acceptedSpans (r.outcomes n1))) := by
      rw [← rec1]
      exact (received_accepted r k n1).perm_of_length_le (by omega)
    have hl : (postedItems items k (r.outcomes n1).length).Perm l := (hposted n1).perm_of_length_le (by omega)
    have hlast : ∀ m, receivedFor k (r.state m).world.received <+: spansOf k es := fun m => by
      have mono : ∀ {m m' : Nat}, m ≤ m' → receivedFor k (r.state m).world.received <+: receivedFor k (r.state m').world.received := fun {m m'} hm => by
        obtain ⟨gs, hgs⟩ := r.runs hm
        rw [hgs.received k]
        exact List.prefix_append _ _
      rw [← rec1]
      rcases Nat.le_total m n1 with hm | hm
      · exact mono hm
      · have := (mono hm).eq_of_length (by have h1 := hlen m; have h2 := (mono hm).length_le; omega)
        rw [this]
        exact List.prefix_rfl
    have hhealthy := ((hh.of_perm hl).spans hmeans).of_perm (hperm.map _)
    obtain ⟨spans, h1, h2, h3⟩ := C102_intact h hs ht hfresh hrun hq hc hhealthy htimes hn1 hrun' hc' hlate hby hlast
    obtain ⟨l', hl', hshown⟩ := shownItems_perm hmeans (h1.trans (hperm.map _))
    exact ⟨l', spans, hl'.trans hl, hshown, h2, h3⟩

/-! ## Several proxies -/

section cluster

variable {part : List UInt8 → Nat} {assignment : List (List Nat)} {r : ClusterExecution plainConverter () part assignment}

theorem requests_later (r : ClusterExecution plainConverter () part assignment) {n m : Nat} (hm : n ≤ m) (p : Nat) : r.requests n p <+: r.requests m p := by
  induction hm with
  | refl => exact List.prefix_rfl
  | @step m _ ih =>
    refine ih.trans ?_
    have hn := r.next m
    generalize r.requests (m + 1) = q' at hn
    generalize r.state (m + 1) = c' at hn
    cases hn with
    | step => exact List.prefix_rfl
    | @request i _ o _ =>
      show _ <+: if p = i then _ else _
      by_cases e : p = i
      · rw [if_pos e]; exact List.prefix_append _ _
      · rw [if_neg e]; exact List.prefix_rfl
    | foreign => exact List.prefix_rfl
    | stay => exact List.prefix_rfl

theorem flatMap_sublist {α β : Type} (l : List α) (f g : α → List β) (h : ∀ i ∈ l, (f i).Sublist (g i)) : (l.flatMap f).Sublist (l.flatMap g) := by
  induction l with
  | nil => exact .slnil
  | cons x l ih =>
    rw [List.flatMap_cons, List.flatMap_cons]
    exact (h x List.mem_cons_self).append (ih fun i hi => h i (List.mem_cons_of_mem _ hi))

theorem posted_later (r : ClusterExecution plainConverter () part assignment) (k : Id) {n m : Nat} (hm : n ≤ m) : List.Sublist (r.posted k n) (r.posted k m) := by
  unfold ClusterExecution.posted spansOfTrace acceptedSpans
  refine List.Sublist.filter _ ?_
  rw [List.flatMap_assoc, List.flatMap_assoc]
  refine flatMap_sublist _ _ _ fun p _ => ?_
  obtain ⟨t, ht⟩ := requests_later r hm p
  rw [← ht, List.flatMap_append]
  exact List.sublist_append_left _ _

theorem posted_means {env : Nat → Nat → HandlerEnv} {req : Nat → Nat → Request} {items : Nat → Nat → List Item} (hreq : ∀ p, p < assignment.length → Requests (fun m => r.requests m p) (env p) (req p) (items p))
    (k : Id) (m : Nat) : Pairwise₂ Item.Means ((List.range assignment.length).flatMap fun p => postedItems (items p) k (r.requests m p).length) (r.posted k m) := by
  unfold ClusterExecution.posted acceptedSpans spansOfTrace
  rw [List.flatMap_assoc, List.filter_flatMap]
  have key : ∀ l : List Nat, (∀ p ∈ l, p < assignment.length) → Pairwise₂ Item.Means (l.flatMap fun p => postedItems (items p) k (r.requests m p).length)
      (l.flatMap fun p => spansOfTrace k (acceptedSpans (r.requests m p))) := by
    intro l hl
    induction l with
    | nil => exact .nil
    | cons p l ih =>
      rw [List.flatMap_cons, List.flatMap_cons]
      exact pairwise₂_append ((hreq p (hl p List.mem_cons_self)).posted k m) (ih fun q hq => hl q (List.mem_cons_of_mem _ hq))
  exact key _ fun p hp => List.mem_range.mp hp

/-- C111, for several proxies with Kafka between them: the requests come to any of them. -/
theorem C111_cluster (h : r.Fair) (hclosed : r.Closed) (hnd : assignment.flatten.Nodup)
    -- all requests to all proxies; those with spans of this trace have these
    {env : Nat → Nat → HandlerEnv} {req : Nat → Nat → Request} {items : Nat → Nat → List Item} (hreq : ∀ p, p < assignment.length → Requests (fun m => r.requests m p) (env p) (req p) (items p))
    {k : Id} {l : List Item} (hh : HealthyItems k l) (hposted : ∀ m, List.Subperm ((List.range assignment.length).flatMap fun p => postedItems (items p) k (r.requests m p).length) l)
    -- the proxy to which the partition of the trace is assigned
    {i0 : Nat} {s : Nat → Instance Unit} (hi : r.Proxy i0 s) {ps : List Nat} (hps : assignment[i0]? = some ps) (hp : partitionOf part k ∈ ps)
    (hs : System.SenderFairSeq fun n => (s n).back) (ht : System.SinkTicksAgain fun n => (s n).back)
    -- they come to the collector of this proxy
    {n n1 n2 : Nat} {es fs : List CEvent} {a b : Time} {i : TickInput} (hfresh : receivedFor k (s n).back.world.received = []) (hrun : Runs (s n).back.world es (s n1).back.world)
    (hq : Quick k es) (hc : Calm (s n).back.world es) (harr : l.length ≤ (receivedFor k (s n1).back.world.received).length) (htimes : timesOf k es = some (a, b))
    -- which then looks at them in time
    (hn1 : n1 ≤ n2) (hrun' : Runs (s n1).back.world (fs ++ [.tick i]) (s n2).back.world) (hc' : Calm (s n1).back.world (fs ++ [.tick i]))
    (hlate : b + 8000000000 ≤ i.now1) (hby : TicksBy (a + 10000000000) (fs ++ [.tick i])) :
    (∃ l' spans, l'.Perm l ∧ Pairwise₂ Item.Shown l' (spans.map toDatadog) ∧
      (∃ m, n2 ≤ m ∧ (OneCall (s m).back spans ∨ InDiscarded (s m).back spans)) ∧
      ∀ m, n2 ≤ m → List.Subperm ((s m).back.sent.flatten.flatten.filter fun d => d.traceID = k.toUInt64) (spans.map toDatadog)) ∧
    ∀ j sj, r.Proxy j sj → j ≠ i0 → ∀ m, ((sj m).back.sent.flatten.flatten.filter fun d => d.traceID = k.toUInt64) = [] := by
  have hmeans := posted_means hreq k n1
  have hlen : ∀ m, (r.posted k m).length ≤ l.length := fun m => by rw [← pairwise_length (posted_means hreq k m)]; exact (hposted m).length_le
  have hrec : (receivedFor k (s n1).back.world.received).length ≤ (r.posted k n1).length := by
    have := (Closed.received hclosed hnd hi hps hp n1).length_le
    rwa [List.length_map] at this
  have hl := (hposted n1).perm_of_length_le (by rw [pairwise_length hmeans]; omega)
  have hall : ∀ m, List.Subperm (r.posted k m) (r.posted k n1) := fun m => by
    rcases Nat.le_total m n1 with hm | hm
    · exact (posted_later r k hm).subperm
    · have h1 := posted_later r k hm
      rw [h1.eq_of_length_le (by have := hlen m; omega)]
  obtain ⟨⟨spans, h1, h2, h3⟩, h4⟩ := C106_pieces h hclosed hnd ((hh.of_perm hl).spans hmeans) hi hps hp hs ht hall hfresh hrun hq hc (Nat.le_trans (hlen n1) harr) htimes hn1 hrun' hc' hlate hby
  obtain ⟨l', hl', hshown⟩ := shownItems_perm hmeans h1
  exact ⟨⟨l', spans, hl'.trans hl, hshown, h2, h3⟩, h4⟩

end cluster

end Verif
