import Verif.Spec.Posted
import Verif.Props.Intact
import Verif.Props.Accept
import Verif.Props.Handlers
import Verif.Props.Document
import Verif.Props.AnyMemory
import Verif.Props.Sink

/-!
# C103: A trace that is posted gets to Datadog

`C102` begins with the collector. Here it is put together with what is known of the parser (C26, C90), the handlers (C33), and the conversion (C58).
-/

namespace Verif

open Spec

/-! ## From the document to spans -/

theorem caseVariant_lower {kind word : Str} (h : CaseVariant kind word) : kind.map toLower = word.map toLower := by
  induction h with
  | nil => rfl
  | lower _ ih => rw [List.map_cons, List.map_cons, ih]
  | @upper c s t hc _ ih =>
    rw [List.map_cons, List.map_cons, ih]
    congr 1
    revert hc
    exact byte_forall (P := fun c => c!"A" ≤ c ∧ c ≤ c!"Z" → toLower c = toLower (c + 0x20)) (by decide +kernel) c

/-- No span is of both kinds. -/
theorem kinds_differ {kind : Str} (hc : KindClient kind) (hs : KindServer kind) : False := by
  have h1 := caseVariant_lower hc
  rcases hs with hs | ⟨t, e, hs⟩
  · have h2 := caseVariant_lower hs
    rw [h1] at h2
    revert h2
    decide
  · have h2 := caseVariant_lower hs
    rw [e, List.map_cons, List.map_cons] at h1
    have := (List.cons.inj h1).1
    revert this
    decide

theorem shownV2 {v : SpanV2} {s : Span} (h : MeansV2 v s) : ShownV2 v (toDatadog s) := by
  have r := C58_reported s
  obtain ⟨h1, h2, h3, h4, h5, h6, h7, h8, _⟩ := h
  have he : (s.tags.getD ∅)[b!"error"]? = (v.tags.getD ∅)[b!"error"]? := by
    rw [h6, if_neg (by decide)]
  refine ⟨by rw [r.spanID, h1], by rw [r.traceID, h2], by rw [r.parentID, h3], by rw [r.service.1, r.service.2, h5]; exact ⟨rfl, rfl⟩, by rw [r.resource, h4], by rw [r.start, h7],
    by rw [r.duration, h8], fun key => by rw [r.tags, h6], r.sampled, ?_⟩
  rw [← he]
  exact r.error

theorem meansV2_withTags {v : SpanV2} {s q : Span} (h : MeansV2 v s) (e : q.withTags = s.withTags) : MeansV2 v q := by
  have e1 : q.id = s.id := by have := congrArg Span.id e; exact this
  have e2 : q.trace = s.trace := by have := congrArg Span.trace e; exact this
  have e3 : q.parent = s.parent := by have := congrArg Span.parent e; exact this
  have e4 : q.name = s.name := by have := congrArg Span.name e; exact this
  have e5 : q.service = s.service := by have := congrArg Span.service e; exact this
  have e6 : q.tags.getD ∅ = s.tags.getD ∅ := by have := congrArg Span.tags e; exact Option.some.inj this
  have e7 : q.timestamp = s.timestamp := by have := congrArg Span.timestamp e; exact this
  have e8 : q.duration = s.duration := by have := congrArg Span.duration e; exact this
  have e9 : q.timings = s.timings := by have := congrArg Span.timings e; exact this
  unfold MeansV2
  rw [e1, e2, e3, e4, e5, e6, e7, e8, e9]
  exact h

theorem pairwise₂_mem_right {α β : Type} {R : α → β → Prop} {l : List α} {l' : List β} (h : Pairwise₂ R l l') {b : β} (hb : b ∈ l') : ∃ a ∈ l, R a b := by
  induction h with
  | nil => cases hb
  | cons hr _ ih =>
    rcases List.mem_cons.mp hb with rfl | hb
    · exact ⟨_, List.mem_cons_self, hr⟩
    · obtain ⟨a, ha, hr⟩ := ih hb
      exact ⟨a, List.mem_cons_of_mem _ ha, hr⟩

theorem pairwise₂_mem_left {α β : Type} {R : α → β → Prop} {l : List α} {l' : List β} (h : Pairwise₂ R l l') {a : α} (ha : a ∈ l) : ∃ b ∈ l', R a b := by
  induction h with
  | nil => cases ha
  | cons hr _ ih =>
    rcases List.mem_cons.mp ha with rfl | ha
    · exact ⟨_, List.mem_cons_self, hr⟩
    · obtain ⟨b, hb, hr⟩ := ih ha
      exact ⟨b, List.mem_cons_of_mem _ hb, hr⟩

theorem pairwise₂_map_right {α β γ : Type} {R : α → β → Prop} {Q : α → γ → Prop} (f : β → γ) (hf : ∀ a b, R a b → Q a (f b)) {l : List α} {l' : List β} (h : Pairwise₂ R l l') :
    Pairwise₂ Q l (l'.map f) := by
  induction h with
  | nil => exact .nil
  | cons hr _ ih => exact .cons (hf _ _ hr) ih

theorem pairwise₂_map_left {α β γ : Type} {R : α → β → Prop} {Q : γ → β → Prop} (f : α → γ) (hf : ∀ a b, R a b → Q (f a) b) {l : List α} {l' : List β} (h : Pairwise₂ R l l') :
    Pairwise₂ Q (l.map f) l' := by
  induction h with
  | nil => exact .nil
  | cons hr _ ih => exact .cons (hf _ _ hr) ih

theorem pairwise₂_of_map {α β γ : Type} {R : α → β → Prop} {Q : α → γ → Prop} (f : β → γ) (hf : ∀ a b, Q a (f b) → R a b) : ∀ {l : List α} {l' : List β}, Pairwise₂ Q l (l'.map f) → Pairwise₂ R l l'
  | [], [], _ => .nil
  | _ :: _, [], h => nomatch h
  | [], _ :: _, h => nomatch h
  | _ :: _, _ :: _, .cons hr h => .cons (hf _ _ hr) (pairwise₂_of_map f hf h)

theorem pairwise₂_perm {α β : Type} {R : α → β → Prop} {l : List α} {l1 l2 : List β} (h : Pairwise₂ R l l1) (hp : l1.Perm l2) : ∃ l', l'.Perm l ∧ Pairwise₂ R l' l2 := by
  induction hp generalizing l with
  | nil => exact ⟨l, .rfl, h⟩
  | cons _ _ ih =>
    cases h with
    | cons hr h =>
      obtain ⟨l', hp, h⟩ := ih h
      exact ⟨_ :: l', hp.cons _, .cons hr h⟩
  | swap =>
    cases h with
    | cons hr h =>
      cases h with
      | cons hr' h => exact ⟨_ :: _ :: _, .swap _ _ _, .cons hr' (.cons hr h)⟩
  | trans _ _ ih1 ih2 =>
    obtain ⟨l', hp, h⟩ := ih1 h
    obtain ⟨l'', hp', h⟩ := ih2 h
    exact ⟨l'', hp'.trans hp, h⟩

theorem pairwise₂_map_eq {α β γ : Type} {R : α → β → Prop} {f : α → γ} {g : β → γ} (hf : ∀ a b, R a b → g b = f a) {l : List α} {l' : List β} (h : Pairwise₂ R l l') : l'.map g = l.map f := by
  induction h with
  | nil => rfl
  | cons hr _ ih => rw [List.map_cons, List.map_cons, ih, hf _ _ hr]

theorem HealthyV2.spans {k : Id} {vs : List SpanV2} (h : HealthyV2 k vs) {l : List Span} (hm : Pairwise₂ MeansV2 vs l) : Healthy k l := by
  have hids : l.map Span.id = vs.map SpanV2.id := pairwise₂_map_eq (fun _ _ h => h.1) hm
  have hnd : (l.map Span.id).Nodup := by rw [hids]; exact h.ids
  refine ⟨h.some, fun s hs => ?_, hnd, by rw [← pairwise_length hm]; exact h.few, ?_, fun s hs => ?_, fun s hs ha => ?_⟩
  · obtain ⟨v, hv, hr⟩ := pairwise₂_mem_right hm hs
    have := h.trace v hv
    rw [hr.2.1, hr.1]
    exact this
  · obtain ⟨r, hr, hroot, hrest⟩ := h.root
    obtain ⟨s, hs, hrs⟩ := pairwise₂_mem_left hm hr
    refine ⟨s, ⟨hs, ?_⟩, fun q hq => ?_⟩
    · rcases hroot with e | e
      · exact .inl (by rw [hrs.2.2.1, hrs.1, e])
      · refine .inr fun q hq => ?_
        obtain ⟨v, hv, hvq⟩ := pairwise₂_mem_right hm hq
        rw [hvq.1, hrs.2.2.1]
        exact e v hv
    · obtain ⟨v, hv, hvq⟩ := pairwise₂_mem_right hm hq.1
      have hid : q.id = s.id := Classical.byContradiction fun hne => by
        obtain ⟨h1, p, hp, h2⟩ := hrest v hv (by rw [← hvq.1, ← hrs.1]; exact hne)
        obtain ⟨ps, hps, hpp⟩ := pairwise₂_mem_left hm hp
        rcases hq.2 with e | e
        · exact h1 (by rw [← hvq.2.2.1, ← hvq.1]; exact e)
        · exact e ps hps (by rw [hpp.1, hvq.2.2.1, h2])
      exact mem_eq_of_id hnd hq.1 hs hid
  · obtain ⟨v, hv, hr⟩ := pairwise₂_mem_right hm hs
    rw [hr.2.2.2.2.2.2.1]
    exact h.recent v hv
  · obtain ⟨v, _, hr⟩ := pairwise₂_mem_right hm hs
    obtain ⟨_, _, _, _, _, _, _, _, _, hc, _, hs⟩ := hr
    have h1 : KindClient v.kind := Classical.byContradiction fun hn => ha.1 (hc hn).1
    have h2 : KindServer v.kind := Classical.byContradiction fun hn => ha.2.2.1 (hs hn).2
    exact (kinds_differ h1 h2).elim

/-! ### Version 1 -/

theorem shownV1 {v : SpanV1} {s : Span} (h : MeansV1 v s) : ShownV1 v (toDatadog s) := by
  have r := C58_reported s
  obtain ⟨h1, h2, h3, h4, h5, h6, _, h7, h8⟩ := h
  refine ⟨by rw [r.spanID, h1], by rw [r.traceID, h2], by rw [r.parentID, h3], by rw [r.service.1, r.service.2, h5]; exact ⟨rfl, rfl⟩, by rw [r.resource, h4], by rw [r.start, h7]; rfl,
    by rw [r.duration, h8]; rfl, fun key => by rw [r.tags, h6], r.sampled, ?_⟩
  rw [← h6]
  exact r.error

theorem meansV1_withTags {v : SpanV1} {s q : Span} (h : MeansV1 v s) (e : q.withTags = s.withTags) : MeansV1 v q := by
  have e1 : q.id = s.id := by have := congrArg Span.id e; exact this
  have e2 : q.trace = s.trace := by have := congrArg Span.trace e; exact this
  have e3 : q.parent = s.parent := by have := congrArg Span.parent e; exact this
  have e4 : q.name = s.name := by have := congrArg Span.name e; exact this
  have e5 : q.service = s.service := by have := congrArg Span.service e; exact this
  have e6 : q.tags.getD ∅ = s.tags.getD ∅ := by have := congrArg Span.tags e; exact Option.some.inj this
  have e7 : q.timestamp = s.timestamp := by have := congrArg Span.timestamp e; exact this
  have e8 : q.duration = s.duration := by have := congrArg Span.duration e; exact this
  have e9 : q.timings = s.timings := by have := congrArg Span.timings e; exact this
  unfold MeansV1
  rw [e1, e2, e3, e4, e5, e6, e7, e8, e9]
  exact h

theorem HealthyV1.spans {k : Id} {vs : List SpanV1} (h : HealthyV1 k vs) {l : List Span} (hm : Pairwise₂ MeansV1 vs l) : Healthy k l := by
  have hids : l.map Span.id = vs.map SpanV1.id := pairwise₂_map_eq (fun _ _ h => h.1) hm
  have hnd : (l.map Span.id).Nodup := by rw [hids]; exact h.ids
  refine ⟨h.some, fun s hs => ?_, hnd, by rw [← pairwise_length hm]; exact h.few, ?_, fun s hs => ?_, fun s hs ha => ?_⟩
  · obtain ⟨v, hv, hr⟩ := pairwise₂_mem_right hm hs
    have := h.trace v hv
    rw [hr.2.1, hr.1]
    exact this
  · obtain ⟨r, hr, hroot, hrest⟩ := h.root
    obtain ⟨s, hs, hrs⟩ := pairwise₂_mem_left hm hr
    refine ⟨s, ⟨hs, ?_⟩, fun q hq => ?_⟩
    · rcases hroot with e | e
      · exact .inl (by rw [hrs.2.2.1, hrs.1, e])
      · refine .inr fun q hq => ?_
        obtain ⟨v, hv, hvq⟩ := pairwise₂_mem_right hm hq
        rw [hvq.1, hrs.2.2.1]
        exact e v hv
    · obtain ⟨v, hv, hvq⟩ := pairwise₂_mem_right hm hq.1
      have hid : q.id = s.id := Classical.byContradiction fun hne => by
        obtain ⟨h1, p, hp, h2⟩ := hrest v hv (by rw [← hvq.1, ← hrs.1]; exact hne)
        obtain ⟨ps, hps, hpp⟩ := pairwise₂_mem_left hm hp
        rcases hq.2 with e | e
        · exact h1 (by rw [← hvq.2.2.1, ← hvq.1]; exact e)
        · exact e ps hps (by rw [hpp.1, hvq.2.2.1, h2])
      exact mem_eq_of_id hnd hq.1 hs hid
  · obtain ⟨v, hv, hr⟩ := pairwise₂_mem_right hm hs
    rw [hr.2.2.2.2.2.2.2.1]
    exact h.recent v hv
  · obtain ⟨v, hv, hr⟩ := pairwise₂_mem_right hm hs
    obtain ⟨_, _, _, _, _, _, ht, hts, hd⟩ := hr
    have ha' := ha
    unfold HasAllTimings at ha'
    rw [ht] at ha'
    obtain ⟨a1, a2, a3, a4⟩ := ha'
    obtain ⟨b1, b2, b3, b4⟩ := h.agree v hv a1 a2 a3 a4
    unfold skew
    rw [if_pos ha, ht, hts, hd, if_pos ⟨b1, b2⟩, if_pos ⟨b1, b2⟩]
    refine ⟨rfl, ?_, b4⟩
    unfold orMillisecond
    rw [if_neg b3]

/-- A request of version 1 with a body that is read gives its spans. -/
theorem handled_v1 {data : Str} {spans : List Span} {env : HandlerEnv} {pool' : List SpanV1} (h : ParsesV1 env.newCap data env.pool spans pool') {req : Request} (hroute : req.route = .v1)
    (htype : b!"application/json" <:+: req.contentType) {r : Reader} (hd : req.Delivers r) (hr : r.data = data) (hfit : TokensFit env.buf.length data) (hb : 0 < env.buf.length) :
    Returns (fun fuel => handleRequest env fuel req) (.spans spans) := by
  obtain ⟨N, hN⟩ := h r env.buf hr hfit hb
  exact ⟨N, fun fuel hf => ((C33_outcome env fuel req).1 spans).mpr ⟨fun _ => htype, r, hd, .inl ⟨hroute, pool', hN fuel hf⟩⟩⟩

/-! ## From the request to the collector -/

section arrival

variable {κ : Type} {conv : κ → Span → Option Span × κ} {c : κ}

/-- What a request pushed is a part of its spans. -/
theorem pushed_prefix {o : Parsed} {cn : Conn} {pushed : List Span} (h : AllOrNothing o cn pushed) : pushed = [] ∨ ∃ l, o = .spans l ∧ pushed <+: l := by
  cases h with
  | pushing => exact .inr ⟨_, rfl, List.prefix_append _ _⟩
  | accepted => exact .inr ⟨_, rfl, List.prefix_rfl⟩
  | _ => exact .inl rfl

/-- Only request `j` brings spans of the trace. -/
theorem only_request {r : Execution conv c} {j : Nat} {k : Id} (ho : OnlyRequest r j k) (m : Nat) :
    ((r.outcomes m).length ≤ j → receivedFor k (r.state m).world.received = []) ∧
    ∀ l, (r.outcomes m)[j]? = some (.spans l) → receivedFor k (r.state m).world.received <+: receivedFor k l := by
  obtain ⟨log, _, _, _, inv⟩ := (r.reach m).inv
  obtain ⟨h1, h2, h3, h4⟩ := C33_all_or_nothing inv.http
  have pushed : ∀ i o, (r.outcomes m)[i]? = some o → pushedBy i log = [] ∨ ∃ l, o = .spans l ∧ pushedBy i log <+: l := by
    intro i o hi
    have hlt := (List.getElem?_eq_some_iff.mp hi).1
    exact pushed_prefix (h2 i o _ hi (List.getElem?_eq_getElem (by rw [h1]; exact hlt)))
  have other : ∀ e ∈ log, e.1 ≠ j → e.2.trace ≠ k := by
    intro e he hj
    have hmem : e.2 ∈ pushedBy e.1 log := List.mem_map_of_mem (List.mem_filter.mpr ⟨he, by simp⟩)
    rcases pushed e.1 _ (List.getElem?_eq_getElem (h3 e he)) with h | ⟨l, hl, hp⟩
    · rw [h] at hmem; cases hmem
    · exact ho m e.1 l (by rw [List.getElem?_eq_getElem (h3 e he), hl]) hj _ (hp.subset hmem)
  have hlog : receivedFor k (log.map (·.2)) = receivedFor k (pushedBy j log) := by
    unfold receivedFor pushedBy
    rw [List.filter_map, List.filter_map, List.filter_filter]
    congr 1
    refine List.filter_congr fun e he => ?_
    by_cases hj : e.1 = j
    · simp [hj]
    · have := other e he hj
      simp [hj, this]
  have hrec : receivedFor k (r.state m).world.received <+: receivedFor k (pushedBy j log) := by
    rw [← hlog, h4]
    unfold receivedFor
    rw [List.filter_append]
    exact List.prefix_append _ _
  refine ⟨fun hlen => ?_, fun l hl => ?_⟩
  · have : pushedBy j log = [] := by
      unfold pushedBy
      rw [List.map_eq_nil_iff, List.filter_eq_nil_iff]
      intro e he
      have := h3 e he
      simp only [decide_eq_true_eq]
      omega
    rw [this] at hrec
    exact List.prefix_nil.mp hrec
  · refine hrec.trans ?_
    rcases pushed j _ hl with h | ⟨l', e, hp⟩
    · rw [h]; exact List.nil_prefix
    · cases e
      exact hp.filter _

end arrival

theorem Healthy.receivedFor {k : Id} {l : List Span} (h : Healthy k l) : Verif.receivedFor k l = l := by
  unfold Verif.receivedFor
  refine List.filter_eq_self.mpr fun s hs => ?_
  obtain ⟨h1, h2⟩ := h.trace s hs
  have : Traced s := ⟨by rw [h1]; exact h.some, h2⟩
  simp [this, h1]

/-! ## C103 -/

variable {r : Execution plainConverter ()}

/-- C103, for any of the routes: a request from which the parser made the spans of one healthy trace. -/
theorem C103_request (h : r.Fair) (hs : r.SenderFair) (ht : r.SinkTicks)
    -- it comes as number `j`, and is the only one with spans of this trace
    {l : List Span} {k : Id} (hh : Healthy k l) {j n n0 : Nat} (hbefore : (r.outcomes n).length ≤ j) (hj : (r.outcomes n0)[j]? = some (.spans l)) (honly : OnlyRequest r j k)
    -- its spans come to the collector
    {n1 n2 : Nat} {es fs : List CEvent} {a b : Time} {i : TickInput} (hrun : Runs (r.state n).world es (r.state n1).world) (hq : Quick k es) (hc : Calm (r.state n).world es)
    (harr : l.length ≤ (receivedFor k (r.state n1).world.received).length) (htimes : timesOf k es = some (a, b))
    -- which then looks at them in time
    (hn1 : n1 ≤ n2) (hrun' : Runs (r.state n1).world (fs ++ [.tick i]) (r.state n2).world) (hc' : Calm (r.state n1).world (fs ++ [.tick i]))
    (hlate : b + 8000000000 ≤ i.now1) (hby : TicksBy (a + 10000000000) (fs ++ [.tick i])) :
    (∃ m, ∀ m', m ≤ m' → (r.state m').http.conns[j]? = some (.answered 202)) ∧
    ∃ spans, (spans.map Span.withTags).Perm (l.map Span.withTags) ∧
      (∃ m, n2 ≤ m ∧ (OneCall (r.state m) spans ∨ InDiscarded (r.state m) spans)) ∧
      ∀ m, n2 ≤ m → List.Subperm ((r.state m).sent.flatten.flatten.filter fun d => d.traceID = k.toUInt64) (spans.map toDatadog) := by
  obtain ⟨m0, _, h202⟩ := (C100_answered h hj).1 l rfl
  refine ⟨⟨m0, h202⟩, ?_⟩
  have hlast : ∀ m, receivedFor k (r.state m).world.received <+: l := by
    intro m
    by_cases hm : (r.outcomes m).length ≤ j
    · rw [(only_request honly m).1 hm]; exact List.nil_prefix
    · have hlt : j < (r.outcomes m).length := by omega
      have hjm : (r.outcomes m)[j]? = some (.spans l) := by
        rcases Nat.le_total n0 m with hle | hle
        · exact outcome_later r hle hj
        · have := outcome_later r hle (List.getElem?_eq_getElem hlt)
          rw [hj] at this
          rw [List.getElem?_eq_getElem hlt, ← this]
      have := (only_request honly m).2 l hjm
      rwa [hh.receivedFor] at this
  have hfresh := (only_request honly n).1 hbefore
  have hes : spansOf k es = l := by
    have e := hrun.received k
    rw [hfresh, List.nil_append] at e
    have hp := hlast n1
    rw [e] at hp harr
    exact hp.eq_of_length (Nat.le_antisymm hp.length_le harr)
  obtain ⟨spans, hperm, hsent, hno⟩ := C102_intact h hs ht hfresh hrun hq hc (by rw [hes]; exact hh) htimes hn1 hrun' hc' hlate hby (by rw [hes]; exact hlast)
  rw [hes] at hperm
  exact ⟨spans, hperm, hsent, hno⟩

/-- What was received is what the document means, also in another order. -/
theorem shownV2_perm {vs : List SpanV2} {l spans : List Span} (hmeans : Pairwise₂ MeansV2 vs l) (hperm : (spans.map Span.withTags).Perm (l.map Span.withTags)) :
    ∃ vs', vs'.Perm vs ∧ Pairwise₂ ShownV2 vs' (spans.map toDatadog) := by
  have hm1 : Pairwise₂ (fun v (q : Span) => ∃ s, MeansV2 v s ∧ s.withTags = q) vs (l.map Span.withTags) := pairwise₂_map_right _ (fun v s hv => ⟨s, hv, rfl⟩) hmeans
  obtain ⟨vs', hp', hm2⟩ := pairwise₂_perm hm1 hperm.symm
  have hm3 : Pairwise₂ MeansV2 vs' spans := pairwise₂_of_map _ (fun v q ⟨s, hv, e⟩ => meansV2_withTags hv e.symm) hm2
  exact ⟨vs', hp', pairwise₂_map_right _ (fun v s hv => shownV2 hv) hm3⟩

/-- C103: the whole way, from the bytes of a request to Datadog. A request of version 2 with the document of one healthy trace, whose spans come quickly to a collector without load, is answered with 202, and
in the end one call has, as one trace, exactly one span for each of the document, with its values; or the trace was in a batch that was discarded because eight others were waiting. No other call has a span of it. -/
theorem C103_posted (h : r.Fair) (hs : r.SenderFair) (ht : r.SinkTicks)
    -- the request, and what the proxy makes of it
    {data : Str} {vs : List SpanV2} {k : Id} (hbody : BodyV2 data vs) (hh : HealthyV2 k vs) (env : HandlerEnv) (req : Request) (hroute : req.route = .v2) {body : Reader} (hdel : req.Delivers body)
    (hdata : body.data = data) (hfit : TokensFit env.buf.length data) (hbuf : 0 < env.buf.length) {out : Parsed} (hout : Returns (fun fuel => handleRequest env fuel req) out)
    -- it comes as number `j`, and is the only one with spans of this trace
    {j n n0 : Nat} (hbefore : (r.outcomes n).length ≤ j) (hj : (r.outcomes n0)[j]? = some out) (honly : OnlyRequest r j k)
    -- its spans come to the collector
    {n1 n2 : Nat} {es fs : List CEvent} {a b : Time} {i : TickInput} (hrun : Runs (r.state n).world es (r.state n1).world) (hq : Quick k es) (hc : Calm (r.state n).world es)
    (harr : vs.length ≤ (receivedFor k (r.state n1).world.received).length) (htimes : timesOf k es = some (a, b))
    -- which then looks at them in time
    (hn1 : n1 ≤ n2) (hrun' : Runs (r.state n1).world (fs ++ [.tick i]) (r.state n2).world) (hc' : Calm (r.state n1).world (fs ++ [.tick i]))
    (hlate : b + 8000000000 ≤ i.now1) (hby : TicksBy (a + 10000000000) (fs ++ [.tick i])) :
    (∃ m, ∀ m', m ≤ m' → (r.state m').http.conns[j]? = some (.answered 202)) ∧
    ∃ vs' spans, vs'.Perm vs ∧ Pairwise₂ ShownV2 vs' (spans.map toDatadog) ∧
      (∃ m, n2 ≤ m ∧ (OneCall (r.state m) spans ∨ InDiscarded (r.state m) spans)) ∧
      ∀ m, n2 ≤ m → List.Subperm ((r.state m).sent.flatten.flatten.filter fun d => d.traceID = k.toUInt64) (spans.map toDatadog) := by
  obtain ⟨l, hmeans, hparse⟩ := (C90_v2 data).1 vs hbody
  have := hout.unique (C33_document hparse env req hroute hdel hdata hfit hbuf)
  subst this
  obtain ⟨h202, spans, hperm, hsent, hno⟩ := C103_request h hs ht (hh.spans hmeans) hbefore hj honly hrun hq hc (by rw [← pairwise_length hmeans]; exact harr) htimes hn1 hrun' hc' hlate hby
  obtain ⟨vs', hp, hshown⟩ := shownV2_perm hmeans hperm
  exact ⟨h202, vs', spans, hp, hshown, hsent, hno⟩

/-- C103, for a JSON text that follows the standard, with whatever white space, order of fields and other fields. -/
theorem C103_document (h : r.Fair) (hs : r.SenderFair) (ht : r.SinkTicks)
    -- the request, and what the proxy makes of it
    {data : Str} {vs : List SpanV2} {k : Id} {js : List Json} {w t z : Str} (hw : Blank w) (hjson : Writes PlainNumber (.array js) t) (hspans : Pairwise₂ (SpanV2Of PlainString) js vs) (hbytes : w ++ (t ++ z) = data) (hh : HealthyV2 k vs) (env : HandlerEnv) (req : Request) (hroute : req.route = .v2) {body : Reader} (hdel : req.Delivers body)
    (hdata : body.data = data) (hfit : TokensFit env.buf.length data) (hbuf : 0 < env.buf.length) {out : Parsed} (hout : Returns (fun fuel => handleRequest env fuel req) out)
    -- it comes as number `j`, and is the only one with spans of this trace
    {j n n0 : Nat} (hbefore : (r.outcomes n).length ≤ j) (hj : (r.outcomes n0)[j]? = some out) (honly : OnlyRequest r j k)
    -- its spans come to the collector
    {n1 n2 : Nat} {es fs : List CEvent} {a b : Time} {i : TickInput} (hrun : Runs (r.state n).world es (r.state n1).world) (hq : Quick k es) (hc : Calm (r.state n).world es)
    (harr : vs.length ≤ (receivedFor k (r.state n1).world.received).length) (htimes : timesOf k es = some (a, b))
    -- which then looks at them in time
    (hn1 : n1 ≤ n2) (hrun' : Runs (r.state n1).world (fs ++ [.tick i]) (r.state n2).world) (hc' : Calm (r.state n1).world (fs ++ [.tick i]))
    (hlate : b + 8000000000 ≤ i.now1) (hby : TicksBy (a + 10000000000) (fs ++ [.tick i])) :
    (∃ m, ∀ m', m ≤ m' → (r.state m').http.conns[j]? = some (.answered 202)) ∧
    ∃ vs' spans, vs'.Perm vs ∧ Pairwise₂ ShownV2 vs' (spans.map toDatadog) ∧
      (∃ m, n2 ≤ m ∧ (OneCall (r.state m) spans ∨ InDiscarded (r.state m) spans)) ∧
      ∀ m, n2 ≤ m → List.Subperm ((r.state m).sent.flatten.flatten.filter fun d => d.traceID = k.toUInt64) (spans.map toDatadog) := by
  obtain ⟨l, hmeans, hparse⟩ := C26_v2_partial (s := z) hw hjson hspans
  rw [hbytes] at hparse
  have := hout.unique (C33_document hparse env req hroute hdel hdata hfit hbuf)
  subst this
  obtain ⟨h202, spans, hperm, hsent, hno⟩ := C103_request h hs ht (hh.spans hmeans) hbefore hj honly hrun hq hc (by rw [← pairwise_length hmeans]; exact harr) htimes hn1 hrun' hc' hlate hby
  obtain ⟨vs', hp, hshown⟩ := shownV2_perm hmeans hperm
  exact ⟨h202, vs', spans, hp, hshown, hsent, hno⟩

theorem shownV1_perm {vs : List SpanV1} {l spans : List Span} (hmeans : Pairwise₂ MeansV1 vs l) (hperm : (spans.map Span.withTags).Perm (l.map Span.withTags)) :
    ∃ vs', vs'.Perm vs ∧ Pairwise₂ ShownV1 vs' (spans.map toDatadog) := by
  have hm1 : Pairwise₂ (fun v (q : Span) => ∃ s, MeansV1 v s ∧ s.withTags = q) vs (l.map Span.withTags) := pairwise₂_map_right _ (fun v s hv => ⟨s, hv, rfl⟩) hmeans
  obtain ⟨vs', hp', hm2⟩ := pairwise₂_perm hm1 hperm.symm
  have hm3 : Pairwise₂ MeansV1 vs' spans := pairwise₂_of_map _ (fun v q ⟨s, hv, e⟩ => meansV1_withTags hv e.symm) hm2
  exact ⟨vs', hp', pairwise₂_map_right _ (fun v s hv => shownV1 hv) hm3⟩

/-- C103 for version 1: a JSON text whose binary annotations all say everything, whatever is in the memory of the pool (see C28). -/
theorem C103_v1_document (h : r.Fair) (hs : r.SenderFair) (ht : r.SinkTicks)
    -- the request, and what the proxy makes of it
    {data : Str} {vs : List SpanV1} {k : Id} {js : List Json} {w t z : Str} (hw : Blank w) (hjson : Writes PlainNumber (.array js) t) (hspans : Pairwise₂ (WholeSpanV1Of PlainString) js vs) (hbytes : w ++ (t ++ z) = data) (hh : HealthyV1 k vs) (env : HandlerEnv) (req : Request) (hroute : req.route = .v1) (htype : b!"application/json" <:+: req.contentType) {body : Reader} (hdel : req.Delivers body)
    (hdata : body.data = data) (hfit : TokensFit env.buf.length data) (hbuf : 0 < env.buf.length) {out : Parsed} (hout : Returns (fun fuel => handleRequest env fuel req) out)
    -- it comes as number `j`, and is the only one with spans of this trace
    {j n n0 : Nat} (hbefore : (r.outcomes n).length ≤ j) (hj : (r.outcomes n0)[j]? = some out) (honly : OnlyRequest r j k)
    -- its spans come to the collector
    {n1 n2 : Nat} {es fs : List CEvent} {a b : Time} {i : TickInput} (hrun : Runs (r.state n).world es (r.state n1).world) (hq : Quick k es) (hc : Calm (r.state n).world es)
    (harr : vs.length ≤ (receivedFor k (r.state n1).world.received).length) (htimes : timesOf k es = some (a, b))
    -- which then looks at them in time
    (hn1 : n1 ≤ n2) (hrun' : Runs (r.state n1).world (fs ++ [.tick i]) (r.state n2).world) (hc' : Calm (r.state n1).world (fs ++ [.tick i]))
    (hlate : b + 8000000000 ≤ i.now1) (hby : TicksBy (a + 10000000000) (fs ++ [.tick i])) :
    (∃ m, ∀ m', m ≤ m' → (r.state m').http.conns[j]? = some (.answered 202)) ∧
    ∃ vs' spans, vs'.Perm vs ∧ Pairwise₂ ShownV1 vs' (spans.map toDatadog) ∧
      (∃ m, n2 ≤ m ∧ (OneCall (r.state m) spans ∨ InDiscarded (r.state m) spans)) ∧
      ∀ m, n2 ≤ m → List.Subperm ((r.state m).sent.flatten.flatten.filter fun d => d.traceID = k.toUInt64) (spans.map toDatadog) := by
  obtain ⟨l, hmeans, pool', hparse⟩ := C28_whole_partial env.newCap env.pool (s := z) hw hjson hspans
  rw [hbytes] at hparse
  have := hout.unique (handled_v1 hparse hroute htype hdel hdata hfit hbuf)
  subst this
  obtain ⟨h202, spans, hperm, hsent, hno⟩ := C103_request h hs ht (hh.spans hmeans) hbefore hj honly hrun hq hc (by rw [← pairwise_length hmeans]; exact harr) htimes hn1 hrun' hc' hlate hby
  obtain ⟨vs', hp, hshown⟩ := shownV1_perm hmeans hperm
  exact ⟨h202, vs', spans, hp, hshown, hsent, hno⟩

/-- C103 for version 1: everything that is accepted, with what was in the memory of the pool. -/
theorem C103_v1 (h : r.Fair) (hs : r.SenderFair) (ht : r.SinkTicks)
    -- the request, and what the proxy makes of it
    (env : HandlerEnv) {data : Str} {k : Id} {after : Cells MemV1} (hbody : BodyV1 data (poolMemory env.pool) after) {vs : List SpanV1} (hvs : after.list.map MemV1.span = vs) (hh : HealthyV1 k vs) (req : Request) (hroute : req.route = .v1) (htype : b!"application/json" <:+: req.contentType) {body : Reader} (hdel : req.Delivers body)
    (hdata : body.data = data) (hfit : TokensFit env.buf.length data) (hbuf : 0 < env.buf.length) {out : Parsed} (hout : Returns (fun fuel => handleRequest env fuel req) out)
    -- it comes as number `j`, and is the only one with spans of this trace
    {j n n0 : Nat} (hbefore : (r.outcomes n).length ≤ j) (hj : (r.outcomes n0)[j]? = some out) (honly : OnlyRequest r j k)
    -- its spans come to the collector
    {n1 n2 : Nat} {es fs : List CEvent} {a b : Time} {i : TickInput} (hrun : Runs (r.state n).world es (r.state n1).world) (hq : Quick k es) (hc : Calm (r.state n).world es)
    (harr : vs.length ≤ (receivedFor k (r.state n1).world.received).length) (htimes : timesOf k es = some (a, b))
    -- which then looks at them in time
    (hn1 : n1 ≤ n2) (hrun' : Runs (r.state n1).world (fs ++ [.tick i]) (r.state n2).world) (hc' : Calm (r.state n1).world (fs ++ [.tick i]))
    (hlate : b + 8000000000 ≤ i.now1) (hby : TicksBy (a + 10000000000) (fs ++ [.tick i])) :
    (∃ m, ∀ m', m ≤ m' → (r.state m').http.conns[j]? = some (.answered 202)) ∧
    ∃ vs' spans, vs'.Perm vs ∧ Pairwise₂ ShownV1 vs' (spans.map toDatadog) ∧
      (∃ m, n2 ≤ m ∧ (OneCall (r.state m) spans ∨ InDiscarded (r.state m) spans)) ∧
      ∀ m, n2 ≤ m → List.Subperm ((r.state m).sent.flatten.flatten.filter fun d => d.traceID = k.toUInt64) (spans.map toDatadog) := by
  obtain ⟨l, pool', hmeans, hparse, _, _⟩ := C90_v1 env.newCap data env.pool hbody
  have hmeans : Pairwise₂ MeansV1 vs l := by rw [← hvs]; exact pairwise₂_map_left MemV1.span (fun _ _ h => h) hmeans
  have := hout.unique (handled_v1 hparse hroute htype hdel hdata hfit hbuf)
  subst this
  obtain ⟨h202, spans, hperm, hsent, hno⟩ := C103_request h hs ht (hh.spans hmeans) hbefore hj honly hrun hq hc (by rw [← pairwise_length hmeans]; exact harr) htimes hn1 hrun' hc' hlate hby
  obtain ⟨vs', hp, hshown⟩ := shownV1_perm hmeans hperm
  exact ⟨h202, vs', spans, hp, hshown, hsent, hno⟩

/-! ## A document that takes this way -/

/-- An execution in which a request with one span comes, and is all that ever comes. -/
theorem one_request {k : Id} {s : Span} (hh : Healthy k [s]) : ∃ (r : Execution plainConverter ()) (es fs : List CEvent) (i : TickInput), r.Fair ∧ r.SenderFair ∧ r.SinkTicks ∧
    (r.outcomes 0).length = 0 ∧ (r.outcomes 1)[0]? = some (.spans [s]) ∧ OnlyRequest r 0 k ∧ Runs (r.state 0).world es (r.state 3).world ∧ Quick k es ∧ Calm (r.state 0).world es ∧
    receivedFor k (r.state 3).world.received = [s] ∧ timesOf k es = some (0, 0) ∧ Runs (r.state 3).world (fs ++ [.tick i]) (r.state 4).world ∧ Calm (r.state 3).world (fs ++ [.tick i]) ∧
    (0 : Time) + 8000000000 ≤ i.now1 ∧ TicksBy (0 + 10000000000) (fs ++ [.tick i]) := by
  let s0 : System Unit := System.init () 0
  have h0 : System.Reachable plainConverter () [] s0 := .init (k := ()) 0
  let s1 : System Unit := { s0 with http := { conns := [.pushing [s]], channel := [] } }
  have h1 : System.Reachable plainConverter () [.spans [s]] s1 := .request (.spans [s]) h0
  let s2 : System Unit := { s0 with http := { conns := [.pushing []], channel := [s] } }
  have st2 : s1.Step plainConverter s2 := .http (.push (i := 0) (s := s) (rest := []) _ rfl (by show 0 < 256; decide))
  have h2 : System.Reachable plainConverter () [.spans [s]] s2 := .step h1 st2
  let s3 : System Unit := { s2 with http := { s2.http with channel := [] }, world := s2.world.receive 0 0 s }
  have st3 : s2.Step plainConverter s3 := .collect 0 0 rfl rfl (Int.le_refl _) (Int.le_refl _)
  have h3 : System.Reachable plainConverter () [.spans [s]] s3 := .step h2 st3
  obtain ⟨i, hv, hn1, hn2, _⟩ := exists_valid s3.world.c 8000000000 8000000000 (fun _ => 0) (Int.le_refl _)
  have hclock : s3.world.clock ≤ i.now1 := by
    rw [hn1]
    show (0 : Int) ≤ 8000000000
    decide
  let s4 : System Unit := { s3 with world := s3.world.tick i, outbox := emittedOf (s3.world.c.tick i).2 }
  have st4 : s3.Event s4 := .tick i rfl hv hclock
  have h4 : System.Reachable plainConverter () [.spans [s]] s4 := .event h3 st4
  obtain ⟨r, e1, e2, f1, _, f3, f4⟩ := C101_exists h4
  have n4 : System.Next plainConverter [.spans [s]] s3 (r.outcomes 0) (r.state 0) := by rw [e1, e2 0]; exact .event st4
  let r3 := r.prepend h3 n4
  let r2 := r3.prepend h2 (o := [.spans [s]]) (.step st3)
  let r1 := r2.prepend h1 (o := [.spans [s]]) (.step st2)
  let r0 := r1.prepend h0 (o := []) (.request (.spans [s]))
  have hout : ∀ m, r0.outcomes (m + 1) = [.spans [s]] := by
    intro m
    match m with
    | 0 => rfl
    | 1 => rfl
    | 2 => rfl
    | m + 3 => exact e2 m
  have hstate : r0.state 4 = s4 := e1
  have htr := hh.trace s (by simp)
  have hrec : receivedFor k [s] = [s] := hh.receivedFor
  have hts : Traced s := ⟨by rw [htr.1]; exact hh.some, htr.2⟩
  refine ⟨r0, [.receive 0 0 s], [], i, prepend_fair _ _ (prepend_fair _ _ (prepend_fair _ _ (prepend_fair _ _ f1))),
    prepend_sender _ _ (prepend_sender _ _ (prepend_sender _ _ (prepend_sender _ _ f3))), prepend_sinkTicks _ _ (prepend_sinkTicks _ _ (prepend_sinkTicks _ _ (prepend_sinkTicks _ _ f4))),
    rfl, rfl, ?_, ?_, ?_, ?_, hrec, ?_, ?_, ?_, by rw [hn1]; decide, ?_⟩
  · intro m j l hl hj
    have hlt := (List.getElem?_eq_some_iff.mp hl).1
    have hle : (r0.outcomes m).length ≤ 1 := by
      cases m with
      | zero => exact Nat.zero_le _
      | succ m => rw [hout m]; exact Nat.le_refl _
    omega
  · exact Runs.receive (es := []) 0 0 s .nil (Int.le_refl _) (Int.le_refl _)
  · intro pre j a b hp _
    have := hp.length_le
    match pre, hp with
    | [], ⟨t, ht⟩ => simp at ht
    | x :: pre, hp => simp at this
  · intro pre j u hp _
    have := hp.length_le
    match pre, hp with
    | [], ⟨t, ht⟩ => simp at ht
    | x :: pre, hp => simp at this
  · show (if Traced s ∧ s.trace = k then some ((0 : Time), (0 : Time)) else none) = _
    rw [if_pos ⟨hts, htr.1⟩]
  · rw [hstate]
    exact Runs.tick (es := []) i .nil hv hclock
  · intro pre j u hp hu
    have hl := hp.length_le
    match pre, hp with
    | [], _ =>
      generalize hes : ([] : List CEvent) = es at hu
      cases hu with
      | nil =>
        refine Nat.le_trans (counted_le (reachable_inv (r0.world 3))) ?_
        show 1 ≤ 100000
        decide
      | receive _ _ _ _ _ _ => simp at hes
      | tick _ _ _ _ => simp at hes
    | x :: pre, hp => simp at hl
  · intro pre j hp
    have hl := hp.length_le
    match pre, hp with
    | [], ⟨t, ht⟩ =>
      simp at ht
      rw [ht.1, hn2]
      decide
    | x :: pre, hp => simp at hl

/-- A document, as it may be posted, and its span. -/
def postedDocument : Str :=
  b!"[{\"traceId\":\"9\",\"id\":\"7\",\"name\":\"get\",\"kind\":\"SERVER\",\"timestamp\":1577836800000001,\"duration\":5000,\"localEndpoint\":{\"serviceName\":\"shop\"}}]"

def postedSpan : SpanV2 := { traceId := 9, id := 7, name := b!"get", kind := b!"SERVER", timestamp := 1577836800000001, duration := 5000, endpoint := { serviceName := b!"shop" } }

theorem posted_body : BodyV2 postedDocument [postedSpan] := by
  have lit : ∀ {l : Str}, (∀ c ∈ l, c ≠ c!"\"" ∧ c ≠ c!"\\" ∧ 0x20 ≤ c) → Unquotes l l := by
    intro l h
    refine ⟨?_, text_unescape h⟩
    induction l with
    | nil => exact .nil
    | cons c l ih => exact .char (h c (by simp)).1 (h c (by simp)).2.1 (ih fun x hx => h x (by simp [hx]))
  refine ⟨_, ⟨[], _, [], rfl, by decide, .array (.cons (w := []) (by decide) (.object
      (.cons (w := []) (lit := b!"traceId") (w' := b!":") (t := b!"\"9\",\"id\":\"7\",\"name\":\"get\",\"kind\":\"SERVER\",\"timestamp\":1577836800000001,\"duration\":5000,\"localEndpoint\":{\"serviceName\":\"shop\"}}]") (by decide) (lit (by decide)) (by decide)
        (.string (lit := b!"9") (lit (by decide)))
      (.cons (w := b!",") (lit := b!"id") (w' := b!":") (t := b!"\"7\",\"name\":\"get\",\"kind\":\"SERVER\",\"timestamp\":1577836800000001,\"duration\":5000,\"localEndpoint\":{\"serviceName\":\"shop\"}}]") (by decide) (lit (by decide)) (by decide)
        (.string (lit := b!"7") (lit (by decide)))
      (.cons (w := b!",") (lit := b!"name") (w' := b!":") (t := b!"\"get\",\"kind\":\"SERVER\",\"timestamp\":1577836800000001,\"duration\":5000,\"localEndpoint\":{\"serviceName\":\"shop\"}}]") (by decide) (lit (by decide)) (by decide)
        (.string (lit := b!"get") (lit (by decide)))
      (.cons (w := b!",") (lit := b!"kind") (w' := b!":") (t := b!"\"SERVER\",\"timestamp\":1577836800000001,\"duration\":5000,\"localEndpoint\":{\"serviceName\":\"shop\"}}]") (by decide) (lit (by decide)) (by decide)
        (.string (lit := b!"SERVER") (lit (by decide)))
      (.cons (w := b!",") (lit := b!"timestamp") (w' := b!":") (t := b!"1577836800000001,\"duration\":5000,\"localEndpoint\":{\"serviceName\":\"shop\"}}]") (by decide) (lit (by decide)) (by decide)
        (.number (t := b!"1577836800000001") ⟨_, _, rfl, by decide, by decide⟩ ⟨_, _, rfl, by decide⟩)
      (.cons (w := b!",") (lit := b!"duration") (w' := b!":") (t := b!"5000,\"localEndpoint\":{\"serviceName\":\"shop\"}}]") (by decide) (lit (by decide)) (by decide)
        (.number (t := b!"5000") ⟨_, _, rfl, by decide, by decide⟩ ⟨_, _, rfl, by decide⟩)
      (.cons (w := b!",") (lit := b!"localEndpoint") (w' := b!":") (t := b!"{\"serviceName\":\"shop\"}}]") (by decide) (lit (by decide)) (by decide)
        (.object (.cons (w := []) (lit := b!"serviceName") (w' := b!":") (t := b!"\"shop\"}}]") (by decide) (lit (by decide)) (by decide) (.string (lit := b!"shop") (lit (by decide))) (.nil (w := []) (by decide))))
      (.nil (w := []) (by decide)))))))))) (.nil (w := []) (by decide)))⟩, ?_⟩
  rfl

theorem posted_healthy : HealthyV2 9 [postedSpan] := by
  refine ⟨by decide, ?_, by decide, by decide, ⟨postedSpan, by simp, .inr ?_, fun v hv hne => absurd (by rw [List.mem_singleton.mp hv]) hne⟩, ?_⟩ <;> simp only [List.mem_singleton, forall_eq] <;> decide

/-- C103: it takes the whole way, in some execution: a call has one span with its values, and no other has a span of this trace; or it was discarded. -/
theorem C103_witness : ∃ (r : Execution plainConverter ()) (spans : List Span), (∃ d, spans.map toDatadog = [d] ∧ ShownV2 postedSpan d) ∧
    (∃ m, OneCall (r.state m) spans ∨ InDiscarded (r.state m) spans) ∧ ∃ m, (r.state m).http.conns[0]? = some (.answered 202) := by
  let env : HandlerEnv := { newCap := fun _ n => n, decodeJaeger := fun _ => none, buf := List.replicate 4096 0, pool := [] }
  let req : Request := { route := .v2, contentType := [], contentEncoding := [], body := { data := postedDocument, script := [], failing := false, idle := false }, unzipped := none }
  obtain ⟨l, hmeans, hparse⟩ := (C90_v2 postedDocument).1 _ posted_body
  have hl := posted_healthy.spans hmeans
  obtain ⟨s, rfl⟩ : ∃ s, l = [s] := by
    cases hmeans with
    | cons _ h => cases h; exact ⟨_, rfl⟩
  have hfit : TokensFit env.buf.length postedDocument := by decide +kernel
  have hret := C33_document hparse env req rfl (by unfold Request.Delivers; rw [if_neg (by decide)]) rfl hfit (by rw [List.length_replicate]; decide)
  obtain ⟨r, es, fs, i, f1, f2, f3, ho, hj, honly, hrun, hq, hc, hrec, ht, hrun', hc', hlate, hby⟩ := one_request hl
  obtain ⟨⟨m0, h202⟩, vs', spans, hp, hs, ⟨m, _, hm⟩, _⟩ := C103_posted f1 f2 f3 posted_body posted_healthy env req rfl (by unfold Request.Delivers; rw [if_neg (by decide)]) rfl hfit (by rw [List.length_replicate]; decide) hret
    (by rw [ho]) hj honly hrun hq hc (by rw [hrec]; exact Nat.le_refl _) ht (by decide) hrun' hc' hlate hby
  refine ⟨r, spans, ?_, ⟨m, hm⟩, m0, h202 m0 (Nat.le_refl _)⟩
  rw [List.perm_singleton.mp hp] at hs
  generalize spans.map toDatadog = ds at hs
  cases hs with
  | cons hr h => cases h; exact ⟨_, rfl, hr⟩

/-- A document of version 1. -/
def postedDocumentV1 : Str := b!"[{\"traceId\":\"9\",\"id\":\"7\",\"name\":\"get\",\"annotations\":[{\"timestamp\":1577836800000001,\"value\":\"sr\",\"endpoint\":{\"serviceName\":\"shop\"}},{\"timestamp\":1577836800005001,\"value\":\"ss\"}],\"binaryAnnotations\":[{\"key\":\"a\",\"value\":\"b\"}]}]"

def postedSpanV1 : SpanV1 :=
  { traceId := 9, id := 7, name := b!"get", annotations := [{ timestamp := 1577836800000001, value := b!"sr", endpoint := { serviceName := b!"shop" } }, { timestamp := 1577836800005001, value := b!"ss" }, {}, {}],
    binaryAnnotations := { cells := [{ key := b!"a", value := b!"b" }], len := 1 } }

theorem posted_body_v1 : ∃ after, BodyV1 postedDocumentV1 (poolMemory (List.replicate 64 {})) after ∧ after.list.map MemV1.span = [postedSpanV1] := by
  have lit : ∀ {l : Str}, (∀ c ∈ l, c ≠ c!"\"" ∧ c ≠ c!"\\" ∧ 0x20 ≤ c) → Unquotes l l := by
    intro l h
    refine ⟨?_, text_unescape h⟩
    induction l with
    | nil => exact .nil
    | cons c l ih => exact .char (h c (by simp)).1 (h c (by simp)).2.1 (ih fun x hx => h x (by simp [hx]))
  refine ⟨?after, ⟨_, ⟨[], _, [], rfl, by decide, .array (.cons (w := []) (by decide) (.object (.cons (w := []) (lit := b!"traceId") (w' := b!":") (t := b!"\"9\",\"id\":\"7\",\"name\":\"get\",\"annotations\":[{\"timestamp\":1577836800000001,\"value\":\"sr\",\"endpoint\":{\"serviceName\":\"shop\"}},{\"timestamp\":1577836800005001,\"value\":\"ss\"}],\"binaryAnnotations\":[{\"key\":\"a\",\"value\":\"b\"}]}]") (by decide) (lit (by decide)) (by decide) (.string (lit := b!"9") (lit (by decide)))
        (.cons (w := b!",") (lit := b!"id") (w' := b!":") (t := b!"\"7\",\"name\":\"get\",\"annotations\":[{\"timestamp\":1577836800000001,\"value\":\"sr\",\"endpoint\":{\"serviceName\":\"shop\"}},{\"timestamp\":1577836800005001,\"value\":\"ss\"}],\"binaryAnnotations\":[{\"key\":\"a\",\"value\":\"b\"}]}]") (by decide) (lit (by decide)) (by decide) (.string (lit := b!"7") (lit (by decide)))
        (.cons (w := b!",") (lit := b!"name") (w' := b!":") (t := b!"\"get\",\"annotations\":[{\"timestamp\":1577836800000001,\"value\":\"sr\",\"endpoint\":{\"serviceName\":\"shop\"}},{\"timestamp\":1577836800005001,\"value\":\"ss\"}],\"binaryAnnotations\":[{\"key\":\"a\",\"value\":\"b\"}]}]") (by decide) (lit (by decide)) (by decide) (.string (lit := b!"get") (lit (by decide)))
        (.cons (w := b!",") (lit := b!"annotations") (w' := b!":") (t := b!"[{\"timestamp\":1577836800000001,\"value\":\"sr\",\"endpoint\":{\"serviceName\":\"shop\"}},{\"timestamp\":1577836800005001,\"value\":\"ss\"}],\"binaryAnnotations\":[{\"key\":\"a\",\"value\":\"b\"}]}]") (by decide) (lit (by decide)) (by decide) (.array (.cons (w := []) (by decide) (.object (.cons (w := []) (lit := b!"timestamp") (w' := b!":") (t := b!"1577836800000001,\"value\":\"sr\",\"endpoint\":{\"serviceName\":\"shop\"}},{\"timestamp\":1577836800005001,\"value\":\"ss\"}],\"binaryAnnotations\":[{\"key\":\"a\",\"value\":\"b\"}]}]") (by decide) (lit (by decide)) (by decide) (.number (t := b!"1577836800000001") ⟨_, _, rfl, by decide, by decide⟩ ⟨_, _, rfl, by decide⟩)
        (.cons (w := b!",") (lit := b!"value") (w' := b!":") (t := b!"\"sr\",\"endpoint\":{\"serviceName\":\"shop\"}},{\"timestamp\":1577836800005001,\"value\":\"ss\"}],\"binaryAnnotations\":[{\"key\":\"a\",\"value\":\"b\"}]}]") (by decide) (lit (by decide)) (by decide) (.string (lit := b!"sr") (lit (by decide)))
        (.cons (w := b!",") (lit := b!"endpoint") (w' := b!":") (t := b!"{\"serviceName\":\"shop\"}},{\"timestamp\":1577836800005001,\"value\":\"ss\"}],\"binaryAnnotations\":[{\"key\":\"a\",\"value\":\"b\"}]}]") (by decide) (lit (by decide)) (by decide) (.object (.cons (w := []) (lit := b!"serviceName") (w' := b!":") (t := b!"\"shop\"}},{\"timestamp\":1577836800005001,\"value\":\"ss\"}],\"binaryAnnotations\":[{\"key\":\"a\",\"value\":\"b\"}]}]") (by decide) (lit (by decide)) (by decide) (.string (lit := b!"shop") (lit (by decide)))
        (.nil (w := []) (by decide))))
        (.nil (w := []) (by decide))))))
        (.cons (w := b!",") (by decide) (.object (.cons (w := []) (lit := b!"timestamp") (w' := b!":") (t := b!"1577836800005001,\"value\":\"ss\"}],\"binaryAnnotations\":[{\"key\":\"a\",\"value\":\"b\"}]}]") (by decide) (lit (by decide)) (by decide) (.number (t := b!"1577836800005001") ⟨_, _, rfl, by decide, by decide⟩ ⟨_, _, rfl, by decide⟩)
        (.cons (w := b!",") (lit := b!"value") (w' := b!":") (t := b!"\"ss\"}],\"binaryAnnotations\":[{\"key\":\"a\",\"value\":\"b\"}]}]") (by decide) (lit (by decide)) (by decide) (.string (lit := b!"ss") (lit (by decide)))
        (.nil (w := []) (by decide)))))
        (.nil (w := []) (by decide)))))
        (.cons (w := b!",") (lit := b!"binaryAnnotations") (w' := b!":") (t := b!"[{\"key\":\"a\",\"value\":\"b\"}]}]") (by decide) (lit (by decide)) (by decide) (.array (.cons (w := []) (by decide) (.object (.cons (w := []) (lit := b!"key") (w' := b!":") (t := b!"\"a\",\"value\":\"b\"}]}]") (by decide) (lit (by decide)) (by decide) (.string (lit := b!"a") (lit (by decide)))
        (.cons (w := b!",") (lit := b!"value") (w' := b!":") (t := b!"\"b\"}]}]") (by decide) (lit (by decide)) (by decide) (.string (lit := b!"b") (lit (by decide)))
        (.nil (w := []) (by decide)))))
        (.nil (w := []) (by decide))))
        (.nil (w := []) (by decide))))))))
        (.nil (w := []) (by decide)))⟩, ?fill⟩, ?list⟩
  case fill => exact rfl
  case list => rfl

theorem posted_healthy_v1 : HealthyV1 9 [postedSpanV1] := by
  refine ⟨by decide, ?_, by decide, by decide, ⟨postedSpanV1, by simp, .inr ?_, fun v hv hne => absurd (by rw [List.mem_singleton.mp hv]) hne⟩, ?_, ?_⟩ <;> simp only [List.mem_singleton, forall_eq] <;> decide +kernel

/-- C103 for version 1: it takes the whole way, in some execution. -/
theorem C103_v1_witness : ∃ (r : Execution plainConverter ()) (spans : List Span), (∃ d, spans.map toDatadog = [d] ∧ ShownV1 postedSpanV1 d) ∧
    (∃ m, OneCall (r.state m) spans ∨ InDiscarded (r.state m) spans) ∧ ∃ m, (r.state m).http.conns[0]? = some (.answered 202) := by
  let env : HandlerEnv := { newCap := fun _ n => n, decodeJaeger := fun _ => none, buf := List.replicate 4096 0, pool := List.replicate 64 {} }
  let req : Request := { route := .v1, contentType := b!"application/json", contentEncoding := [], body := { data := postedDocumentV1, script := [], failing := false, idle := false }, unzipped := none }
  obtain ⟨after, hbody, hvs⟩ := posted_body_v1
  obtain ⟨l, pool', hmeans, hparse, _, _⟩ := C90_v1 env.newCap postedDocumentV1 env.pool hbody
  have hmeans : Pairwise₂ MeansV1 [postedSpanV1] l := by rw [← hvs]; exact pairwise₂_map_left MemV1.span (fun _ _ h => h) hmeans
  have hl := posted_healthy_v1.spans hmeans
  obtain ⟨s, rfl⟩ : ∃ s, l = [s] := by
    cases hmeans with
    | cons _ h => cases h; exact ⟨_, rfl⟩
  have hfit : TokensFit env.buf.length postedDocumentV1 := by decide +kernel
  have hdel : req.Delivers req.body := by unfold Request.Delivers; rw [if_neg (by decide)]
  have hret := handled_v1 hparse (req := req) rfl (List.infix_rfl) hdel rfl hfit (by rw [List.length_replicate]; decide)
  obtain ⟨r, es, fs, i, f1, f2, f3, ho, hj, honly, hrun, hq, hc, hrec, ht, hrun', hc', hlate, hby⟩ := one_request hl
  obtain ⟨⟨m0, h202⟩, vs', spans, hp, hs, ⟨m, _, hm⟩, _⟩ := C103_v1 f1 f2 f3 env hbody hvs posted_healthy_v1 req rfl (List.infix_rfl) hdel rfl hfit (by rw [List.length_replicate]; decide) hret
    (by rw [ho]) hj honly hrun hq hc (by rw [hrec]; exact Nat.le_refl _) ht (by decide) hrun' hc' hlate hby
  refine ⟨r, spans, ?_, ⟨m, hm⟩, m0, h202 m0 (Nat.le_refl _)⟩
  rw [List.perm_singleton.mp hp] at hs
  generalize spans.map toDatadog = ds at hs
  cases hs with
  | cons hr h => cases h; exact ⟨_, rfl, hr⟩

end Verif
