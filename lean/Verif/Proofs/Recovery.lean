import Verif.Spec.Recovery
import Verif.Proofs.FairCluster

/-!
# Progress after crashes, losses and new assignments
-/

namespace Verif

open Spec

variable {κ : Type} {conv : κ → Span → Option Span × κ} {k : κ} {part : List UInt8 → Nat}

/-! ## What is known about the proxies after any history -/

theorem ClaimsBase.fresh (now : Time) : ClaimsBase [] [] [] ({ back := System.init k now } : Instance κ) :=
  { http := .init, parts := rfl, nodup := List.nodup_nil, busy := fun _ h => (List.not_mem_nil h).elim, opened := fun b l h => by simp [System.init] at h, order := fun _ h => (List.not_mem_nil h).elim, closed := fun _ _ => rfl }

/-- A partition is assigned. -/
theorem ClaimsBase.assign {ps calls log} {n : Instance κ} (inv : ClaimsBase ps calls log n) {p : Nat} (hp : p ∉ ps) (o : Nat) :
    ClaimsBase (ps ++ [p]) calls log { n with claims := n.claims ++ [{ partition := p, offset := o }] } := by
  refine ⟨inv.http, by simp [inv.parts], ?_, ?_, ?_, ?_, ?_⟩
  · rw [List.nodup_append]
    refine ⟨inv.nodup, by simp, fun a ha b hb e => ?_⟩
    rw [List.mem_singleton] at hb
    subst hb; subst e
    exact hp ha
  · intro cl hcl b hb
    rcases List.mem_append.mp hcl with h | h
    · exact inv.busy cl h b hb
    · rw [List.mem_singleton] at h; subst h; cases hb
  · intro b l hbl
    obtain ⟨cl, hcl, hb⟩ := inv.opened b l hbl
    exact ⟨cl, List.mem_append_left _ hcl, hb⟩
  · intro cl hcl
    rcases List.mem_append.mp hcl with h | h
    · exact inv.order cl h
    · rw [List.mem_singleton] at h; subst h
      rw [show pendOf n.back.http.conns { partition := p, offset := o } = [] from rfl, List.append_nil]
      exact inv.closed p hp
  · intro q hq
    exact inv.closed q fun h => hq (List.mem_append_left _ h)

/-- A claim ends. -/
theorem ClaimsBase.revoke {ps calls log} {n : Instance κ} (inv : ClaimsBase ps calls log n) {l l' : List Claim} {cl : Claim} (hl : n.claims = l ++ cl :: l') (hb : cl.busy = none) :
    ClaimsBase ((l ++ l').map (·.partition)) calls log { n with claims := l ++ l' } := by
  have sub : ∀ a ∈ l ++ l', a ∈ n.claims := fun a ha => by
    rw [hl]
    rcases List.mem_append.mp ha with h | h
    · exact List.mem_append_left _ h
    · exact List.mem_append_right _ (List.mem_cons_of_mem _ h)
  refine ⟨inv.http, rfl, ?_, fun a ha => inv.busy a (sub a ha), ?_, fun a ha => inv.order a (sub a ha), ?_⟩
  · have := inv.nodup
    rw [← inv.parts, hl] at this
    exact this.sublist (((List.sublist_cons_self cl l').append_left l).map _)
  · intro b x hbx
    obtain ⟨a, ha, hab⟩ := inv.opened b x hbx
    rw [hl] at ha
    rcases List.mem_append.mp ha with h | h
    · exact ⟨a, List.mem_append_left _ h, hab⟩
    · rcases List.mem_cons.mp h with rfl | h
      · rw [hb] at hab; cases hab
      · exact ⟨a, List.mem_append_right _ h, hab⟩
  · intro q hq
    by_cases hps : q ∈ ps
    · rw [← inv.parts] at hps
      obtain ⟨a, ha, rfl⟩ := List.mem_map.mp hps
      have e : a = cl := by
        rw [hl] at ha
        rcases List.mem_append.mp ha with h | h
        · exact absurd (List.mem_map.mpr ⟨a, List.mem_append_left _ h, rfl⟩) hq
        · rcases List.mem_cons.mp h with h | h
          · exact h
          · exact absurd (List.mem_map.mpr ⟨a, List.mem_append_right _ h, rfl⟩) hq
      have := inv.order a ha
      rw [e, show pendOf n.back.http.conns cl = [] by unfold pendOf; rw [hb], List.append_nil] at this
      rw [e]; exact this
    · exact inv.closed q hps

/-- The history of a proxy since it was started. -/
structure Started (conv : κ → Span → Option Span × κ) (k : κ) (part : List UInt8 → Nat) (n : Instance κ) : Prop where
  front : ∃ outs t, Front.Lossy part outs t n.front
  back : ∃ ps calls log, System.Reachable conv k (calls.map fun e => Parsed.spans [e.2]) n.back ∧ ClaimsBase ps calls log n

theorem Started.fresh (now : Time) : Started conv k part ({ back := System.init k now } : Instance κ) := ⟨⟨[], [], .init⟩, [], [], [], .init now, .fresh now⟩

theorem System.Reachable.next {o o' : List Parsed} {s s' : System κ} (h : System.Reachable conv k o s) (hn : System.Next conv o s o' s') : System.Reachable conv k o' s' := by
  cases hn with
  | step hs => exact .step h hs
  | event hs => exact .event h hs
  | request o => exact .request o h
  | stay => exact h

theorem Cluster.Reachable.started {outcomes foreign} {c : Cluster κ} (h : Cluster.Reachable conv k part outcomes foreign c) : ∀ n ∈ c.instances, Started conv k part n := by
  induction h with
  | init => intro n hn; cases hn
  | @request outcomes foreign c i n o _ hi ih =>
    intro n' hn'
    rcases List.mem_or_eq_of_mem_set hn' with h | rfl
    · exact ih n' h
    · obtain ⟨⟨outs, t, h1⟩, ps, calls, log, h2, h3⟩ := ih n (List.mem_of_getElem? hi)
      exact ⟨⟨_, _, .request o h1⟩, ps, calls, log, h2, h3.front _⟩
  | foreign p v _ ih => exact ih
  | @step outcomes foreign c c' _ hs ih =>
    cases hs with
    | @front i n f e hi hs =>
      intro n' hn'
      rcases List.mem_or_eq_of_mem_set hn' with h | rfl
      · exact ih n' h
      · obtain ⟨⟨outs, t, h1⟩, ps, calls, log, h2, h3⟩ := ih n (List.mem_of_getElem? hi)
        exact ⟨⟨_, _, .step h1 hs⟩, ps, calls, log, h2, h3.front _⟩
    | @back i n n1 x hi hs =>
      intro n' hn'
      rcases List.mem_or_eq_of_mem_set hn' with h | rfl
      · exact ih n' h
      · obtain ⟨hf, ps, calls, log, h2, h3⟩ := ih n (List.mem_of_getElem? hi)
        obtain ⟨calls', log', h4, _, _, h5⟩ := h3.next hs
        refine ⟨?_, ps, calls', log', h2.next h4, h5⟩
        have : n'.front = n.front := by cases hs <;> rfl
        rw [this]; exact hf
  | @upheaval outcomes foreign c c' _ hs ih =>
    cases hs with
    | start now =>
      intro n' hn'
      rcases List.mem_append.mp hn' with h | h
      · exact ih n' h
      · rw [List.mem_singleton] at h; subst h; exact .fresh now
    | crash i now =>
      intro n' hn'
      rcases List.mem_or_eq_of_mem_set hn' with h | rfl
      · exact ih n' h
      · exact .fresh now
    | @lose i n l l' m hi hl =>
      intro n' hn'
      rcases List.mem_or_eq_of_mem_set hn' with h | rfl
      · exact ih n' h
      · obtain ⟨⟨outs, t, h1⟩, ps, calls, log, h2, h3⟩ := ih n (List.mem_of_getElem? hi)
        exact ⟨⟨_, _, .lose h1 hl⟩, ps, calls, log, h2, h3.front _⟩
    | @assign i n p o hi hfree =>
      intro n' hn'
      rcases List.mem_or_eq_of_mem_set hn' with h | rfl
      · exact ih n' h
      · obtain ⟨hf, ps, calls, log, h2, h3⟩ := ih n (List.mem_of_getElem? hi)
        refine ⟨hf, ps ++ [p], calls, log, h2, h3.assign (fun hp => ?_) o⟩
        rw [← h3.parts] at hp
        obtain ⟨cl, hcl, e⟩ := List.mem_map.mp hp
        exact hfree n (List.mem_of_getElem? hi) cl hcl e
    | @revoke i n l l' cl hi hl hb =>
      intro n' hn'
      rcases List.mem_or_eq_of_mem_set hn' with h | rfl
      · exact ih n' h
      · obtain ⟨hf, ps, calls, log, h2, h3⟩ := ih n (List.mem_of_getElem? hi)
        exact ⟨hf, _, calls, log, h2, h3.revoke hl hb⟩

/-! ## Small spans -/

theorem flatMap_length_perm {α β : Type} {f : α → List β} {l l' : List α} (h : l.Perm l') : (l.flatMap f).length = (l'.flatMap f).length := (h.flatMap_right f).length_eq

/-- The size of a message does not depend on the order of the tags. -/
theorem small_of_ord {x : Span} {ord : List (Str × Str)} (ho : IsRange ord (x.tags.getD ∅)) (h : messageSize (littleEndian x.trace.toUInt64) (binaryEncode x ord) ≤ maxMessageBytes) : Small x := by
  intro ord' ho'
  have hperm : ord'.Perm ord := ho'.trans ho.symm
  have hlen : (binaryEncode x ord').length = (binaryEncode x ord).length := by
    have e : (writeMapString ord').length = (writeMapString ord).length := by
      unfold writeMapString
      have h1 := flatMap_length_perm (f := fun e : Str × Str => writeString e.1 ++ writeString e.2) hperm
      rw [hperm.length_eq]
      by_cases h0 : ord.length = 0
      · simp [h0]
      · simp only [h0, if_false, List.length_append, h1]
    unfold binaryEncode
    simp only [List.length_append, e]
  unfold messageSize at h ⊢
  rw [hlen]; exact h

/-- If all that is on its way is small, so are all spans that a proxy accepted since it was started. -/
theorem small_history {outs log prod fly rest} {f : Front} (inv : FrontInv outs log prod fly rest f) (h : f.HoldsSmall) {x : Span} (hx : Accepted outs x) : Small x := by
  obtain ⟨l, hl, hx⟩ := hx
  obtain ⟨i, hi⟩ := List.getElem?_of_mem hl
  obtain ⟨hlen, hall, _, hlog⟩ := C33_all_or_nothing inv.http
  have hlt : i < f.http.conns.length := by rw [hlen]; exact (List.getElem?_eq_some_iff.mp hi).1
  have hc := List.getElem?_eq_getElem hlt
  have hao := hall i _ _ hi hc
  have hpush : x ∈ pushedBy i log → Small x := fun hp => by
    have hm : x ∈ log.map (·.2) := by
      obtain ⟨e, he, rfl⟩ := List.mem_map.mp hp
      exact List.mem_map.mpr ⟨e, (List.mem_filter.mp he).1, rfl⟩
    rw [hlog] at hm
    rcases List.mem_append.mp hm with hm | hm
    · obtain ⟨y, hy, rfl⟩ := List.mem_map.mp hm
      refine small_of_ord (inv.ranges y hy) ?_
      have hy' := inv.msgs.mem_iff.mpr hy
      rw [← List.append_assoc] at hy'
      rcases List.mem_append.mp hy' with hy' | hy'
      · exact (inv.ok y hy').small
      · have hb : y.2.2 ∈ f.dispatching.toList ++ f.offered.toList := by rw [← inv.before]; exact List.mem_map_of_mem hy'
        have := h.messages y.2.2 (by
          rcases List.mem_append.mp hb with hb | hb
          · exact .inr (Option.mem_toList.mp hb)
          · exact .inl (Option.mem_toList.mp hb))
        rwa [(inv.deref (inv.msgs.mem_iff.mpr hy)).1, (inv.deref (inv.msgs.mem_iff.mpr hy)).2] at this
    · exact h.channel x hm
  generalize f.http.conns[i] = c at hc hao
  generalize pushedBy i log = pushed at hao hpush
  cases hao with
  | pushing =>
    rcases List.mem_append.mp hx with hx | hx
    · exact hpush hx
    · exact h.requests _ (List.mem_of_getElem? hc) x hx
  | accepted => exact hpush hx

/-! ## In front of Kafka -/

theorem FrontExecution.since_order (r : FrontExecution part) {log prod fly rest} (inv : FrontInv (r.outcomes 0) log prod fly rest (r.state 0)) (n : Nat) :
    ∃ log' prod' fly' rest', FrontInv (r.outcomes n) log' (prod ++ prod') fly' rest' (r.state n) ∧
      FrontOrder part ((r.topic n).drop (r.topic 0).length) prod' fly' rest' (fly ++ rest ++ (r.state n).pool.sent.drop (r.state 0).pool.sent.length) ∧ log <+: log' := by
  induction n with
  | zero =>
    refine ⟨log, [], fly, rest, by simpa using inv, ⟨by simp, fun p => by simp, fly, by simp⟩, List.prefix_rfl⟩
  | succ n ih =>
    obtain ⟨log1, prod1, fly1, rest1, inv1, ord1, hlog⟩ := ih
    have ht := (r.prefix (Nat.zero_le n)).2.length_le
    have hsl := (r.sent (Nat.zero_le n)).length_le
    have hn := r.next n
    generalize r.outcomes (n + 1) = o' at hn ⊢
    generalize r.topic (n + 1) = t' at hn ⊢
    generalize r.state (n + 1) = f' at hn ⊢
    cases hn with
    | step hs =>
      obtain ⟨log', prod', fly', rest', new, inv', ord', e, hl⟩ := inv1.step_order ord1 hs
      refine ⟨log', prod', fly', rest', inv', ?_, hlog.trans hl⟩
      rw [e, List.drop_append_of_le_length hsl, List.drop_append_of_le_length ht, ← List.append_assoc]
      exact ord'
    | request o => exact ⟨log1, prod1, fly1, rest1, inv1.request o, ord1, hlog⟩
    | stay => exact ⟨log1, prod1, fly1, rest1, inv1, ord1, hlog⟩

/-- The spans of requests from now on get into the topic, whatever got lost before. -/
theorem written_since {r : FrontExecution part} (h : r.Fair) (hs : r.AllSmall) {n i : Nat} {l : List Span} (hp : (r.outcomes n)[i]? = some (.spans l)) (hi : (r.outcomes 0).length ≤ i) :
    ∃ m, n ≤ m ∧ ∀ m', m ≤ m' → ∀ p, ((goTo part p l).map Span.withTags).Sublist (inPartition part p ((r.topic m').drop (r.topic 0).length)) := by
  obtain ⟨log0, prod0, fly0, rest0, inv0⟩ := (r.reach 0).inv
  have hord := r.since_order inv0
  obtain ⟨m, hm, ha⟩ := (C104_answered h hs hp).1 l rfl
  obtain ⟨m1, hm1, hc⟩ := C104_sent h hs m
  have hsub : l.Sublist (((r.state m1).pool.sent.drop (r.state 0).pool.sent.length).map (·.1)) := by
    obtain ⟨log, _, _, _, inv, _, lnew, hlog⟩ := hord m
    have hall := C33_all_or_nothing inv.http
    have hall0 := C33_all_or_nothing inv0.http
    have hl := hall.2.1 i _ _ (r.outcome_later hm hp) (ha m (Nat.le_refl _))
    generalize hpu : pushedBy i log = pushed at hl
    cases hl
    have hnil : log0.filter (fun e => decide (e.1 = i)) = [] := List.filter_eq_nil_iff.mpr fun e he h' => by
      have h1 := hall0.2.2.1 e he
      have h2 := of_decide_eq_true h'
      omega
    have hnew : (pushedBy i log).Sublist (lnew.map (·.2)) := by
      rw [← hlog]
      unfold pushedBy
      rw [List.filter_append, hnil, List.nil_append]
      exact (List.filter_sublist).map _
    rw [hpu] at hnew
    refine hnew.trans ?_
    have hpre := hc m1 (Nat.le_refl _)
    obtain ⟨new, hnew2⟩ := r.sent (Nat.zero_le m1)
    rw [← hall.2.2.2, ← hlog, List.map_append, hall0.2.2.2, ← hnew2, List.map_append, List.append_assoc, List.prefix_append_right_inj] at hpre
    rw [← hnew2, List.drop_left]
    exact (List.sublist_append_right _ _).trans hpre.sublist
  have hprod := produced_since h hs (old := prod0) (t0 := r.topic 0) (since := fun n => (r.topic n).drop (r.topic 0).length)
    (live := fun n => fly0 ++ rest0 ++ (r.state n).pool.sent.drop (r.state 0).pool.sent.length)
    (fun n => by obtain ⟨a, b, c, d, h1, h2, _⟩ := hord n; exact ⟨a, b, c, d, h1, h2⟩)
    (fun n => by obtain ⟨t, ht⟩ := (r.prefix (Nat.zero_le n)).2; rw [← ht, List.drop_left])
    (fun n m hm => by
      obtain ⟨new, hnew⟩ := r.sent hm
      refine ⟨new, ?_, hnew.symm⟩
      rw [← hnew, List.drop_append_of_le_length (r.sent (Nat.zero_le n)).length_le, ← List.append_assoc]) m1
  obtain ⟨m2, hm2, hall⟩ := eventually_all m1 (l.map fun x => part (littleEndian x.trace.toUInt64)) fun p _ => hprod p
  refine ⟨m2, by omega, fun m' hm' p => ?_⟩
  by_cases hpl : p ∈ l.map fun x => part (littleEndian x.trace.toUInt64)
  · have hpre := hall m' hm' p hpl
    have hsub' : l.Sublist ((fly0 ++ rest0 ++ (r.state m1).pool.sent.drop (r.state 0).pool.sent.length).map (·.1)) := by
      rw [List.map_append]
      exact hsub.trans (List.sublist_append_right _ _)
    obtain ⟨_, prod1, fly1, rest1, inv1, ord1, _⟩ := hord m1
    have hmem : ∀ y ∈ (fly0 ++ rest0 ++ (r.state m1).pool.sent.drop (r.state 0).pool.sent.length).filter (Sent.inPart part p), y ∈ (r.state m1).pool.sent := fun y hy => by
      rw [← ord1.order p] at hy
      refine inv1.msgs.mem_iff.mp ?_
      rw [List.append_assoc]
      exact List.mem_append_right _ (List.mem_filter.mp hy).1
    generalize fly0 ++ rest0 ++ (r.state m1).pool.sent.drop (r.state 0).pool.sent.length = live at hpre hsub' hmem
    have e1 : goTo part p (live.map (·.1)) = (live.filter (Sent.inPart part p)).map (·.1) := by
      unfold goTo; rw [List.filter_map]; rfl
    have h1 : (goTo part p l).Sublist ((live.filter (Sent.inPart part p)).map (·.1)) := by
      rw [← e1]; exact hsub'.filter _
    refine (h1.map Span.withTags).trans ?_
    have h2 := (hpre.filterMap fun e => decodeKafkaMessage e.2).sublist
    refine List.Sublist.trans ?_ h2
    rw [List.filterMap_map, List.map_map]
    have hok : ∀ y ∈ live.filter (Sent.inPart part p), decodeKafkaMessage (binaryEncode y.1 y.2.1) = some y.1.withTags := fun y hy => by
      have hy' := hmem y hy
      exact SentOk.decode ⟨hs m1 _ (http_accepted inv1.http (List.mem_map.mpr ⟨y, hy', rfl⟩)) _ (inv1.ranges y hy'), inv1.ranges y hy'⟩
    rw [filterMap_of_some (f := (fun e => decodeKafkaMessage e.2) ∘ fun x : Sent => (littleEndian x.1.trace.toUInt64, binaryEncode x.1 x.2.1)) (g := Span.withTags ∘ fun x : Sent => x.1) (fun y hy => by simp only [Function.comp_apply]; exact hok y hy)]
  · have : goTo part p l = [] := List.filter_eq_nil_iff.mpr fun x hx e => hpl (List.mem_map.mpr ⟨x, hx, of_decide_eq_true e⟩)
    rw [this]
    exact List.nil_sublist _

variable {r : Recovery conv k part}

theorem Recovery.proxy (r : Recovery conv k part) {i : Nat} (hi : i < (r.state 0).instances.length) : ∃ s, r.Proxy i s := by
  have hlen : ∀ n, (r.state n).instances.length = (r.state 0).instances.length := fun n => by
    induction n with
    | zero => rfl
    | succ n ih => rw [(r.next n).length, ih]
  exact ⟨fun n => (r.state n).instances[i]'(by rw [hlen]; exact hi), fun n => List.getElem?_eq_getElem _⟩

theorem Recovery.topic (r : Recovery conv k part) {n m : Nat} (hm : n ≤ m) (p : Nat) : (r.state n).topic p <+: (r.state m).topic p := by
  induction hm with
  | refl => exact List.prefix_rfl
  | step hm ih => exact ih.trans ((r.next _).topic p)

theorem Recovery.started {i : Nat} {s : Nat → Instance κ} (hs : r.Proxy i s) : Started conv k part (s 0) := by
  obtain ⟨outcomes, foreign, h⟩ := r.start
  exact h.started _ (List.mem_of_getElem? (hs 0))

/-- What a proxy does in front of Kafka from now on. -/
theorem Recovery.front {i : Nat} {s : Nat → Instance κ} (hs : r.Proxy i s) : ∃ (f : FrontExecution part) (outs : List Parsed), (∀ n, f.state n = (s n).front) ∧
    outs.length = (s 0).front.http.conns.length ∧ (∀ n, f.outcomes n = outs ++ r.requests n i) ∧
    ∀ n p, ((inPart part p ((f.topic n).drop (f.topic 0).length)).map (·.2)).Sublist (((r.state n).topic p).drop ((r.state 0).topic p).length) := by
  obtain ⟨⟨outs, t, hstart⟩, _⟩ := Recovery.started hs
  obtain ⟨e, he0, he⟩ := choose_seq (P := fun n e => ∀ p, ((inPart part p e).map (·.2)).Sublist (((r.state n).topic p).drop ((r.state 0).topic p).length))
    (R := fun n e e' => Front.Next part (outs ++ r.requests n i) (t ++ e) (s n).front (outs ++ r.requests (n + 1) i) (t ++ e') (s (n + 1)).front)
    (a := []) (fun p => List.nil_sublist _) (fun n e h => by
      obtain ⟨e', h1, h2⟩ := (r.next n).writes (hs n) (hs (n + 1)) outs (t ++ e)
      refine ⟨e ++ e', fun p => ?_, by rw [← List.append_assoc]; exact h1⟩
      obtain ⟨w, hw⟩ := h2 p
      rw [← hw, List.append_assoc, List.drop_append_of_le_length (r.topic (Nat.zero_le n) p).length_le, inPart_append, List.map_append, ← List.append_assoc]
      exact ((h p).append (List.Sublist.refl _)).trans (List.sublist_append_left _ _))
  refine ⟨{ state := fun n => (s n).front, outcomes := fun n => outs ++ r.requests n i, topic := fun n => t ++ e n, start := by rw [r.noRequests, he0, List.append_nil, List.append_nil]; exact hstart, next := fun n => (he n).2 }, outs, fun _ => rfl, ?_, fun _ => rfl, fun n p => ?_⟩
  · obtain ⟨_, _, _, _, inv⟩ := hstart.inv
    exact (C33_all_or_nothing inv.http).1.symm
  · dsimp only
    rw [he0, List.append_nil, List.drop_left]
    exact (he n).1 p

theorem Recovery.small (hs : r.AllSmall) {i : Nat} {s : Nat → Instance κ} (hi : r.Proxy i s) {f : FrontExecution part} {outs : List Parsed} (h1 : ∀ n, f.state n = (s n).front)
    (h2 : ∀ n, f.outcomes n = outs ++ r.requests n i) : f.AllSmall := fun n x hx => by
  rw [h2] at hx
  obtain ⟨l, hl, hx⟩ := hx
  rcases List.mem_append.mp hl with hl | hl
  · obtain ⟨_, _, _, _, inv⟩ := (f.reach 0).inv
    have hold := hs.held _ (List.mem_of_getElem? (hi 0))
    rw [← h1] at hold
    refine small_history inv hold ⟨l, ?_, hx⟩
    rw [h2]
    exact List.mem_append_left _ hl
  · exact hs.later n i x ⟨l, hl, hx⟩

/-! ## Behind Kafka -/

theorem pushedFor_prefix {p : Nat} {calls calls' log : List (Nat × Span)} (hc : calls <+: calls') (h : ∀ x ∈ log, x.1 < calls.length) : pushedFor p calls' log = pushedFor p calls log := by
  obtain ⟨l, rfl⟩ := hc
  unfold pushedFor
  congr 1
  apply List.filter_congr
  intro x hx
  rw [List.getElem?_append_left (h x hx)]

theorem pushedFor_append (p : Nat) (calls log log' : List (Nat × Span)) : pushedFor p calls (log ++ log') = pushedFor p calls log ++ pushedFor p calls log' := by
  unfold pushedFor; rw [List.filter_append, List.map_append]

/-- How far the claims have read since then. -/
def ReadSince (calls0 : List (Nat × Span)) (n0 : Instance κ) (topic : Nat → List (List UInt8)) (calls : List (Nat × Span)) (n : Instance κ) : Prop :=
  ∀ cl' ∈ n.claims, ∃ cl ∈ n0.claims, cl.partition = cl'.partition ∧ cl.offset ≤ cl'.offset ∧ (cl.offset = cl'.offset ∨ cl'.offset ≤ (topic cl'.partition).length) ∧
    callsOf cl'.partition calls = callsOf cl'.partition calls0 ++ (((topic cl'.partition).take cl'.offset).drop cl.offset).filterMap decodeKafkaMessage

theorem ReadSince.grow {calls0 : List (Nat × Span)} {n0 : Instance κ} {topic topic' : Nat → List (List UInt8)} {calls : List (Nat × Span)} {n : Instance κ} (h : ReadSince calls0 n0 topic calls n)
    (ht : ∀ p, topic p <+: topic' p) : ReadSince calls0 n0 topic' calls n := fun cl' hcl' => by
  obtain ⟨cl, h1, h2, h3, h4, h5⟩ := h cl' hcl'
  obtain ⟨l, hl⟩ := ht cl'.partition
  refine ⟨cl, h1, h2, h3, ?_, ?_⟩
  · rcases h4 with h4 | h4
    · exact .inl h4
    · exact .inr (Nat.le_trans h4 (ht _).length_le)
  · rw [h5]
    rcases h4 with h4 | h4
    · rw [h4, drop_take_self, drop_take_self]
    · rw [← hl, List.take_append_of_le_length h4]

/-- One more step. -/
theorem ReadSince.step {ps : List Nat} {calls0 : List (Nat × Span)} {n0 : Instance κ} {topic : Nat → List (List UInt8)} {calls calls' : List (Nat × Span)} {n n' : Instance κ} (h : ReadSince calls0 n0 topic calls n)
    (hm : ClaimsMove ps topic calls calls' n n') : ReadSince calls0 n0 topic calls' n' := fun cl' hcl' => by
  obtain ⟨cl1, h1, h2, h3, h4, h5⟩ := hm.reads cl' hcl'
  obtain ⟨cl, k1, k2, k3, k4, k5⟩ := h cl1 h1
  rw [h2] at k4 k5
  refine ⟨cl, k1, k2.trans h2, by omega, ?_, ?_⟩
  · rcases h4 with h4 | h4
    · rw [← h4]; exact k4
    · exact .inr h4
  · rw [h5, k5, List.append_assoc, ← List.filterMap_append]
    congr 2
    generalize topic cl'.partition = t at *
    have e : (t.take cl'.offset).drop cl.offset = ((t.take cl'.offset).take cl1.offset).drop cl.offset ++ (t.take cl'.offset).drop cl1.offset := by
      conv_lhs => rw [← List.take_append_drop cl1.offset (t.take cl'.offset)]
      rcases k4 with k4 | k4
      · rw [k4, drop_take_self, List.nil_append]
        rw [List.drop_append, drop_take_self, List.nil_append, List.length_take]
        by_cases hle : cl1.offset ≤ (t.take cl'.offset).length
        · rw [show cl1.offset - min cl1.offset (t.take cl'.offset).length = 0 by omega, List.drop_zero]
        · rw [List.drop_drop, List.drop_of_length_le (by omega), List.drop_of_length_le (by omega)]
      · refine List.drop_append_of_le_length ?_
        rw [List.length_take, List.length_take]
        omega
    rw [e, List.take_take, Nat.min_eq_left h3]

/-- What is known about a fair proxy behind Kafka from now on, after a given history. -/
theorem Recovery.fair_back_from (h : r.Fair) {i : Nat} {s : Nat → Instance κ} (hs : r.Proxy i s) {ps : List Nat} {calls0 log0 : List (Nat × Span)}
    (hreach : System.Reachable conv k (calls0.map fun e => Parsed.spans [e.2]) (s 0).back) (hbase : ClaimsBase ps calls0 log0 (s 0)) :
    ∃ (b : Execution conv k) (calls log : Nat → List (Nat × Span)), FairProxy (fun n => (r.state n).topic) ps s b calls log ∧ calls 0 = calls0 ∧
      ∀ n, (calls 0 <+: calls n ∧ log 0 <+: log n ∧ ReadSince (calls 0) (s 0) (r.state n).topic (calls n) (s n)) ∧
        ∀ e ∈ calls n, e ∈ calls 0 ∨ e.1 ∈ ps ∧ ∃ v ∈ (r.state n).topic e.1, decodeKafkaMessage v = some e.2 := by
  obtain ⟨g, hg0, hg⟩ := choose_seq (P := fun n (g : List (Nat × Span) × List (Nat × Span)) => ClaimsBase ps g.1 g.2 (s n) ∧
      (calls0 <+: g.1 ∧ log0 <+: g.2 ∧ ReadSince calls0 (s 0) (r.state n).topic g.1 (s n)) ∧
      ∀ e ∈ g.1, e ∈ calls0 ∨ e.1 ∈ ps ∧ ∃ v ∈ (r.state n).topic e.1, decodeKafkaMessage v = some e.2)
    (R := fun n g g' => System.Next conv (g.1.map fun e => Parsed.spans [e.2]) (s n).back (g'.1.map fun e => Parsed.spans [e.2]) (s (n + 1)).back) (a := (calls0, log0))
    ⟨hbase, ⟨List.prefix_rfl, List.prefix_rfl, fun cl hcl => ⟨cl, hcl, rfl, Nat.le_refl _, .inl rfl, by rw [drop_take_self]; simp⟩⟩, fun e he => .inl he⟩ (fun n g ⟨h1, ⟨h2, h3, h4⟩, h5⟩ => by
      have grow : ∀ p, (r.state n).topic p <+: (r.state (n + 1)).topic p := fun p => r.topic (Nat.le_succ n) p
      have old : ∀ e, (e ∈ calls0 ∨ e.1 ∈ ps ∧ ∃ v ∈ (r.state n).topic e.1, decodeKafkaMessage v = some e.2) →
          e ∈ calls0 ∨ e.1 ∈ ps ∧ ∃ v ∈ (r.state (n + 1)).topic e.1, decodeKafkaMessage v = some e.2 := fun e he =>
        he.imp id fun ⟨hp, v, hv, hd⟩ => ⟨hp, v, (grow _).subset hv, hd⟩
      rcases (r.next n).back (hs n) (hs (n + 1)) with ⟨x, hx⟩ | ⟨e1, e2⟩
      · obtain ⟨calls', log', k1, k2, k3, k4⟩ := h1.next hx
        refine ⟨(calls', log'), ⟨k4, ⟨h2.trans k3.grow, h3.trans k2, (h4.step k3).grow grow⟩, fun e he => old e ?_⟩, k1⟩
        rcases k3.mine e he with he | he
        · exact h5 e he
        · exact .inr he
      · refine ⟨g, ⟨h1.same e1 e2, ⟨h2, h3, ?_⟩, fun e he => old e (h5 e he)⟩, ?_⟩
        · have := h4.grow grow
          unfold ReadSince at this ⊢
          rw [e2]; exact this
        · rw [e1]; exact .stay)
  refine ⟨{ state := fun n => (s n).back, outcomes := fun n => (g n).1.map fun e => Parsed.spans [e.2], start := by rw [hg0]; exact hreach, next := fun n => (hg n).2 },
    fun n => (g n).1, fun n => (g n).2, ⟨fun n m hm p => r.topic hm p, fun _ => rfl, fun _ => rfl, fun n => (hg n).1.1, ?_, fun n => (r.next n).back (hs n) (hs (n + 1)), h.claim i s hs⟩, by dsimp only; rw [hg0], fun n => ?_⟩
  · exact Verif.fair_back (fun _ => rfl) (h.back i s hs)
  · dsimp only
    rw [hg0]
    exact (hg n).1.2

/-- What is known about a fair proxy behind Kafka from now on. -/
theorem Recovery.fair_back (h : r.Fair) {i : Nat} {s : Nat → Instance κ} (hs : r.Proxy i s) :
    ∃ (ps : List Nat) (b : Execution conv k) (calls log : Nat → List (Nat × Span)), FairProxy (fun n => (r.state n).topic) ps s b calls log ∧
      ∀ n, calls 0 <+: calls n ∧ log 0 <+: log n ∧ ReadSince (calls 0) (s 0) (r.state n).topic (calls n) (s n) := by
  obtain ⟨_, ps, calls0, log0, hreach, hbase⟩ := Recovery.started hs
  obtain ⟨b, calls, log, h1, _, h2⟩ := Recovery.fair_back_from h hs hreach hbase
  exact ⟨ps, b, calls, log, h1, fun n => (h2 n).1⟩

/-- The collector receives everything from the offset of the claim on, in order. -/
theorem FairProxy.received_since {ps : List Nat} {s : Nat → Instance κ} {b : Execution conv k} {topic : Nat → Nat → List (List UInt8)} {calls log : Nat → List (Nat × Span)}
    (h : FairProxy topic ps s b calls log) (hsince : ∀ n, calls 0 <+: calls n ∧ log 0 <+: log n ∧ ReadSince (calls 0) (s 0) (topic n) (calls n) (s n)) {cl : Claim} (hcl : cl ∈ (s 0).claims) (n : Nat) :
    ∃ m, n ≤ m ∧ ∀ m', m ≤ m' → (((topic n cl.partition).drop cl.offset).filterMap decodeKafkaMessage).Sublist ((s m').back.world.received.drop (s 0).back.world.received.length) := by
  have hp : cl.partition ∈ ps := by rw [← (h.inv 0).parts]; exact List.mem_map_of_mem hcl
  rw [← (h.inv n).parts] at hp
  obtain ⟨cln, hcln, hpn⟩ := List.mem_map.mp hp
  obtain ⟨j, hj⟩ := List.getElem?_of_mem hcln
  obtain ⟨m, cl', hm, h1, h2, h3, h4⟩ := h.readAll hj
  obtain ⟨m1, hm1, hc⟩ := C100_collected h.fair m
  refine ⟨m1, by omega, fun m' hm' => ?_⟩
  have hcl' := List.mem_of_getElem? h1
  obtain ⟨hcalls, ⟨lnew, hlnew⟩, hread⟩ := hsince m
  obtain ⟨cl0, k1, k2, k3, k4, k5⟩ := hread cl' hcl'
  have hp' : cl'.partition = cl.partition := h2.trans hpn
  have e0 : cl0 = cl := by
    obtain ⟨a, ha⟩ := List.getElem?_of_mem k1
    obtain ⟨c, hc'⟩ := List.getElem?_of_mem hcl
    have := (h.inv 0).claim_eq ha hc' (k2.trans hp')
    subst this
    rw [ha] at hc'
    exact Option.some.inj hc'
  subst e0
  have inv := h.inv m
  have inv0 := h.inv 0
  have hord := inv.order cl' hcl'
  rw [show pendOf (s m).back.http.conns cl' = [] by unfold pendOf; rw [h3], List.append_nil, k5, hp'] at hord
  rw [← hlnew, pushedFor_append, pushedFor_prefix hcalls (by simpa using (C33_all_or_nothing inv0.http).2.2.1), ← inv0.order cl0 hcl, List.append_assoc] at hord
  have hnew := List.append_cancel_left hord
  have hsub : (pushedFor cl0.partition (calls m) lnew).Sublist (lnew.map (·.2)) := (List.filter_sublist).map _
  rw [hnew] at hsub
  have hpre := hc m' hm'
  rw [h.state, h.state, ← (C33_all_or_nothing inv.http).2.2.2, ← hlnew, List.map_append, (C33_all_or_nothing inv0.http).2.2.2, List.append_assoc] at hpre
  obtain ⟨w, hw⟩ := hpre
  rw [← hw, List.append_assoc, List.drop_left]
  refine List.Sublist.trans ?_ ((hsub.trans (List.sublist_append_right _ _)).trans (List.sublist_append_left _ w))
  refine List.Sublist.trans (List.Sublist.filterMap _ ?_) (List.sublist_append_right _ _)
  refine List.Sublist.drop ?_ _
  obtain ⟨l, hl⟩ := h.grows _ _ hm cl0.partition
  rw [hpn] at h4
  rw [← hl, List.take_append, List.take_of_length_le h4]
  exact List.sublist_append_left _ _

end Verif
