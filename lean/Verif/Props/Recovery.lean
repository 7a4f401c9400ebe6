import Verif.Proofs.Recovery
import Verif.Props.FairCluster

/-!
# After crashes, losses and new assignments, everything works again: C108
-/

namespace Verif

open Spec

variable {κ : Type} {conv : κ → Span → Option Span × κ} {k : κ} {part : List UInt8 → Nat} {r : Recovery conv k part}

/-- C108: whatever happened before, every request from now on is answered: with 202 if it was parsed, with 400 if not. -/
theorem C108_answered (h : r.Fair) (hs : r.AllSmall) {i : Nat} {s : Nat → Instance κ} (hi : r.Proxy i s) {n c : Nat} {p : Parsed} (hp : (r.requests n i)[c]? = some p) :
    (∀ l, p = .spans l → ∃ m, n ≤ m ∧ ∀ m', m ≤ m' → (s m').front.http.conns[(s 0).front.http.conns.length + c]? = some (.answered 202)) ∧
    (p = .err → ∃ m, n ≤ m ∧ ∀ m', m ≤ m' → (s m').front.http.conns[(s 0).front.http.conns.length + c]? = some (.answered 400)) := by
  obtain ⟨f, outs, h1, h2, h3, _⟩ := Recovery.front hi
  have := C104_answered (fair_front h1 (h.front i s hi)) (Recovery.small hs hi h1 h3) (n := n) (i := outs.length + c) (p := p) (by
    rw [h3, List.getElem?_append_right (Nat.le_add_right _ _), Nat.add_sub_cancel_left]; exact hp)
  simpa only [h1, h2] using this

/-- C108: the requests that were not yet answered are answered, too. -/
theorem C108_open (h : r.Fair) (hs : r.AllSmall) {i : Nat} {s : Nat → Instance κ} (hi : r.Proxy i s) (c : Nat) :
    (∀ l, (s 0).front.http.conns[c]? = some (.pushing l) → ∃ m, ∀ m', m ≤ m' → (s m').front.http.conns[c]? = some (.answered 202)) ∧
    ((s 0).front.http.conns[c]? = some .failing → ∃ m, ∀ m', m ≤ m' → (s m').front.http.conns[c]? = some (.answered 400)) := by
  obtain ⟨f, outs, h1, h2, h3, _⟩ := Recovery.front hi
  have hans := fun p => C104_answered (fair_front h1 (h.front i s hi)) (Recovery.small hs hi h1 h3) (n := 0) (i := c) (p := p)
  obtain ⟨log, _, _, _, inv⟩ := (f.reach 0).inv
  have hall := C33_all_or_nothing inv.http
  rw [h1] at hall
  have hout : ∀ d, (s 0).front.http.conns[c]? = some d → ∃ o, (f.outcomes 0)[c]? = some o ∧ AllOrNothing o d (pushedBy c log) := fun d hd => by
    have hlt := (List.getElem?_eq_some_iff.mp hd).1
    rw [hall.1] at hlt
    exact ⟨_, List.getElem?_eq_getElem hlt, hall.2.1 c _ _ (List.getElem?_eq_getElem hlt) hd⟩
  refine ⟨fun l hl => ?_, fun hl => ?_⟩
  · obtain ⟨o, ho, ha⟩ := hout _ hl
    generalize pushedBy c log = pushed at ha
    cases ha with
    | pushing =>
      obtain ⟨m, _, hm⟩ := (hans _ ho).1 _ rfl
      exact ⟨m, fun m' hm' => by rw [← h1]; exact hm m' hm'⟩
  · obtain ⟨o, ho, ha⟩ := hout _ hl
    generalize pushedBy c log = pushed at ha
    cases ha with
    | failing =>
      obtain ⟨m, _, hm⟩ := (hans _ ho).2 rfl
      exact ⟨m, fun m' hm' => by rw [← h1]; exact hm m' hm'⟩

/-- C108: all spans of requests from now on get into the topic from now on, those for one partition in the order of the request. -/
theorem C108_written (h : r.Fair) (hs : r.AllSmall) {j : Nat} {sj : Nat → Instance κ} (hj : r.Proxy j sj) {n c : Nat} {l : List Span} (hp : (r.requests n j)[c]? = some (.spans l)) :
    ∃ m, n ≤ m ∧ ∀ m', m ≤ m' → ∀ p, ((goTo part p l).map Span.withTags).Sublist ((((r.state m').topic p).drop ((r.state 0).topic p).length).filterMap decodeKafkaMessage) := by
  obtain ⟨f, outs, h1, h2, h3, h4⟩ := Recovery.front hj
  obtain ⟨m, hm, hw⟩ := written_since (fair_front h1 (h.front j sj hj)) (Recovery.small hs hj h1 h3) (n := n) (i := outs.length + c) (l := l) (by
    rw [h3, List.getElem?_append_right (Nat.le_add_right _ _), Nat.add_sub_cancel_left]; exact hp) (by rw [h3, r.noRequests]; simp)
  refine ⟨m, hm, fun m' hm' p => (hw m' hm' p).trans ?_⟩
  have := (h4 m' p).filterMap decodeKafkaMessage
  rw [List.filterMap_map] at this
  exact this

/-- C108: whoever wrote it and whenever, everything in a partition from the offset of its claim on is received by the collector from now on, in order. What was read before the claim was assigned is read again. -/
theorem C108_read (h : r.Fair) {i : Nat} {s : Nat → Instance κ} (hi : r.Proxy i s) {cl : Claim} (hcl : cl ∈ (s 0).claims) (n : Nat) :
    ∃ m, n ≤ m ∧ ∀ m', m ≤ m' → ((((r.state n).topic cl.partition).drop cl.offset).filterMap decodeKafkaMessage).Sublist ((s m').back.world.received.drop (s 0).back.world.received.length) := by
  obtain ⟨ps, b, calls, log, hf, hsince⟩ := Recovery.fair_back h hi
  exact hf.received_since hsince hcl n

theorem all_claims {P : Nat → Claim → Nat → Prop} {n : Nat} (h : ∀ i s cl, r.Proxy i s → cl ∈ (s 0).claims → ∃ m, n ≤ m ∧ ∀ m', m ≤ m' → P i cl m') :
    ∃ m, n ≤ m ∧ ∀ m', m ≤ m' → ∀ i s cl, r.Proxy i s → cl ∈ (s 0).claims → P i cl m' := by
  obtain ⟨m, hm, hall⟩ := eventually_all (P := fun i m' => ∀ s cl, r.Proxy i s → cl ∈ (s 0).claims → P i cl m') n (List.range (r.state 0).instances.length) (fun i hi => by
    rw [List.mem_range] at hi
    obtain ⟨s, hs⟩ := r.proxy hi
    obtain ⟨m, hm, hall⟩ := eventually_all (P := fun cl m' => P i cl m') n (s 0).claims (fun cl hcl => h i s cl hs hcl)
    refine ⟨m, hm, fun m' hm' s' cl hs' hcl => ?_⟩
    have : s' 0 = s 0 := Option.some.inj ((hs' 0).symm.trans (hs 0))
    rw [this] at hcl
    exact hall m' hm' cl hcl)
  exact ⟨m, hm, fun m' hm' i s cl hs hcl => hall m' hm' i (List.mem_range.mpr (List.getElem?_eq_some_iff.mp (hs 0)).1) s cl hs hcl⟩

/-- C108: every span of a request from now on gets to the collector of the proxy that has its partition, unless the claim begins after the end of the partition. -/
theorem C108_received (h : r.Fair) (hs : r.AllSmall) {j : Nat} {sj : Nat → Instance κ} (hj : r.Proxy j sj) {n c : Nat} {l : List Span} (hp : (r.requests n j)[c]? = some (.spans l)) :
    ∃ m, n ≤ m ∧ ∀ m', m ≤ m' → ∀ i s, r.Proxy i s → ∀ cl ∈ (s 0).claims, cl.offset ≤ ((r.state 0).topic cl.partition).length →
      ((goTo part cl.partition l).map Span.withTags).Sublist ((s m').back.world.received.drop (s 0).back.world.received.length) := by
  obtain ⟨m, hm, hw⟩ := C108_written h hs hj hp
  obtain ⟨m1, hm1, hall⟩ := all_claims (r := r) (n := m) (P := fun i cl m' => ∀ s, r.Proxy i s → cl.offset ≤ ((r.state 0).topic cl.partition).length →
      ((goTo part cl.partition l).map Span.withTags).Sublist ((s m').back.world.received.drop (s 0).back.world.received.length)) (fun i s cl hi hcl => by
    obtain ⟨m1, hm1, hr⟩ := C108_read h hi hcl m
    refine ⟨m1, hm1, fun m' hm' s' hi' ho => ?_⟩
    have e : s' = s := funext fun n => Option.some.inj ((hi' n).symm.trans (hi n))
    subst e
    refine ((hw m (Nat.le_refl _) cl.partition).trans (List.Sublist.filterMap _ ?_)).trans (hr m' hm')
    exact List.drop_sublist_drop_left _ ho)
  exact ⟨m1, by omega, fun m' hm' i s hi cl hcl ho => hall m' hm' i s cl hi hcl s hi ho⟩

/-- C108: and there it meets its fate, in addition to all that was received before: its trace is finished, and what is emitted gets to the sink and to the buffer. -/
theorem C108_fate (h : r.Fair) (hs : r.AllSmall) (ht : ∀ i s, r.Proxy i s → System.TicksAgain fun n => (s n).back)
    {j : Nat} {sj : Nat → Instance κ} (hj : r.Proxy j sj) {n c : Nat} {l : List Span} (hp : (r.requests n j)[c]? = some (.spans l)) : ∃ m, n ≤ m ∧ ∀ m', m ≤ m' →
      (sj m').front.http.conns[(sj 0).front.http.conns.length + c]? = some (.answered 202) ∧ ∀ i s, r.Proxy i s → ∀ cl ∈ (s 0).claims, cl.offset ≤ ((r.state 0).topic cl.partition).length →
      List.Subperm (((s 0).back.world.received ++ (goTo part cl.partition l).map Span.withTags).filter fun s => decide (Traced s)) (s m').back.world.left ∧
      ∃ m'', m' ≤ m'' ∧ convertTraces conv k (emittedOf (s m').back.world.removed) <+: (s m'').back.sink.received ∧
        ∃ ts, convertTraces conv k (emittedOf (s m').back.world.removed) <+: ts ∧ (Ring.new 2048).readFrom ts = some (s m'').back.ring := by
  obtain ⟨m1, hm1, ha⟩ := (C108_answered h hs hj hp).1 l rfl
  obtain ⟨m2, hm2, hr⟩ := C108_received h hs hj hp
  obtain ⟨m3, hm3, hall⟩ := all_claims (r := r) (n := m2) (P := fun i cl m' => ∀ s, r.Proxy i s → cl ∈ (s 0).claims → cl.offset ≤ ((r.state 0).topic cl.partition).length →
      List.Subperm (((s 0).back.world.received ++ (goTo part cl.partition l).map Span.withTags).filter fun s => decide (Traced s)) (s m').back.world.left ∧
      ∃ m'', m' ≤ m'' ∧ convertTraces conv k (emittedOf (s m').back.world.removed) <+: (s m'').back.sink.received ∧
        ∃ ts, convertTraces conv k (emittedOf (s m').back.world.removed) <+: ts ∧ (Ring.new 2048).readFrom ts = some (s m'').back.ring) (fun i s cl hi hcl => by
    obtain ⟨ps, b, calls, log, hf, _⟩ := Recovery.fair_back h hi
    have hticks : b.Ticks := by
      have e : b.state = fun n => (s n).back := funext hf.state
      have := ht i s hi
      rw [← e] at this
      exact this
    obtain ⟨m0, _, h0⟩ := C100_collected hf.fair 0
    obtain ⟨m3, hm3, hl⟩ := C100_left hticks (max m0 m2)
    refine ⟨m3, by omega, fun m' hm' s' hi' _ ho => ?_⟩
    have e : s' = s := funext fun n => Option.some.inj ((hi' n).symm.trans (hi n))
    subst e
    have h1 := hl m' hm' ((s' 0).back.world.received ++ (goTo part cl.partition l).map Span.withTags) (by
      rw [hf.state]
      have hsub := hr (max m0 m2) (by omega) i s' hi cl hcl ho
      have hpre := (List.prefix_append _ _).trans (h0 (max m0 m2) (by omega))
      rw [hf.state, hf.state] at hpre
      obtain ⟨w, hw⟩ := hpre
      rw [← hw, List.drop_left] at hsub
      rw [← hw]
      exact (List.Sublist.refl _).append hsub)
    obtain ⟨m4, hm4, hd⟩ := C100_delivered hf.fair m'
    obtain ⟨hd1, ts, hd2, _, hd3⟩ := hd m4 (Nat.le_refl _)
    rw [hf.state, hf.state] at hd1
    rw [hf.state] at h1 hd2 hd3
    exact ⟨h1, m4, hm4, hd1, ts, hd2, hd3⟩)
  exact ⟨max m1 m3, by omega, fun m' hm' => ⟨ha m' (by omega), fun i s hi cl hcl ho => hall m' (by omega) i s cl hi hcl s hi hcl ho⟩⟩

/-! ## From every state there are such executions -/

/-- A proxy that can finish all that it has. -/
structure Ready (conv : κ → Span → Option Span × κ) (k : κ) (part : List UInt8 → Nat) (n : Instance κ) : Prop where
  front : ∃ outs log prod fly rest, FrontInv outs log prod fly rest n.front ∧ ∀ x, Accepted outs x → Small x
  back : ∃ ps calls log, System.Reachable conv k (calls.map fun e => Parsed.spans [e.2]) n.back ∧ ClaimsBase ps calls log n

theorem Started.ready {n : Instance κ} (h : Started conv k part n) (hs : n.front.HoldsSmall) : Ready conv k part n := by
  obtain ⟨⟨outs, t, h1⟩, h2⟩ := h
  obtain ⟨log, prod, fly, rest, inv⟩ := h1.inv
  exact ⟨⟨outs, log, prod, fly, rest, inv, fun x hx => small_history inv hs hx⟩, h2⟩

theorem Ready.request {n : Instance κ} (h : Ready conv k part n) {o : Parsed} (ho : ∀ x, Accepted [o] x → Small x) :
    Ready conv k part { n with front := { n.front with http := { n.front.http with conns := n.front.http.conns ++ [Conn.start o] } } } := by
  obtain ⟨⟨outs, log, prod, fly, rest, inv, h1⟩, ps, calls, log', h2, h3⟩ := h
  refine ⟨⟨_, _, _, _, _, inv.request o, ?_⟩, ps, calls, log', h2, h3.front _⟩
  rintro x ⟨l, hl, hx⟩
  rcases List.mem_append.mp hl with hl | hl
  · exact h1 x ⟨l, hl, hx⟩
  · exact ho x ⟨l, hl, hx⟩

theorem FrontInv.step_any {outs log prod fly rest} {f f' : Front} {e : Option (List UInt8 × List UInt8)} (inv : FrontInv outs log prod fly rest f) (h : f.Step part f' e) :
    ∃ log' prod' fly' rest', FrontInv outs log' prod' fly' rest' f' := by
  obtain ⟨log', prod', fly', rest', _, inv', _⟩ := FrontInv.step_order (part := part) (old := prod) (prod := []) (topic := []) (live := fly ++ rest) (by simpa using inv) ⟨rfl, fun p => by simp, fly, rfl⟩ h
  exact ⟨log', _, fly', rest', inv'⟩

theorem Ready.step {c c' : Cluster κ} (h : ∀ n ∈ c.instances, Ready conv k part n) (hs : c.Step conv part c') : ∀ n ∈ c'.instances, Ready conv k part n := by
  cases hs with
  | @front i n f e hi hs =>
    intro n' hn'
    rcases List.mem_or_eq_of_mem_set hn' with h' | rfl
    · exact h n' h'
    · obtain ⟨⟨outs, log, prod, fly, rest, inv, h1⟩, ps, calls, log', h2, h3⟩ := h n (List.mem_of_getElem? hi)
      obtain ⟨_, _, _, _, inv'⟩ := inv.step_any hs
      exact ⟨⟨_, _, _, _, _, inv', h1⟩, ps, calls, log', h2, h3.front _⟩
  | @back i n n1 x hi hs =>
    intro n' hn'
    rcases List.mem_or_eq_of_mem_set hn' with h' | rfl
    · exact h n' h'
    · obtain ⟨hf, ps, calls, log, h2, h3⟩ := h n (List.mem_of_getElem? hi)
      obtain ⟨calls', log', h4, _, _, h5⟩ := h3.next hs
      refine ⟨?_, ps, calls', log', h2.next h4, h5⟩
      have : n'.front = n.front := by cases hs <;> rfl
      rw [this]; exact hf

theorem Ready.steps {c c' : Cluster κ} (h : ∀ n ∈ c.instances, Ready conv k part n) (hs : c.Steps conv part c') : ∀ n ∈ c'.instances, Ready conv k part n := by
  induction hs with
  | refl => exact h
  | step _ hs ih => exact Ready.step ih hs

/-- Everything gets into the topic; … -/
theorem ready_fronts {c : Cluster κ} (h : ∀ n ∈ c.instances, Ready conv k part n) : ∃ d, c.Steps conv part d ∧ ∀ n ∈ d.instances, n.front.Idle := by
  generalize hn : (c.instances.map fun n => n.front.work).sum = w
  induction w using Nat.strongRecOn generalizing c with
  | _ w ih =>
    by_cases hw : ∀ n ∈ c.instances, n.front.Idle
    · exact ⟨c, .refl, hw⟩
    · have : ∃ n ∈ c.instances, ¬ n.front.Idle := by
        refine Classical.byContradiction fun hno => hw fun n hn => Classical.byContradiction fun e => hno ⟨n, hn, e⟩
      obtain ⟨n, hnm, hidle⟩ := this
      obtain ⟨i, hi⟩ := List.getElem?_of_mem hnm
      obtain ⟨outs, log, prod, fly, rest, inv, hsm⟩ := (h n hnm).front
      obtain ⟨topic', f, hl, hlt⟩ := front_progress (part := part) inv hsm hidle
      obtain ⟨t, hs⟩ := Cluster.Steps.front (conv := conv) hi hl rfl
      have := sum_map_set (fun n : Instance κ => n.front.work) (q' := { n with front := f }) hi
      dsimp only at this
      obtain ⟨d, hd, hid⟩ := ih _ (by dsimp only; omega) (Ready.steps h hs) rfl
      exact ⟨d, hs.trans hd, hid⟩

/-- … then all of it is read. -/
theorem ready_backs {c : Cluster κ} (h : ∀ n ∈ c.instances, Ready conv k part n) (hid : ∀ n ∈ c.instances, n.front.Idle) :
    ∃ d, c.Steps conv part d ∧ ∀ n ∈ d.instances, n.front.Idle ∧ n.Done d.topic ∧ ¬ n.back.Pending := by
  generalize hn : (c.instances.map (Instance.left c.topic)).sum = w
  induction w using Nat.strongRecOn generalizing c with
  | _ w ih =>
    by_cases hw : ∀ n ∈ c.instances, n.Done c.topic ∧ ¬ n.back.Pending
    · exact ⟨c, .refl, fun n hn => ⟨hid n hn, hw n hn⟩⟩
    · have : ∃ n ∈ c.instances, ¬ (n.Done c.topic ∧ ¬ n.back.Pending) := by
        refine Classical.byContradiction fun hno => hw fun n hn => Classical.byContradiction fun e => hno ⟨n, hn, e⟩
      obtain ⟨n, hnm, hne⟩ := this
      obtain ⟨i, hi⟩ := List.getElem?_of_mem hnm
      obtain ⟨ps, calls, log, hb, cinv⟩ := (h n hnm).back
      obtain ⟨n', x, hs, hlt, hf, _⟩ := instance_progress cinv hb hne
      have hstep : c.Step conv part _ := .back hi hs
      have := sum_map_set (Instance.left c.topic) (q' := n') hi
      obtain ⟨d, hd, hdone⟩ := ih _ (by dsimp only; omega) (Ready.step h hstep) (fun m hm => by
        rcases List.mem_or_eq_of_mem_set hm with hm | rfl
        · exact hid m hm
        · rw [hf]; exact hid n hnm) rfl
      exact ⟨d, (Cluster.Steps.step .refl hstep).trans hd, hdone⟩

theorem exists_ready (qs : List (Nat × Parsed)) : ∀ (c : Cluster κ) (q : Nat → List Parsed), (∀ n ∈ c.instances, Ready conv k part n) →
    (∀ x ∈ qs, x.1 < c.instances.length) → (∀ x, Accepted (qs.map (·.2)) x → Small x) →
    ∃ state requests, ClusterTail conv part state requests ∧ state 0 = c ∧ requests 0 = q ∧ (∃ n, ∀ i, requests n i = q i ++ (qs.filter (·.1 = i)).map (·.2)) ∧
      ∀ m i o, o ∈ requests m i → o ∈ q i ∨ (i, o) ∈ qs := by
  induction qs with
  | nil =>
    intro c q h _ _
    obtain ⟨d1, g1, g2⟩ := ready_fronts h
    obtain ⟨d, g3, g4⟩ := ready_backs (Ready.steps h g1) g2
    have h1 := g1.trans g3
    obtain ⟨st, rq, t1, t2, t3⟩ := tail_end (conv := conv) (k := k) (part := part) q (fun n hn => ⟨(g4 n hn).1, (g4 n hn).2.1⟩) (fun n hn =>
      let ⟨_, _, _, ho, _⟩ := (Ready.steps h h1 n hn).back; ⟨_, ho⟩)
    obtain ⟨state, requests, h3, h4, h5, _⟩ := tail_steps (P := fun _ => True) (fun _ _ _ => trivial) h1 ⟨st, rq, t1, t2, t3, trivial⟩
    exact ⟨state, requests, h3, h4, h5 0, ⟨0, fun i => by rw [h5]; simp⟩, fun m i o ho => .inl (by rw [h5] at ho; exact ho)⟩
  | cons x qs ih =>
    intro c q h hi hs
    obtain ⟨i, o⟩ := x
    have hlt : i < c.instances.length := hi _ List.mem_cons_self
    have hget := List.getElem?_eq_getElem hlt
    obtain ⟨state, requests, h1, h2, h3, ⟨n, h4⟩, h5⟩ := ih { c with instances := c.instances.set i { c.instances[i] with front := { c.instances[i].front with http := { c.instances[i].front.http with conns := c.instances[i].front.http.conns ++ [Conn.start o] } } } }
      (fun j => if j = i then q j ++ [o] else q j) (fun n hn => by
        rcases List.mem_or_eq_of_mem_set hn with hn | rfl
        · exact h n hn
        · exact (h _ (List.getElem_mem hlt)).request fun x ⟨l, hl, hx⟩ => hs x ⟨l, by rw [List.mem_singleton] at hl; subst hl; exact List.mem_cons_self, hx⟩)
      (fun x hx => by rw [List.length_set]; exact hi x (List.mem_cons_of_mem _ hx)) (fun x ⟨l, hl, hx⟩ => hs x ⟨l, List.mem_cons_of_mem _ hl, hx⟩)
    refine ⟨_, _, h1.prepend (q := q) (c := c) (by rw [h2, h3]; exact .request o hget) (by rw [h2]; exact same_closed _), rfl, rfl, ⟨n + 1, fun j => ?_⟩, fun m j o' ho' => ?_⟩
    · show requests n j = _
      rw [h4]
      by_cases hj : j = i
      · subst hj; simp
      · rw [if_neg hj, List.filter_cons_of_neg (by simpa using fun e : i = j => hj e.symm)]
    · cases m with
      | zero => exact .inl ho'
      | succ m =>
        rcases h5 m j o' ho' with h | h
        · by_cases hj : j = i
          · subst hj
            rw [if_pos rfl, List.mem_append, List.mem_singleton] at h
            rcases h with h | rfl
            · exact .inl h
            · exact .inr List.mem_cons_self
          · rw [if_neg hj] at h; exact .inl h
        · exact .inr (List.mem_cons_of_mem _ h)

/-- C108: from every state in which the proxies hold only small spans, fair executions go on, with ticks, for all requests whose spans are small. -/
theorem C108_exists {outcomes foreign} {c : Cluster κ} (h : Cluster.Reachable conv k part outcomes foreign c) (hc : ∀ n ∈ c.instances, n.front.HoldsSmall) (qs : List (Nat × Parsed))
    (hi : ∀ x ∈ qs, x.1 < c.instances.length) (hs : ∀ x, Accepted (qs.map (·.2)) x → Small x) : ∃ r : Recovery conv k part, r.state 0 = c ∧ r.Fair ∧ r.AllSmall ∧
      (∀ i s, r.Proxy i s → System.TicksAgain fun n => (s n).back) ∧ ∃ n, ∀ i, r.requests n i = (qs.filter (·.1 = i)).map (·.2) := by
  obtain ⟨state, requests, h1, h2, h3, ⟨n, h4⟩, h5⟩ := exists_ready (conv := conv) (k := k) (part := part) qs c (fun _ => []) (fun n hn => (h.started n hn).ready (hc n hn)) hi hs
  refine ⟨⟨state, requests, ⟨outcomes, foreign, by rw [h2]; exact h⟩, fun i => by rw [h3], h1.next⟩, h2, ⟨h1.front, h1.back, h1.claim⟩, ⟨fun n hn => hc n (by rw [← h2]; exact hn), fun m i x hx => ?_⟩, h1.ticks, n,
    fun i => by simpa using h4 i⟩
  obtain ⟨l, hl, hx⟩ := hx
  rcases h5 m i _ hl with h | h
  · cases h
  · exact hs x ⟨l, List.mem_map.mpr ⟨_, h, rfl⟩, hx⟩

/-! ## Two crashes -/

theorem Recovery.reachable (r : Recovery conv k part) (n : Nat) : ∃ outcomes foreign, Cluster.Reachable conv k part outcomes foreign (r.state n) := by
  induction n with
  | zero => exact r.start
  | succ n ih =>
    obtain ⟨outcomes, foreign, ih⟩ := ih
    have hn := r.next n
    generalize r.requests (n + 1) = q' at hn
    generalize r.state (n + 1) = c' at hn ⊢
    cases hn with
    | step h => exact ⟨_, _, .step ih h⟩
    | request o hi => exact ⟨_, _, .request o ih hi⟩
    | foreign p v => exact ⟨_, _, .foreign p v ih⟩
    | stay => exact ⟨_, _, ih⟩

/-- A proxy alone. -/
theorem front_alone (conv : κ → Span → Option Span × κ) (k : κ) {outs t f} (h : Front.Reachable part outs t f) :
    ∃ topic, Cluster.Reachable conv k part outs [] { instances := [{ front := f, back := System.init k 0 }], topic := topic } := by
  induction h with
  | init => exact ⟨_, .upheaval .init (.start 0)⟩
  | request o _ ih => obtain ⟨topic, ih⟩ := ih; exact ⟨topic, .request (i := 0) o ih rfl⟩
  | step _ hs ih => obtain ⟨topic, ih⟩ := ih; exact ⟨_, .step (c' := { instances := [{ front := _, back := System.init k 0 }], topic := _ }) ih (Cluster.Step.front (c := { instances := [{ front := _, back := System.init k 0 }], topic := topic }) (i := 0) rfl hs)⟩

theorem fresh_small (now : Time) (claims : List Claim) : ({ claims := claims, back := System.init k now } : Instance κ).front.HoldsSmall :=
  ⟨fun _ hl => (List.not_mem_nil hl).elim, fun _ hx => (List.not_mem_nil hx).elim, fun m hm => by rcases hm with h | h <;> cases h⟩

/-- A restarted proxy that is alone. -/
theorem restart {outcomes foreign} {c : Cluster κ} (h : Cluster.Reachable conv k part outcomes foreign c) (hlen : c.instances.length = 1) (now : Time) (p o : Nat) :
    ∃ c1 c2, c.Upheaval k c1 ∧ c1.Upheaval k c2 ∧ Cluster.Reachable conv k part outcomes foreign c2 ∧ c2 = { c with instances := [{ claims := [{ partition := p, offset := o }], back := System.init k now }] } := by
  obtain ⟨instances, topic⟩ := c
  obtain ⟨n, rfl⟩ := List.length_eq_one_iff.mp hlen
  have u1 : Cluster.Upheaval k ({ instances := [n], topic := topic } : Cluster κ) { instances := [{ back := System.init k now }], topic := topic } := .crash 0 now
  have u2 : Cluster.Upheaval k ({ instances := [{ back := System.init k now }], topic := topic } : Cluster κ) { instances := [{ claims := [{ partition := p, offset := o }], back := System.init k now }], topic := topic } :=
    .assign (i := 0) (n := { back := System.init k now }) p o rfl (fun n' hn' cl hcl => by rw [List.mem_singleton] at hn'; subst hn'; cases hcl)
  exact ⟨_, _, u1, u2, .upheaval (.upheaval h u1) u2, rfl⟩

/-- A proxy that is stuck with a span too large for Kafka (C70) crashes. When it is started again, a request is answered, and the span gets to its collector and leaves it. -/
theorem C108_unstuck (conv : κ → Span → Option Span × κ) (k : κ) : ∃ (c c1 : Cluster κ) (n : Instance κ) (r : Recovery conv k fun _ => 0) (s : Nat → Instance κ) (m : Nat),
    Cluster.Reachable conv k (fun _ => 0) [.spans [largeSpan]] [] c ∧ c.instances = [n] ∧ (∀ outcomes' topic' g, n.front.Later (fun _ => 0) outcomes' topic' g → topic' = []) ∧
    c.Upheaval k c1 ∧ c1.Upheaval k (r.state 0) ∧ r.Fair ∧ r.AllSmall ∧ r.Proxy 0 s ∧ (∃ m, r.requests m 0 = [.spans [{ id := 1, trace := 19 }]]) ∧
    (s m).front.http.conns[0]? = some (.answered 202) ∧ Span.withTags { id := 1, trace := 19 } ∈ (s m).back.world.left := by
  obtain ⟨f, hf, _, hstuck⟩ := C70_fails fun _ => 0
  obtain ⟨topic, hc⟩ := front_alone conv k hf
  obtain ⟨c1, c2, u1, u2, hr, e⟩ := restart hc rfl 5 0 0
  obtain ⟨r, h1, h2, h3, h4, q, h5⟩ := C108_exists hr (fun n hn => by rw [e] at hn; rw [List.mem_singleton] at hn; subst hn; exact fresh_small _ _) [(0, .spans [{ id := 1, trace := 19 }])] (by rw [e]; simp) (by
    rintro x ⟨l, hl, hx⟩
    simp only [List.map_cons, List.map_nil, List.mem_cons, List.not_mem_nil, or_false, Parsed.spans.injEq] at hl
    subst hl
    rw [List.mem_singleton] at hx
    subst hx
    exact C104_small (by decide +kernel))
  obtain ⟨s, hs⟩ := r.proxy (i := 0) (by rw [h1, e]; exact Nat.one_pos)
  have h0 : s 0 = { claims := [{ partition := 0, offset := 0 }], back := System.init k 5 } := by
    have := hs 0
    rw [h1, e] at this
    exact (Option.some.inj this).symm
  have eq : r.requests q 0 = [.spans [{ id := 1, trace := 19 }]] := h5 0
  obtain ⟨m, hm, hfate⟩ := C108_fate h2 h3 h4 hs (n := q) (c := 0) (l := [{ id := 1, trace := 19 }]) (by rw [eq]; rfl)
  obtain ⟨ha, hl⟩ := hfate m (Nat.le_refl _)
  refine ⟨_, c1, _, r, s, m, hc, rfl, fun o t g hg => (hstuck o t g hg).1, u1, by rw [h1]; exact u2, h2, h3, hs, ⟨q, eq⟩, by rw [h0] at ha; exact ha, ?_⟩
  have := (hl 0 s hs { partition := 0, offset := 0 } (by rw [h0]; exact List.mem_singleton.mpr rfl) (Nat.zero_le _)).1
  refine this.subset ?_
  rw [List.mem_filter]
  refine ⟨List.mem_append_right _ (List.mem_map_of_mem ?_), by decide +kernel⟩
  unfold goTo
  rw [List.mem_filter]
  exact ⟨List.mem_cons_self, by decide⟩

/-- A proxy crashes after a span got to its collector. It is assigned the partition again, from the beginning, and the collector receives the span again. -/
theorem C108_again (conv : κ → Span → Option Span × κ) (k : κ) : ∃ (c c1 : Cluster κ) (n : Instance κ) (r : Recovery conv k fun _ => 0) (s : Nat → Instance κ) (m : Nat),
    (∃ outcomes foreign, Cluster.Reachable conv k (fun _ => 0) outcomes foreign c) ∧ c.instances = [n] ∧ Span.withTags { id := 1, trace := 19 } ∈ n.back.world.received ∧
    c.Upheaval k c1 ∧ c1.Upheaval k (r.state 0) ∧ r.Fair ∧ r.AllSmall ∧ r.Proxy 0 s ∧
    (s 0).back.world.received = [] ∧ Span.withTags { id := 1, trace := 19 } ∈ (s m).back.world.received := by
  have hd : decodeKafkaMessage (binaryEncode { id := 1, trace := 19 } []) = some (Span.withTags { id := 1, trace := 19 }) :=
    SentOk.decode (x := ({ id := 1, trace := 19 }, [], ⟨⟨0, 0⟩, ⟨0, 0⟩⟩)) ⟨by decide +kernel, List.Perm.refl _⟩
  -- one crash
  have one : ∀ {outcomes foreign} {c : Cluster κ}, Cluster.Reachable conv k (fun _ => 0) outcomes foreign c → c.instances.length = 1 → binaryEncode { id := 1, trace := 19 } [] ∈ c.topic 0 →
      ∃ (c1 : Cluster κ) (r : Recovery conv k fun _ => 0) (s : Nat → Instance κ) (m : Nat), c.Upheaval k c1 ∧ c1.Upheaval k (r.state 0) ∧ r.Fair ∧ r.AllSmall ∧ r.Proxy 0 s ∧ (s 0).back.world.received = [] ∧
        Span.withTags { id := 1, trace := 19 } ∈ (s m).back.world.received ∧ (∃ outcomes foreign, Cluster.Reachable conv k (fun _ => 0) outcomes foreign (r.state m)) ∧ (r.state m).instances = [s m] ∧
        binaryEncode { id := 1, trace := 19 } [] ∈ (r.state m).topic 0 := by
    intro outcomes foreign c hc hlen hmem
    obtain ⟨c1, c2, u1, u2, hr, e⟩ := restart hc hlen 5 0 0
    obtain ⟨r, h1, h2, h3, _⟩ := C108_exists hr (fun n hn => by rw [e] at hn; rw [List.mem_singleton] at hn; subst hn; exact fresh_small _ _) [] (by simp) (fun x ⟨l, hl, _⟩ => by cases hl)
    obtain ⟨s, hs⟩ := r.proxy (i := 0) (by rw [h1, e]; exact Nat.one_pos)
    have h0 : s 0 = { claims := [{ partition := 0, offset := 0 }], back := System.init k 5 } := by
      have := hs 0
      rw [h1, e] at this
      exact (Option.some.inj this).symm
    obtain ⟨m, hm, hread⟩ := C108_read h2 hs (cl := { partition := 0, offset := 0 }) (by rw [h0]; exact List.mem_singleton.mpr rfl) 0
    have hsub := hread m (Nat.le_refl _)
    have hlen : (r.state m).instances.length = 1 := by
      have : ∀ n, (r.state n).instances.length = 1 := fun n => by
        induction n with
        | zero => rw [h1, e]; rfl
        | succ n ih => rw [(r.next n).length, ih]
      exact this m
    refine ⟨c1, r, s, m, u1, by rw [h1]; exact u2, h2, h3, hs, by rw [h0]; rfl, ?_, r.reachable m, ?_, ?_⟩
    · refine List.mem_of_mem_drop (hsub.subset (List.mem_filterMap.mpr ⟨_, ?_, hd⟩))
      rw [h1, e]; exact hmem
    · obtain ⟨x, hx⟩ := List.length_eq_one_iff.mp hlen
      have := hs m
      rw [hx] at this ⊢
      cases this; rfl
    · refine (r.topic (Nat.zero_le m) 0).subset ?_
      rw [h1, e]; exact hmem
  have h1 : Cluster.Reachable conv k (fun _ => 0) [] [binaryEncode { id := 1, trace := 19 } []] _ := .foreign 0 (binaryEncode { id := 1, trace := 19 } []) (.upheaval .init (.start 0))
  obtain ⟨_, r, s, m, _, _, _, _, _, _, h2, ⟨o, f, h3⟩, h4, h5⟩ := one h1 rfl (List.mem_singleton.mpr rfl)
  obtain ⟨c1, r', s', m', k1, k2, k3, k4, k5, k6, k7, _⟩ := one h3 (by rw [h4]; rfl) h5
  exact ⟨_, c1, _, r', s', m', ⟨o, f, h3⟩, h4, h2, k1, k2, k3, k4, k5, k6, k7⟩

end Verif
