import Verif.Proofs.Producer
import Verif.Props.Oversize

/-!
# A proxy while Kafka can be reached and while it cannot: C154
-/

namespace Verif

open Spec

variable {part : List UInt8 → Nat} {outcomes : List Parsed} {topic : List (List UInt8 × List UInt8)} {o : KafkaProducer}

/-! ## A goroutine that waits for ever -/

theorem messagesIn_append (p : Nat) (t t' : List (List UInt8 × List UInt8)) : messagesIn part p (t ++ t') = messagesIn part p t ++ messagesIn part p t' := List.filter_append _ _

/-- What a broker is about to get belongs to the partition. -/
theorem ProducerInv.key {outs topic log past fly rest} (inv : ProducerInv part outs topic log past fly rest o) {p : Nat} {m : Message} (hm : m ∈ o.buffers p ∨ m ∈ o.queues p) :
    part (o.front.pool.heap.deref m.key) = p := by
  obtain ⟨d, b, f, q, h, pl⟩ := inv.placed p
  have : ∃ y ∈ past.filter (Sent.inPart part p), y.2.2 = m := by
    rcases hm with hm | hm
    · rw [← pl.buffers] at hm
      obtain ⟨y, hy, rfl⟩ := List.mem_map.mp hm
      exact ⟨y, by rw [pl.order]; simp [hy], rfl⟩
    · rw [← pl.queues] at hm
      obtain ⟨y, hy, rfl⟩ := List.mem_map.mp hm
      exact ⟨y, by rw [pl.order]; simp [hy], rfl⟩
  obtain ⟨y, hy, rfl⟩ := this
  obtain ⟨h1, h2⟩ := List.mem_filter.mp hy
  rw [(inv.deref (by rw [inv.sent]; exact List.mem_append_left _ h1)).1]
  exact of_decide_eq_true h2

/-- C154, what is wrong: if the goroutine of a partition could not deliver a message, it waits for ever, also when Kafka can be reached again; only what the broker already had gets into the
partition. -/
theorem C154_stuck (h : KafkaProducer.Reachable part outcomes topic o) {p : Nat} {m : Message} (hf : o.failed p = some m) {outcomes' topic' g} (hl : o.Later part outcomes' topic' g) :
    g.failed p = some m ∧ (messagesIn part p topic').length + (g.buffers p).length = (o.buffers p).length := by
  induction hl with
  | refl => exact ⟨hf, by simp [messagesIn]⟩
  | request r _ ih => exact ih
  | turn up _ ih => exact ih
  | @step outcomes' topic' g g' e hl st ih =>
    obtain ⟨h1, h2⟩ := ih
    obtain ⟨_, _, _, _, inv⟩ := KafkaProducer.Later.inv (KafkaProducer.Later.trans h hl) ProducerInv.init
    cases st with
    | front hs hlen => exact ⟨h1, by simpa using h2⟩
    | partition hi hh => exact ⟨h1, by simpa using h2⟩
    | enqueue hh hlen => exact ⟨h1, by simpa using h2⟩
    | @pass q m' r hup hfq hqs =>
      have hne : p ≠ q := fun e => by rw [← e, h1] at hfq; cases hfq
      refine ⟨h1, ?_⟩
      dsimp only
      rw [setAt_other _ _ hne]
      simpa using h2
    | @fail q m' r hup hfq hqs =>
      have hne : p ≠ q := fun e => by rw [← e, h1] at hfq; cases hfq
      refine ⟨?_, by simpa using h2⟩
      dsimp only
      rw [setAt_other _ _ hne]; exact h1
    | @write q m' r hup hb =>
      have hk := inv.key (p := q) (m := m') (.inl (by rw [hb]; exact List.mem_cons_self))
      refine ⟨h1, ?_⟩
      dsimp only
      rw [messagesIn_append, List.length_append]
      by_cases hq : p = q
      · subst hq
        rw [setAt_self]
        rw [hb, List.length_cons] at h2
        simp only [messagesIn, Option.toList_some, List.filter_cons, hk, decide_true, if_true, List.filter_nil, List.length_singleton] at h2 ⊢
        omega
      · rw [setAt_other _ _ hq]
        have : ¬ part (g.front.pool.heap.deref m'.key) = p := fun e => hq (by rw [← e, hk])
        simp only [messagesIn, Option.toList_some, List.filter_cons, this, decide_false, Bool.false_eq_true, if_false, List.filter_nil, List.length_nil] at h2 ⊢
        omega

/-- What is pushed later comes after what was pushed before. -/
theorem KafkaProducer.Later.http {log : List (Nat × Span)} (hr : Http.Reachable 256 outcomes log (o.front.pool.sent.map (·.1)) o.front.http) {outcomes' topic' g}
    (hl : o.Later part outcomes' topic' g) : ∃ new, Http.Reachable 256 (outcomes ++ outcomes') (log ++ new) (g.front.pool.sent.map (·.1)) g.front.http := by
  induction hl with
  | refl => exact ⟨[], by simpa using hr⟩
  | request r _ ih => obtain ⟨new, ih⟩ := ih; exact ⟨new, by rw [← List.append_assoc]; exact .arrive r ih⟩
  | turn up _ ih => exact ih
  | @step outcomes' topic' g g' e hl st ih =>
    obtain ⟨new, ih⟩ := ih
    cases st with
    | front hs hlen =>
      generalize hnone : (none : Option (List UInt8 × List UInt8)) = e at hs
      cases hs with
      | @http h e st => exact ⟨new ++ e.toList, by rw [← List.append_assoc]; exact .step ih st⟩
      | new => exact ⟨new, ih⟩
      | send ho hc hj hr he =>
        refine ⟨new, ?_⟩
        have := Http.Reachable.take ih hc
        simpa using this
      | input ho hd => exact ⟨new, ih⟩
      | dispatch hd hsz => exact ⟨new, ih⟩
      | produce => cases hnone
    | _ => exact ⟨new, ih⟩

/-- The spans that a request pushed, if it is answered and came after some time. -/
theorem pushed_since {log new : List (Nat × Span)} {outcomes' : List Parsed} {s : List Span} {s' : List Span} {ht ht' : Http} (hr : Http.Reachable 256 outcomes log s ht)
    (hr' : Http.Reachable 256 (outcomes ++ outcomes') (log ++ new) s' ht') {i : Nat} {l : List Span} (hi : outcomes'[i]? = some (.spans l)) {code : Nat}
    (hc : ht'.conns[ht.conns.length + i]? = some (.answered code)) : l.Sublist (new.map (·.2)) := by
  obtain ⟨a1, _, a3, _⟩ := C33_all_or_nothing hr
  obtain ⟨_, b2, _, _⟩ := C33_all_or_nothing hr'
  have ho : (outcomes ++ outcomes')[ht.conns.length + i]? = some (.spans l) := by
    rw [List.getElem?_append_right (by omega), a1, Nat.add_sub_cancel_left]; exact hi
  have := b2 _ _ _ ho hc
  have hp : pushedBy (ht.conns.length + i) log = [] := by
    unfold pushedBy
    rw [List.map_eq_nil_iff, List.filter_eq_nil_iff]
    intro e he
    have := a3 e he
    simp
    omega
  rw [pushedBy_append, hp, List.nil_append] at this
  generalize hpu : pushedBy (ht.conns.length + i) new = pushed at this
  cases this
  rw [← hpu]
  exact List.filter_sublist.map _

theorem goTo_map (p : Nat) (l : List Sent) : goTo part p (l.map (·.1)) = (l.filter (Sent.inPart part p)).map (·.1) := by
  unfold goTo; rw [List.filter_map]; rfl

theorem goTo_append (p : Nat) (l l' : List Span) : goTo part p (l ++ l') = goTo part p l ++ goTo part p l' := List.filter_append _ _

/-- C154, what is wrong: from then on all requests together get rid of at most 387 more spans of the traces in this partition, so that a request with more of them is never answered. -/
theorem C154_unanswered (h : KafkaProducer.Reachable part outcomes topic o) {p : Nat} {m : Message} (hf : o.failed p = some m) {outcomes' topic' g} (hl : o.Later part outcomes' topic' g)
    {i : Nat} {l : List Span} (hi : outcomes'[i]? = some (.spans l)) (hlen : 387 < (goTo part p l).length) (code : Nat) :
    g.front.http.conns[o.front.http.conns.length + i]? ≠ some (.answered code) := by
  intro hc
  obtain ⟨log, past, fly, rest, inv⟩ := h.inv
  obtain ⟨_, past', fly', rest', inv'⟩ := hl.inv inv
  obtain ⟨new, hr⟩ := hl.http inv.http
  have hsub := pushed_since inv.http hr hi hc
  obtain ⟨_, hst⟩ := C154_stuck h hf hl
  obtain ⟨hf', _⟩ := C154_stuck h hf hl
  obtain ⟨d, b, f, q, hh, pl⟩ := inv.placed p
  obtain ⟨d', b', f', q', hh', pl'⟩ := inv'.placed p
  have a4 := congrArg (fun l => (goTo part p l).length) (C33_all_or_nothing inv.http).2.2.2
  have b4 := congrArg (fun l => (goTo part p l).length) (C33_all_or_nothing hr).2.2.2
  have hnew := (hsub.filter fun x => decide (part (littleEndian x.trace.toUInt64) = p)).length_le
  have hcap : (goTo part p g.front.http.channel).length ≤ 256 := Nat.le_trans (List.length_filter_le _ _) hr.cap
  have e1 := congrArg List.length pl.order
  have e2 := congrArg List.length pl'.order
  have t1 := congrArg List.length pl.topic
  have t2 := congrArg List.length pl'.topic
  have u1 := congrArg List.length pl.buffers
  have u2 := congrArg List.length pl'.buffers
  have f1 := congrArg List.length pl.failed
  have f2 := congrArg List.length pl'.failed
  have q2 := congrArg List.length pl'.queues
  have k2 := congrArg List.length pl'.held
  have full := inv'.full p
  have room := inv'.room
  have i2 := congrArg List.length inv'.inflight
  have r2 := congrArg List.length inv'.before
  have hh1 : (g.heldFor p).length ≤ 1 := by
    unfold KafkaProducer.heldFor
    rw [List.length_map]
    refine Nat.le_trans (List.length_filter_le _ _) ?_
    cases g.held <;> simp
  have o1 : g.front.offered.toList.length ≤ 1 := by cases g.front.offered <;> simp
  have o2 : g.front.dispatching.toList.length ≤ 1 := by cases g.front.dispatching <;> simp
  have n1 := List.length_filter_le (Sent.inPart part p) fly'
  have n2 := List.length_filter_le (Sent.inPart part p) rest'
  rw [hf] at f1
  rw [hf'] at f2
  unfold channelBufferSize at full room
  rw [messagesIn_append] at t2
  rw [inv.sent, goTo_append] at a4
  rw [inv'.sent, goTo_append, List.map_append] at b4
  simp only [List.map_append, goTo_append, goTo_map, List.length_append, List.length_map, Option.toList_some, List.length_singleton, List.length_cons, List.length_nil] at *
  unfold goTo at *
  omega

/-! ## All goroutines wait -/

theorem blocked_step {p : Nat} {g g' : KafkaProducer} {e : Option (List UInt8 × List UInt8)} (hb : g.Blocked p) (st : g.Step part g' e) :
    g'.Blocked p ∧ g'.front.pool.sent.length + (g.front.inflight.length + (g.front.dispatching.toList.length + g.front.offered.toList.length)) =
      g.front.pool.sent.length + (g'.front.inflight.length + (g'.front.dispatching.toList.length + g'.front.offered.toList.length)) := by
  obtain ⟨⟨m, hm⟩, hfull, ⟨mh, hh⟩⟩ := hb
  cases st with
  | front hs hlen =>
    refine ⟨⟨⟨m, hm⟩, hfull, ⟨mh, hh⟩⟩, ?_⟩
    generalize hnone : (none : Option (List UInt8 × List UInt8)) = e at hs
    cases hs with
    | http => rfl
    | new => rfl
    | send ho hc hj hr he => simp only [ho, Option.toList_none, Option.toList_some, List.length_append, List.length_cons, List.length_nil]; omega
    | input ho hd => simp only [ho, hd, Option.toList_none, Option.toList_some, List.length_cons, List.length_nil]
    | dispatch hd hsz => simp only [hd, Option.toList_none, Option.toList_some, List.length_append, List.length_cons, List.length_nil]; omega
    | produce => cases hnone
  | partition hi hn => rw [hh] at hn; cases hn
  | enqueue he hlen =>
    rw [hh, Option.some.injEq, Prod.mk.injEq] at he
    obtain ⟨rfl, _⟩ := he
    omega
  | @pass q m' r hup hfq hqs =>
    have hne : p ≠ q := fun e => by rw [← e, hm] at hfq; cases hfq
    exact ⟨⟨⟨m, hm⟩, by dsimp only; rw [setAt_other _ _ hne]; exact hfull, ⟨mh, hh⟩⟩, rfl⟩
  | @fail q m' r hup hfq hqs =>
    have hne : p ≠ q := fun e => by rw [← e, hm] at hfq; cases hfq
    exact ⟨⟨⟨m, by dsimp only; rw [setAt_other _ _ hne]; exact hm⟩, by dsimp only; rw [setAt_other _ _ hne]; exact hfull, ⟨mh, hh⟩⟩, rfl⟩
  | write hup hb => exact ⟨⟨⟨m, hm⟩, hfull, ⟨mh, hh⟩⟩, rfl⟩

/-- C154, what is wrong: when the channel of a partition whose goroutine waits for ever is full, and there is one more message for it, then everything stops: only what already is in the channels of
the other partitions gets into them. -/
theorem C154_blocked (h : KafkaProducer.Reachable part outcomes topic o) {p : Nat} (hb : o.Blocked p) {outcomes' topic' g} (hl : o.Later part outcomes' topic' g) :
    g.Blocked p ∧ ∀ q, (messagesIn part q topic').length ≤ (o.buffers q).length + (o.queues q).length := by
  suffices key : g.Blocked p ∧ ∀ q, (messagesIn part q topic').length + ((g.buffers q).length + (g.queues q).length) ≤ (o.buffers q).length + (o.queues q).length from
    ⟨key.1, fun q => by have := key.2 q; omega⟩
  induction hl with
  | refl => exact ⟨hb, fun q => by simp [messagesIn]⟩
  | request r _ ih => exact ih
  | turn up _ ih => exact ih
  | @step outcomes' topic' g g' e hl st ih =>
    obtain ⟨h1, h2⟩ := ih
    obtain ⟨_, _, _, _, inv⟩ := KafkaProducer.Later.inv (KafkaProducer.Later.trans h hl) ProducerInv.init
    refine ⟨(blocked_step h1 st).1, fun q => ?_⟩
    have h2q := h2 q
    obtain ⟨_, hfull, ⟨mh, hh⟩⟩ := h1
    cases st with
    | front hs hlen => simpa using h2q
    | partition hi hn => rw [hh] at hn; cases hn
    | enqueue he hlen =>
      rw [hh, Option.some.injEq, Prod.mk.injEq] at he
      obtain ⟨rfl, _⟩ := he
      omega
    | @pass q' m' r hup hfq hqs =>
      simp only [Option.toList_none, List.append_nil]
      by_cases hq : q = q'
      · subst hq
        rw [hqs, List.length_cons] at h2q
        rw [setAt_self, setAt_self, List.length_append, List.length_singleton]; omega
      · rw [setAt_other _ _ hq, setAt_other _ _ hq]; exact h2q
    | @fail q' m' r hup hfq hqs =>
      simp only [Option.toList_none, List.append_nil]
      by_cases hq : q = q'
      · subst hq
        rw [hqs, List.length_cons] at h2q
        rw [setAt_self]; omega
      · rw [setAt_other _ _ hq]; exact h2q
    | @write q' m' r hup hbu =>
      have hk := inv.key (p := q') (m := m') (.inl (by rw [hbu]; exact List.mem_cons_self))
      rw [messagesIn_append, List.length_append]
      dsimp only
      by_cases hq : q = q'
      · subst hq
        rw [setAt_self]
        rw [hbu, List.length_cons] at h2q
        simp only [messagesIn, Option.toList_some, List.filter_cons, hk, decide_true, if_true, List.filter_nil, List.length_singleton] at h2q ⊢
        omega
      · rw [setAt_other _ _ hq]
        have : ¬ part (g.front.pool.heap.deref m'.key) = q := fun e => hq (by rw [← e, hk])
        simp only [messagesIn, Option.toList_some, List.filter_cons, this, decide_false, Bool.false_eq_true, if_false, List.filter_nil, List.length_nil] at h2q ⊢
        omega

/-- C154, what is wrong: then no request with more than 322 spans, of any traces, is answered any more. -/
theorem C154_none_answered (h : KafkaProducer.Reachable part outcomes topic o) {p : Nat} (hb : o.Blocked p) {outcomes' topic' g} (hl : o.Later part outcomes' topic' g)
    {i : Nat} {l : List Span} (hi : outcomes'[i]? = some (.spans l)) (hlen : 322 < l.length) (code : Nat) :
    g.front.http.conns[o.front.http.conns.length + i]? ≠ some (.answered code) := by
  intro hc
  obtain ⟨log, past, fly, rest, inv⟩ := h.inv
  obtain ⟨_, past', fly', rest', inv'⟩ := hl.inv inv
  obtain ⟨new, hr⟩ := hl.http inv.http
  have hsub := (pushed_since inv.http hr hi hc).length_le
  have hcount : g.Blocked p ∧ g.front.pool.sent.length + (o.front.inflight.length + (o.front.dispatching.toList.length + o.front.offered.toList.length)) =
      o.front.pool.sent.length + (g.front.inflight.length + (g.front.dispatching.toList.length + g.front.offered.toList.length)) := by
    clear hi hc hr hsub inv'
    induction hl with
    | refl => exact ⟨hb, rfl⟩
    | request r _ ih => exact ih
    | turn up _ ih => exact ih
    | step _ st ih =>
      obtain ⟨k1, k2⟩ := blocked_step ih.1 st
      exact ⟨k1, by have := ih.2; omega⟩
  have a4 := congrArg List.length (C33_all_or_nothing inv.http).2.2.2
  have b4 := congrArg List.length (C33_all_or_nothing hr).2.2.2
  have hcap := hr.cap
  have room := inv'.room
  have o1 : g.front.offered.toList.length ≤ 1 := by cases g.front.offered <;> simp
  have o2 : g.front.dispatching.toList.length ≤ 1 := by cases g.front.dispatching <;> simp
  have hc2 := hcount.2
  unfold channelBufferSize at room
  simp only [List.length_map, List.length_append] at a4 b4 hsub
  omega

/-! ## Such states are reachable -/

/-- The next span of the first request is given to the goroutine of the topic. -/
theorem ship {x : Span} {rest : List Span} {conns : List Conn} (h : KafkaProducer.Reachable part outcomes topic o) (hsmall : Small x) (hc : o.front.http.conns = .pushing (x :: rest) :: conns)
    (hch : o.front.http.channel = []) (hof : o.front.offered = none) (hdi : o.front.dispatching = none) (hin : o.front.inflight = []) (hh : o.held = none) :
    ∃ g m, o.Later part [] [] g ∧ g.front.http.conns = .pushing rest :: conns ∧ g.front.http.channel = [] ∧ g.front.offered = none ∧ g.front.dispatching = none ∧ g.front.inflight = [] ∧
      g.held = some (partitionOf part x.trace, m) ∧ g.queues = o.queues ∧ g.failed = o.failed ∧ g.buffers = o.buffers ∧ g.up = o.up := by
  obtain ⟨log, past, fly, rs, inv⟩ := h.inv
  have s1 : o.Step part _ none := .front (.http (.push o.front.http (i := 0) (s := x) (rest := rest) (by rw [hc]; rfl) (by rw [hch]; decide))) (by dsimp only; rw [hin]; exact Nat.zero_le _)
  have s2 : KafkaProducer.Step part _ _ none := .front (o := { o with front := { o.front with http := { o.front.http with conns := o.front.http.conns.set 0 (.pushing rest), channel := o.front.http.channel ++ [x] } } })
    (.new _) (by dsimp only; rw [hin]; exact Nat.zero_le _)
  have l2 := KafkaProducer.Later.step (KafkaProducer.Later.step (.refl (part := part) (o := o)) s1) s2
  obtain ⟨log2, past2, fly2, rest2, inv2⟩ := l2.inv inv
  have hsome := C10_no_panic _ inv2.pool {} (by simp) x (x.tags.getD ∅).toList
  obtain ⟨⟨hp, enc', m⟩, he⟩ := Option.isSome_iff_exists.mp hsome
  have l3 := l2.step (.front (.send (x := x) (rest := []) (j := o.front.pool.encoders.length) (enc := {}) hof (by simp [hch]) (by simp) (.refl _) he) (by dsimp only; rw [hin]; exact Nat.zero_le _))
  have l4 := l3.step (.front (.input rfl hdi) (by dsimp only; rw [hin]; exact Nat.zero_le _))
  obtain ⟨log4, past4, fly4, rest4, inv4⟩ := l4.inv inv
  obtain ⟨k1, k2⟩ := inv4.deref (x := (x, (x.tags.getD ∅).toList, m)) (List.mem_append_right _ (List.mem_singleton.mpr rfl))
  have l5 := l4.step (.front (.dispatch rfl (by dsimp only at k1 k2 ⊢; rw [k1, k2]; exact hsmall _ (.refl _))) (by dsimp only; rw [hin]; show 1 ≤ 64; decide))
  have l6 := l5.step (.partition (m := m) (rest := []) (by dsimp only; rw [hin]; rfl) hh)
  refine ⟨_, m, l6, ?_, rfl, rfl, rfl, rfl, ?_, rfl, rfl, rfl, rfl⟩
  · dsimp only; rw [hc]; rfl
  · dsimp only at k1 ⊢; rw [k1]; rfl

/-- The next spans of the first request, all of one partition, fill its channel. -/
theorem fill {p : Nat} {conns : List Conn} {last : List Span} : ∀ (l : List Span) {o : KafkaProducer} {topic} (_ : KafkaProducer.Reachable part outcomes topic o) (_ : ∀ x ∈ l, Small x ∧ partitionOf part x.trace = p)
    (_ : o.front.http.conns = .pushing (l ++ last) :: conns) (_ : o.front.http.channel = []) (_ : o.front.offered = none) (_ : o.front.dispatching = none) (_ : o.front.inflight = [])
    (_ : o.held = none) (_ : (o.queues p).length + l.length ≤ channelBufferSize),
    ∃ g, o.Later part [] [] g ∧ g.front.http.conns = .pushing last :: conns ∧ g.front.http.channel = [] ∧ g.front.offered = none ∧ g.front.dispatching = none ∧ g.front.inflight = [] ∧
      g.held = none ∧ (g.queues p).length = (o.queues p).length + l.length ∧ (∀ q, q ≠ p → g.queues q = o.queues q) ∧ g.failed = o.failed ∧ g.buffers = o.buffers ∧ g.up = o.up
  | [], o, _, _, _, hc, hch, hof, hdi, hin, hh, _ => ⟨o, .refl, hc, hch, hof, hdi, hin, hh, rfl, fun _ _ => rfl, rfl, rfl, rfl⟩
  | x :: l, o, topic, h, hx, hc, hch, hof, hdi, hin, hh, hlen => by
    obtain ⟨hs, hp⟩ := hx x List.mem_cons_self
    obtain ⟨g1, m, l1, c1, c2, c3, c4, c5, c6, c7, c8, c9, c10⟩ := ship h hs (rest := l ++ last) hc hch hof hdi hin hh
    rw [hp] at c6
    rw [List.length_cons] at hlen
    have l2 := l1.step (.enqueue c6 (by rw [c7]; omega))
    have r2 := KafkaProducer.Later.trans h l2
    rw [List.append_nil] at r2
    obtain ⟨g, l3, d1, d2, d3, d4, d5, d6, d7, d8, d9, d10, d11⟩ := fill l r2 (fun y hy => hx y (List.mem_cons_of_mem _ hy)) c1 c2 c3 c4 c5 rfl
      (by dsimp only; rw [setAt_self, List.length_append, List.length_singleton, c7]; omega)
    refine ⟨g, ?_, d1, d2, d3, d4, d5, d6, ?_, fun q hq => ?_, ?_, ?_, ?_⟩
    · simpa using l2.trans l3
    · rw [d7]; dsimp only; rw [setAt_self, List.length_append, List.length_singleton, c7, List.length_cons]; omega
    · rw [d8 q hq]; dsimp only; rw [setAt_other _ _ hq, c7]
    · rw [d9]; exact c8
    · rw [d10]; exact c9
    · rw [d11]; exact c10

/-- A span of one trace. -/
def outageSpan (n : Nat) : Span := { id := Int64.ofNat (n + 1), trace := 1 }

theorem outageSpan_small (n : Nat) : Small (outageSpan n) := C104_small (by show 0 + 0 + 0 ≤ 786000; decide)

/-- C154: it is false that everything goes on after an outage of Kafka. One request of 66 spans comes; there is no broker for the first one, for a moment. The request is answered with 202, but
although Kafka can be reached again, nothing gets into the topic any more, and no request with more than 322 spans is ever answered. -/
theorem C154_fails (part : List UInt8 → Nat) : ∃ o, KafkaProducer.Reachable part [.spans ((List.range 66).map outageSpan)] [] o ∧ o.up = true ∧ o.front.http.conns = [.answered 202] ∧
    ∀ outcomes' topic' g, o.Later part outcomes' topic' g → topic' = [] ∧
      ∀ (i : Nat) l, outcomes'[i]? = some (.spans l) → 322 < l.length → ∀ code, g.front.http.conns[1 + i]? ≠ some (.answered code) := by
  have hpart : ∀ n, partitionOf part (outageSpan n).trace = partitionOf part 1 := fun _ => rfl
  generalize hp : partitionOf part 1 = p at hpart
  obtain ⟨l, hl, hlen⟩ : ∃ l, (List.range 66).map outageSpan = outageSpan 0 :: (l ++ [outageSpan 65]) ∧ l = ((List.range 64).map fun n => outageSpan (n + 1)) := ⟨_, rfl, rfl⟩
  have hall : ∀ x ∈ l, Small x ∧ partitionOf part x.trace = p := fun x hx => by
    rw [hlen] at hx
    obtain ⟨n, _, rfl⟩ := List.mem_map.mp hx
    exact ⟨outageSpan_small _, hpart _⟩
  have hlen : l.length = 64 := by rw [hlen]; simp
  rw [hl]
  have r0 : KafkaProducer.Reachable part [.spans (outageSpan 0 :: (l ++ [outageSpan 65]))] [] _ := .request (.spans (outageSpan 0 :: (l ++ [outageSpan 65]))) .refl
  have r1 := KafkaProducer.Later.turn false r0
  obtain ⟨g1, m, l1, c1, c2, c3, c4, c5, c6, c7, c8, c9, c10⟩ := ship r1 (outageSpan_small 0) (rest := l ++ [outageSpan 65]) (conns := []) rfl rfl rfl rfl rfl rfl
  rw [hpart] at c6
  have l2 := l1.step (.enqueue c6 (by rw [c7]; show 0 < 64; decide))
  have l3 := l2.step (.fail (p := p) (m := m) (rest := []) c10 (by rw [c8]; rfl) (by dsimp only; rw [setAt_self, c7]; rfl))
  have l4 := l3.turn true
  have r4 := KafkaProducer.Later.trans r1 l4
  simp only [Option.toList_none, List.append_nil] at r4
  obtain ⟨g5, l5, d1, d2, d3, d4, d5, d6, d7, d8, d9, d10, d11⟩ := fill (p := p) (conns := []) (last := [outageSpan 65]) l r4 hall c1 c2 c3 c4 c5 rfl
    (by unfold KafkaProducer.turn; dsimp only; rw [setAt_self, hlen]; decide)
  have r5 := KafkaProducer.Later.trans r4 l5
  simp only [List.append_nil] at r5
  obtain ⟨g6, m6, l6, e1, e2, e3, e4, e5, e6, e7, e8, e9, e10⟩ := ship r5 (outageSpan_small 65) (rest := []) d1 d2 d3 d4 d5 d6
  have l7 := l6.step (.front (.http (.accept g6.front.http (i := 0) (by rw [e1]; rfl))) (by dsimp only; rw [e5]; decide))
  have r7 := KafkaProducer.Later.trans r5 l7
  simp only [Option.toList_none, List.append_nil] at r7
  rw [hpart] at e6
  have hq : ∀ q, q ≠ p → g6.queues q = [] := fun q hq => by
    rw [e7, d8 q hq]
    unfold KafkaProducer.turn; dsimp only
    rw [setAt_other _ _ hq, setAt_other _ _ hq, c7]; rfl
  have hb : ∀ q, g6.buffers q = [] := fun q => by
    rw [e9, d10]
    unfold KafkaProducer.turn; dsimp only
    rw [c9]; rfl
  have hf : g6.failed p = some m := by
    rw [e8, d9]
    unfold KafkaProducer.turn; dsimp only
    exact setAt_self _ _ _
  have hfull : (g6.queues p).length = channelBufferSize := by
    rw [e7, d7, hlen]
    unfold KafkaProducer.turn; dsimp only
    rw [setAt_self]; rfl
  refine ⟨_, r7, ?_, ?_, fun outcomes' topic' g hl => ?_⟩
  · rw [e10, d11]; rfl
  · dsimp only; rw [e1]; rfl
  · have hblocked : KafkaProducer.Blocked { g6 with front := { g6.front with http := { g6.front.http with conns := g6.front.http.conns.set 0 (.answered 202) } } } p := ⟨⟨m, hf⟩, hfull, ⟨m6, e6⟩⟩
    constructor
    · -- what is in a channel is for the partition that is stuck
      obtain ⟨_, hstuck⟩ := C154_stuck r7 (p := p) (m := m) hf hl
      obtain ⟨_, hle⟩ := C154_blocked r7 hblocked hl
      cases topic' with
      | nil => rfl
      | cons e t =>
        have hmem : e ∈ messagesIn part (part e.1) (e :: t) := List.mem_filter.mpr ⟨List.mem_cons_self, by simp⟩
        have hpos := List.length_pos_of_mem hmem
        by_cases hep : part e.1 = p
        · rw [hep] at hpos
          dsimp only at hstuck
          rw [hb] at hstuck
          simp only [List.length_nil] at hstuck
          omega
        · have := hle (part e.1)
          dsimp only at this
          rw [hb, hq _ hep] at this
          simp only [List.length_nil] at this
          omega
    · intro i l' hi hlen' code
      have := C154_none_answered r7 hblocked hl hi hlen' code
      dsimp only at this
      rw [e1] at this
      exact this

/-! ## As long as no goroutine waits for ever -/

theorem sum_setAt (f : Nat → Nat) {p : Nat} (v : Nat) : ∀ {n : Nat}, p < n → ((List.range n).map (setAt f p v)).sum + f p = ((List.range n).map f).sum + v
  | 0, h => absurd h (Nat.not_lt_zero _)
  | n + 1, h => by
    simp only [List.range_succ, List.map_append, List.sum_append, List.map_cons, List.map_nil, List.sum_cons, List.sum_nil]
    by_cases hn : p < n
    · have := sum_setAt f v hn
      rw [setAt_other _ _ (by omega : n ≠ p)]
      omega
    · have hp : p = n := by omega
      subst hp
      rw [setAt_self]
      have : (List.range p).map (setAt f p v) = (List.range p).map f := List.map_congr_left fun q hq => setAt_other _ _ (by have := List.mem_range.mp hq; omega)
      rw [this]; omega

/-- The work of the goroutines of partitions. -/
def partitionWork (n : Nat) (queues buffers : Nat → List Message) : Nat := ((List.range n).map fun p => 2 * (queues p).length + (buffers p).length).sum

theorem partitionWork_set {n p : Nat} (hp : p < n) (queues buffers : Nat → List Message) (q b : List Message) :
    partitionWork n (setAt queues p q) (setAt buffers p b) + (2 * (queues p).length + (buffers p).length) = partitionWork n queues buffers + (2 * q.length + b.length) := by
  unfold partitionWork
  have : (fun r => 2 * (setAt queues p q r).length + (setAt buffers p b r).length) = setAt (fun r => 2 * (queues r).length + (buffers r).length) p (2 * q.length + b.length) := by
    funext r
    by_cases hr : r = p
    · subst hr; rw [setAt_self, setAt_self, setAt_self]
    · rw [setAt_other _ _ hr, setAt_other _ _ hr, setAt_other _ _ hr]
  rw [this]
  exact sum_setAt _ _ hp

theorem setAt_id {α : Type} (f : Nat → α) (p : Nat) : setAt f p (f p) = f := by
  funext q
  by_cases hq : q = p
  · subst hq; exact setAt_self _ _ _
  · exact setAt_other _ _ hq

theorem work_eq (n : Nat) (o : KafkaProducer) : o.work n = 4 * o.front.work + 3 * o.held.toList.length + partitionWork n o.queues o.buffers := rfl

/-- C154: every step of the proxy and of the producer makes the work less, unless it is a new encoder. -/
theorem C154_terminates_partial {n : Nat} (hn : ∀ key, part key < n) (h : KafkaProducer.Reachable part outcomes topic o) {g : KafkaProducer} {e} (st : o.Step part g e) :
    g.work n < o.work n ∨ g.work n = o.work n ∧ g.front.pool.encoders.length = o.front.pool.encoders.length + 1 := by
  obtain ⟨log, past, fly, rest, inv⟩ := h.inv
  cases st with
  | front hs hlen =>
    rcases C70_terminates_partial hs with h1 | ⟨h1, h2⟩
    · left; simp only [work_eq]; omega
    · right; exact ⟨by simp only [work_eq, h1], h2⟩
  | partition hi hh =>
    left
    simp only [work_eq, Front.work, hi, hh, List.length_cons, Option.toList_none, Option.toList_some, List.length_nil]
    omega
  | @enqueue p m hh hlen =>
    left
    have hp : p < n := by
      obtain ⟨d, b, f, q, hd, pl⟩ := inv.placed p
      have := pl.held
      rw [heldFor_some hh, if_pos rfl] at this
      obtain ⟨y, l2, rfl, h2, h3⟩ := map_eq_cons' this
      have hy : y ∈ past.filter (Sent.inPart part p) := by rw [pl.order]; simp
      rw [← of_decide_eq_true (List.mem_filter.mp hy).2]
      exact hn _
    have := partitionWork_set hp o.queues o.buffers (o.queues p ++ [m]) (o.buffers p)
    rw [setAt_id] at this
    simp only [work_eq, hh, Option.toList_none, Option.toList_some, List.length_cons, List.length_nil, List.length_append] at this ⊢
    omega
  | @pass p m r hup hf hqs =>
    left
    have hp : p < n := by rw [← inv.key (p := p) (m := m) (.inr (by rw [hqs]; exact List.mem_cons_self))]; exact hn _
    have := partitionWork_set hp o.queues o.buffers r (o.buffers p ++ [m])
    rw [hqs] at this
    simp only [work_eq, List.length_cons, List.length_nil, List.length_append] at this ⊢
    omega
  | @fail p m r hup hf hqs =>
    left
    have hp : p < n := by rw [← inv.key (p := p) (m := m) (.inr (by rw [hqs]; exact List.mem_cons_self))]; exact hn _
    have := partitionWork_set hp o.queues o.buffers r (o.buffers p)
    rw [hqs, setAt_id] at this
    simp only [work_eq, List.length_cons] at this ⊢
    omega
  | @write p m r hup hb =>
    left
    have hp : p < n := by rw [← inv.key (p := p) (m := m) (.inl (by rw [hb]; exact List.mem_cons_self))]; exact hn _
    have := partitionWork_set hp o.queues o.buffers (o.queues p) r
    rw [hb, setAt_id] at this
    simp only [work_eq, List.length_cons] at this ⊢
    omega

/-- C154: as long as Kafka can be reached and no goroutine waits for ever, there is a next step until everything is in the topic and everyone has an answer. -/
theorem C154_progress_partial {n : Nat} (hn : ∀ key, part key < n) (h : KafkaProducer.Reachable part outcomes topic o) (hup : o.up = true) (hs : o.Sound) (hsmall : ∀ x, Accepted outcomes x → Small x)
    (hw : ¬ o.Idle) : ∃ topic' g, o.Later part [] topic' g ∧ g.work n < o.work n ∧ g.up = true ∧ g.Sound := by
  obtain ⟨log, past, fly, rest, inv⟩ := h.inv
  have one : ∀ {g e}, o.Step part g e → g.front.pool.encoders.length = o.front.pool.encoders.length → g.up = true → g.Sound →
      ∃ topic' g, o.Later part [] topic' g ∧ g.work n < o.work n ∧ g.up = true ∧ g.Sound := fun st he h1 h2 => by
    refine ⟨_, _, .step .refl st, ?_, h1, h2⟩
    rcases C154_terminates_partial hn h st with h | ⟨_, h⟩
    · exact h
    · omega
  by_cases hb : ∃ p, o.buffers p ≠ []
  · obtain ⟨p, hb⟩ := hb
    obtain ⟨m, r, hb⟩ := List.exists_cons_of_ne_nil hb
    exact one (.write hup hb) rfl hup hs
  · by_cases hq : ∃ p, o.queues p ≠ []
    · obtain ⟨p, hq⟩ := hq
      obtain ⟨m, r, hq⟩ := List.exists_cons_of_ne_nil hq
      exact one (.pass hup (hs p) hq) rfl hup hs
    · have hq' : ∀ p, o.queues p = [] := fun p => Classical.byContradiction fun e => hq ⟨p, e⟩
      have hb' : ∀ p, o.buffers p = [] := fun p => Classical.byContradiction fun e => hb ⟨p, e⟩
      cases hh : o.held with
      | some e => exact one (.enqueue (p := e.1) (m := e.2) hh (by rw [hq']; show 0 < 64; decide)) rfl hup hs
      | none =>
        cases hi : o.front.inflight with
        | cons m l' => exact one (.partition hi hh) rfl hup hs
        | nil =>
          cases hd : o.front.dispatching with
          | some m =>
            have hbf := inv.before
            rw [hd] at hbf
            obtain ⟨y, l2, rfl, hy, _⟩ := map_eq_cons' hbf
            have hmem : y ∈ o.front.pool.sent := by rw [inv.sent]; simp
            obtain ⟨k1, k2⟩ := inv.deref hmem
            have := hsmall y.1 (http_accepted inv.http (List.mem_map.mpr ⟨y, hmem, rfl⟩)) y.2.1 (inv.ranges y hmem)
            rw [← k1, ← k2, hy] at this
            exact one (.front (.dispatch hd this) (by dsimp only; rw [hi]; show 1 ≤ 64; decide)) rfl hup hs
          | none =>
            have hroom : o.front.inflight.length ≤ channelBufferSize := inv.room
            cases ho : o.front.offered with
            | some m => exact one (.front (.input ho hd) hroom) rfl hup hs
            | none =>
              cases hc : o.front.http.channel with
              | cons x r =>
                have st : o.Step part _ none := .front (.new _) hroom
                obtain ⟨_, _, _, _, inv1⟩ := inv.step st
                have hsome := C10_no_panic _ inv1.pool {} (by simp) x (x.tags.getD ∅).toList
                obtain ⟨⟨hp, enc', m⟩, he⟩ := Option.isSome_iff_exists.mp hsome
                have l1 := (KafkaProducer.Later.refl (part := part) (o := o)).step st
                have st2 : KafkaProducer.Step part _ _ none := .front (o := { o with front := { o.front with pool := { o.front.pool with encoders := o.front.pool.encoders ++ [{}] } } })
                  (.send (x := x) (rest := r) (j := o.front.pool.encoders.length) (enc := {}) ho hc (by simp) (.refl _) he) hroom
                refine ⟨_, _, l1.step st2, ?_, hup, hs⟩
                simp only [work_eq, Front.work, hc, ho, List.length_cons, Option.toList_some, Option.toList_none, List.length_nil]
                omega
              | nil =>
                have : ∃ c ∈ o.front.http.conns, c = .failing ∨ ∃ l, c = .pushing l := by
                  refine Classical.byContradiction fun hno => hw ⟨⟨fun c hcm => ⟨fun e => hno ⟨c, hcm, .inl e⟩, fun l e => hno ⟨c, hcm, .inr ⟨l, e⟩⟩⟩, hc, ho, hd, hi⟩, hh, hq', hb'⟩
                obtain ⟨c, hcm, hcase⟩ := this
                obtain ⟨i, hci⟩ := List.getElem?_of_mem hcm
                rcases hcase with rfl | ⟨l, rfl⟩
                · exact one (.front (.http (.reject _ hci)) hroom) rfl hup hs
                · cases l with
                  | nil => exact one (.front (.http (.accept _ hci)) hroom) rfl hup hs
                  | cons x l => exact one (.front (.http (.push _ hci (by rw [hc]; decide))) hroom) rfl hup hs

/-- When everything is done, everything that was pushed is in the topic. -/
theorem done_written {log past fly rest} (inv : ProducerInv part outcomes topic log past fly rest o) (hsmall : ∀ x, Accepted outcomes x → Small x) (hidle : o.Idle) (hsound : o.Sound) {l : List Span}
    (hl : l.Sublist (log.map (·.2))) (p : Nat) : ((goTo part p l).map Span.withTags).Sublist (inPartition part p topic) := by
  obtain ⟨⟨hc1, hc2, hc3, hc4, hc5⟩, hheld, hqs, hbs⟩ := hidle
  have hfly : fly = [] := by have := inv.inflight; rw [hc5] at this; exact List.map_eq_nil_iff.mp this
  have hrest : rest = [] := by have := inv.before; rw [hc4, hc3] at this; exact List.map_eq_nil_iff.mp this
  have hsent : o.front.pool.sent = past := by rw [inv.sent, hfly, hrest]; simp
  obtain ⟨d, b, f, q, hd, pl⟩ := inv.placed p
  have e1 : b = [] := by have := pl.buffers; rw [hbs] at this; exact List.map_eq_nil_iff.mp this
  have e2 : f = [] := by have := pl.failed; rw [hsound] at this; exact List.map_eq_nil_iff.mp this
  have e3 : q = [] := by have := pl.queues; rw [hqs] at this; exact List.map_eq_nil_iff.mp this
  have e4 : hd = [] := by have := pl.held; rw [heldFor_none hheld] at this; exact List.map_eq_nil_iff.mp this
  have hord := pl.order
  rw [e1, e2, e3, e4] at hord
  simp only [List.append_nil] at hord
  have hok : ∀ y ∈ d, decodeKafkaMessage (binaryEncode y.1 y.2.1) = some y.1.withTags := fun y hy => by
    rw [← hord, ← hsent] at hy
    have hy' := (List.mem_filter.mp hy).1
    exact SentOk.decode ⟨hsmall _ (http_accepted inv.http (List.mem_map.mpr ⟨y, hy', rfl⟩)) _ (inv.ranges y hy'), inv.ranges y hy'⟩
  have htop : inPartition part p topic = d.map (Span.withTags ∘ fun x : Sent => x.1) := by
    have := pl.topic
    unfold messagesIn at this
    unfold inPartition
    rw [this, List.filterMap_map]
    exact filterMap_of_some fun y hy => by simp only [Function.comp_apply, Sent.bytes]; exact hok y hy
  have h4 := (C33_all_or_nothing inv.http).2.2.2
  rw [hc2, List.append_nil] at h4
  rw [h4] at hl
  have hgo : (goTo part p l).Sublist (goTo part p (o.front.pool.sent.map (·.1))) := hl.filter _
  rw [goTo_map, hsent, hord] at hgo
  rw [htop, ← List.map_map]
  exact hgo.map _

/-- C154: so after an outage in which no message was given up, everything gets to the topic, each partition in the order in which the spans were sent, and every request gets its answer. -/
theorem C154_partial {n : Nat} (hn : ∀ key, part key < n) (h : KafkaProducer.Reachable part outcomes topic o) (hup : o.up = true) (hs : o.Sound) (hsmall : ∀ x, Accepted outcomes x → Small x) :
    ∃ topic' g, o.Later part [] topic' g ∧ g.Idle ∧
      (∀ (i : Nat) r, outcomes[i]? = some r → (∀ l, r = .spans l → g.front.http.conns[i]? = some (.answered 202) ∧ ∀ p, ((goTo part p l).map Span.withTags).Sublist (inPartition part p (topic ++ topic'))) ∧
        (r = .err → g.front.http.conns[i]? = some (.answered 400))) := by
  suffices key : ∃ topic' g, o.Later part [] topic' g ∧ g.Idle ∧ g.Sound by
    obtain ⟨topic', g, hl, hidle, hsound⟩ := key
    refine ⟨topic', g, hl, hidle, ?_⟩
    obtain ⟨log0, past0, fly0, rest0, inv0⟩ := h.inv
    obtain ⟨log, past, fly, rest, inv⟩ := hl.inv inv0
    rw [List.append_nil] at inv
    obtain ⟨⟨hc1, hc2, hc3, hc4, hc5⟩, hheld, hqs, hbs⟩ := hidle
    obtain ⟨h1, h2, _, h4⟩ := C33_all_or_nothing inv.http
    intro i r hr
    have hlt : i < g.front.http.conns.length := by rw [h1]; exact (List.getElem?_eq_some_iff.mp hr).1
    have hc := List.getElem?_eq_getElem hlt
    have hall := h2 i r _ hr hc
    have hid := hc1 _ (List.getElem_mem hlt)
    generalize g.front.http.conns[i] = c at hall hc hid
    generalize hpu : pushedBy i log = pushed at hall
    rw [hc]
    cases hall with
    | pushing => exact absurd rfl (hid.2 _)
    | accepted =>
      refine ⟨fun l hl' => ⟨rfl, fun p => ?_⟩, fun h => by cases h⟩
      cases hl'
      exact done_written inv hsmall ⟨⟨hc1, hc2, hc3, hc4, hc5⟩, hheld, hqs, hbs⟩ hsound (by rw [← hpu]; exact List.filter_sublist.map _) p
    | failing => exact absurd rfl hid.1
    | rejected => exact ⟨fun _ h => (by cases h), fun _ => rfl⟩
    | panicked => exact ⟨fun _ h => (by cases h), fun h => by cases h⟩
    | waiting => exact ⟨fun _ h => (by cases h), fun h => by cases h⟩
  generalize hnw : o.work n = w
  induction w using Nat.strongRecOn generalizing o topic with
  | _ w ih =>
    by_cases hw : o.Idle
    · exact ⟨[], o, .refl, hw, hs⟩
    · obtain ⟨topic', g, hl, hlt, hup', hs'⟩ := C154_progress_partial hn h hup hs hsmall hw
      have hr := KafkaProducer.Later.trans h hl
      rw [List.append_nil] at hr
      obtain ⟨topic'', g', hl', hid, hs''⟩ := ih (g.work n) (by omega) hr hup' hs' rfl
      exact ⟨_, g', hl.trans hl', hid, hs''⟩

/-- C154: at any time, each partition has the first messages that the sender made for it, in their order: no outage leaves a gap. -/
theorem C154_order (h : KafkaProducer.Reachable part outcomes topic o) (p : Nat) :
    messagesIn part p topic <+: (o.front.pool.sent.filter fun x => decide (part (littleEndian x.1.trace.toUInt64) = p)).map fun x => (littleEndian x.1.trace.toUInt64, binaryEncode x.1 x.2.1) := by
  obtain ⟨log, past, fly, rest, inv⟩ := h.inv
  obtain ⟨d, b, f, q, hd, pl⟩ := inv.placed p
  rw [inv.sent, List.filter_append, List.map_append]
  refine List.IsPrefix.trans ?_ (List.prefix_append _ _)
  have := pl.order
  unfold Sent.inPart at this
  rw [this, List.map_append, pl.topic]
  exact List.prefix_append _ _

/-- An outage while a span is on its way, but no message is given up: the span gets to the topic. -/
theorem C154_witness (key : ∀ k, part k < 12) : ∃ o, KafkaProducer.Reachable part [.spans [outageSpan 0]] [] o ∧ o.queues (partitionOf part 1) ≠ [] ∧ o.up = false ∧
    ∃ topic' g, (o.turn true).Later part [] topic' g ∧ g.front.http.conns = [.answered 202] ∧ [(outageSpan 0).withTags].Sublist (inPartition part (partitionOf part 1) topic') := by
  have r0 : KafkaProducer.Reachable part [.spans [outageSpan 0]] [] _ := .request (.spans [outageSpan 0]) .refl
  have r1 := KafkaProducer.Later.turn false r0
  obtain ⟨g1, m, l1, c1, c2, c3, c4, c5, c6, c7, c8, c9, c10⟩ := ship r1 (outageSpan_small 0) (rest := []) (conns := []) rfl rfl rfl rfl rfl rfl
  have l2 := l1.step (.enqueue c6 (by rw [c7]; show 0 < 64; decide))
  have r2 := KafkaProducer.Later.trans r1 l2
  simp only [Option.toList_none, List.append_nil] at r2
  refine ⟨_, r2, ?_, c10, ?_⟩
  · dsimp only
    rw [show (outageSpan 0).trace = 1 from rfl, setAt_self]
    simp
  · have hs : ∀ x, Accepted [.spans [outageSpan 0]] x → Small x := fun x hx => by
      obtain ⟨l, hl, hx⟩ := hx
      rw [List.mem_singleton, Parsed.spans.injEq] at hl
      subst hl
      rw [List.mem_singleton] at hx
      subst hx
      exact outageSpan_small 0
    obtain ⟨topic', g, hl, hidle, hans⟩ := C154_partial key (KafkaProducer.Later.turn true r2) rfl (fun p => by
      unfold KafkaProducer.turn; dsimp only; rw [c8]; rfl) hs
    obtain ⟨h1, h2⟩ := (hans 0 _ rfl).1 _ rfl
    refine ⟨topic', g, hl, ?_, ?_⟩
    · obtain ⟨_, _, _, _, inv⟩ := hl.inv (KafkaProducer.Reachable.inv (KafkaProducer.Later.turn true r2)).choose_spec.choose_spec.choose_spec.choose_spec
      have hlen := (C33_all_or_nothing inv.http).1
      match hc : g.front.http.conns, hlen with
      | [c], _ => rw [hc] at h1; simpa using h1
    · have := h2 (partitionOf part 1)
      have e : goTo part (partitionOf part 1) [outageSpan 0] = [outageSpan 0] := by
        unfold goTo
        rw [List.filter_eq_self]
        intro x hx
        rw [List.mem_singleton] at hx
        subst hx
        exact decide_eq_true rfl
      rw [e] at this
      exact this

end Verif
