import Verif.Spec.Producer
import Verif.Props.FairFront

/-!
# Invariants of a proxy while Kafka can be reached and while it cannot
-/

namespace Verif

open Spec

variable {part : List UInt8 → Nat}

/-- The bytes of a message. -/
def Sent.bytes (x : Sent) : List UInt8 × List UInt8 := (littleEndian x.1.trace.toUInt64, binaryEncode x.1 x.2.1)

/-- The message that the goroutine of the topic has, if it is for this partition. -/
def KafkaProducer.heldFor (o : KafkaProducer) (p : Nat) : List Message := (o.held.toList.filter fun e => e.1 = p).map (·.2)

/-- Where the messages of a partition are, in the order in which they were sent. -/
structure Placed (part : List UInt8 → Nat) (topic : List (List UInt8 × List UInt8)) (past : List Sent) (o : KafkaProducer) (p : Nat) (d b f q h : List Sent) : Prop where
  order : past.filter (Sent.inPart part p) = d ++ (b ++ (f ++ (q ++ h)))
  topic : messagesIn part p topic = d.map Sent.bytes
  buffers : b.map (·.2.2) = o.buffers p
  failed : f.map (·.2.2) = (o.failed p).toList
  queues : q.map (·.2.2) = o.queues p
  held : h.map (·.2.2) = o.heldFor p

structure ProducerInv (part : List UInt8 → Nat) (outs : List Parsed) (topic : List (List UInt8 × List UInt8)) (log : List (Nat × Span)) (past fly rest : List Sent) (o : KafkaProducer) : Prop where
  http : Http.Reachable 256 outs log (o.front.pool.sent.map (·.1)) o.front.http
  pool : o.front.pool.Reachable
  ranges : ∀ x ∈ o.front.pool.sent, IsRange x.2.1 (x.1.tags.getD ∅)
  sent : o.front.pool.sent = past ++ (fly ++ rest)
  inflight : fly.map (·.2.2) = o.front.inflight
  before : rest.map (·.2.2) = o.front.dispatching.toList ++ o.front.offered.toList
  room : o.front.inflight.length ≤ channelBufferSize
  full : ∀ p, (o.queues p).length ≤ channelBufferSize
  placed : ∀ p, ∃ d b f q h, Placed part topic past o p d b f q h

theorem ProducerInv.init : ProducerInv part [] [] [] [] [] [] {} :=
  ⟨.init, .init, by simp, rfl, rfl, rfl, by decide, fun _ => Nat.zero_le _, fun p => ⟨[], [], [], [], [], rfl, rfl, rfl, rfl, rfl, rfl⟩⟩

theorem ProducerInv.keep {outs topic log past fly rest} {o : KafkaProducer} (inv : ProducerInv part outs topic log past fly rest o) {o' : KafkaProducer} (h1 : o'.held = o.held)
    (h2 : o'.queues = o.queues) (h3 : o'.failed = o.failed) (h4 : o'.buffers = o.buffers) (p : Nat) : ∃ d b f q h, Placed part topic past o' p d b f q h := by
  obtain ⟨d, b, f, q, h, pl⟩ := inv.placed p
  refine ⟨d, b, f, q, h, pl.order, pl.topic, by rw [h4]; exact pl.buffers, by rw [h3]; exact pl.failed, by rw [h2]; exact pl.queues, ?_⟩
  unfold KafkaProducer.heldFor; rw [h1]; exact pl.held

theorem ProducerInv.deref {outs topic log past fly rest} {o : KafkaProducer} (inv : ProducerInv part outs topic log past fly rest o) {x : Sent} (hx : x ∈ o.front.pool.sent) :
    o.front.pool.heap.deref x.2.2.key = littleEndian x.1.trace.toUInt64 ∧ o.front.pool.heap.deref x.2.2.value = binaryEncode x.1 x.2.1 :=
  C10_no_alias _ inv.pool x hx

theorem heldFor_none {o : KafkaProducer} (h : o.held = none) (p : Nat) : o.heldFor p = [] := by
  unfold KafkaProducer.heldFor; rw [h]; rfl

theorem heldFor_some {o : KafkaProducer} {p : Nat} {m : Message} (h : o.held = some (p, m)) (q : Nat) : o.heldFor q = if p = q then [m] else [] := by
  unfold KafkaProducer.heldFor; rw [h]
  by_cases hq : p = q <;> simp [hq]

theorem setAt_self {α : Type} (f : Nat → α) (p : Nat) (v : α) : setAt f p v p = v := if_pos rfl

theorem setAt_other {α : Type} (f : Nat → α) {p q : Nat} (v : α) (h : q ≠ p) : setAt f p v q = f q := if_neg h

theorem map_eq_cons' {α β : Type} {g : α → β} {l : List α} {y : β} {b : List β} (h : l.map g = y :: b) : ∃ x l2, l = x :: l2 ∧ g x = y ∧ l2.map g = b := by
  obtain ⟨x, l3, rfl, h3, h4⟩ := List.map_eq_cons_iff.mp h
  exact ⟨x, l3, rfl, h3, h4⟩

theorem ProducerInv.step {outs topic log past fly rest} {o o' : KafkaProducer} {e : Option (List UInt8 × List UInt8)} (inv : ProducerInv part outs topic log past fly rest o)
    (st : o.Step part o' e) : ∃ log' past' fly' rest', ProducerInv part outs (topic ++ e.toList) log' past' fly' rest' o' := by
  cases st with
  | @front g hs hlen =>
    simp only [Option.toList_none, List.append_nil]
    generalize hnone : (none : Option (List UInt8 × List UInt8)) = e at hs
    cases hs with
    | @http h e hs =>
      exact ⟨log ++ e.toList, past, fly, rest, .step inv.http hs, inv.pool, inv.ranges, inv.sent, inv.inflight, inv.before, inv.room, inv.full, inv.keep rfl rfl rfl rfl⟩
    | new =>
      exact ⟨log, past, fly, rest, inv.http, .step inv.pool (.new o.front.pool), inv.ranges, inv.sent, inv.inflight, inv.before, inv.room, inv.full, inv.keep rfl rfl rfl rfl⟩
    | @send x r j enc enc' ord h m ho hc hj hr he =>
      refine ⟨log, past, fly, rest ++ [(x, ord, m)], ?_, .step inv.pool (.encode hj he), ?_, ?_, inv.inflight, ?_, inv.room, inv.full, inv.keep rfl rfl rfl rfl⟩
      · have := Http.Reachable.take inv.http hc
        simpa using this
      · intro y hy
        rcases List.mem_append.mp hy with hy | hy
        · exact inv.ranges y hy
        · rw [List.mem_singleton] at hy; subst hy; exact hr
      · dsimp only; rw [inv.sent]; simp [List.append_assoc]
      · have := inv.before
        rw [ho] at this
        simp at this
        simp [this]
    | @input m ho hd =>
      refine ⟨log, past, fly, rest, inv.http, inv.pool, inv.ranges, inv.sent, inv.inflight, ?_, inv.room, inv.full, inv.keep rfl rfl rfl rfl⟩
      have := inv.before
      rw [ho, hd] at this
      simpa using this
    | @dispatch m hd hs =>
      have hb := inv.before
      rw [hd] at hb
      obtain ⟨y, l2, rfl, h2, h3⟩ := map_eq_cons' hb
      refine ⟨log, past, fly ++ [y], l2, inv.http, inv.pool, inv.ranges, ?_, ?_, ?_, hlen, inv.full, inv.keep rfl rfl rfl rfl⟩
      · rw [inv.sent]; simp [List.append_assoc]
      · rw [List.map_append, inv.inflight, List.map_cons, h2]; rfl
      · rw [h3]; rfl
    | produce => cases hnone
  | @partition m r hi hh =>
    simp only [Option.toList_none, List.append_nil]
    have hf := inv.inflight
    rw [hi] at hf
    obtain ⟨y, l2, rfl, h2, h3⟩ := map_eq_cons' hf
    have hroom := inv.room
    rw [hi, List.length_cons] at hroom
    have hmem : y ∈ o.front.pool.sent := by rw [inv.sent]; simp
    obtain ⟨k1, _⟩ := inv.deref hmem
    refine ⟨log, past ++ [y], l2, rest, inv.http, inv.pool, inv.ranges, ?_, h3, inv.before, by dsimp only; omega, inv.full, fun p => ?_⟩
    · rw [inv.sent]; simp [List.append_assoc]
    · obtain ⟨d, b, f, q, h, pl⟩ := inv.placed p
      have hnil : h = [] := by have := pl.held; rw [heldFor_none hh] at this; exact List.map_eq_nil_iff.mp this
      subst hnil
      rw [← h2, k1]
      by_cases hp : part (littleEndian y.1.trace.toUInt64) = p
      · refine ⟨d, b, f, q, [y], ?_, pl.topic, pl.buffers, pl.failed, pl.queues, ?_⟩
        · rw [List.filter_append, pl.order]
          simp [Sent.inPart, hp]
        · rw [heldFor_some rfl, if_pos hp]; rfl
      · refine ⟨d, b, f, q, [], ?_, pl.topic, pl.buffers, pl.failed, pl.queues, ?_⟩
        · rw [List.filter_append, pl.order]
          simp [Sent.inPart, hp]
        · rw [heldFor_some rfl, if_neg hp]; rfl
  | @enqueue p m hh hlen =>
    simp only [Option.toList_none, List.append_nil]
    refine ⟨log, past, fly, rest, inv.http, inv.pool, inv.ranges, inv.sent, inv.inflight, inv.before, inv.room, fun q => ?_, fun q => ?_⟩
    · dsimp only
      by_cases hq : q = p
      · subst hq; rw [setAt_self, List.length_append, List.length_singleton]; omega
      · rw [setAt_other _ _ hq]; exact inv.full q
    · obtain ⟨d, b, f, l, h, pl⟩ := inv.placed q
      by_cases hq : q = p
      · subst hq
        have hd := pl.held
        rw [heldFor_some hh, if_pos rfl] at hd
        obtain ⟨y, l2, rfl, h2, h3⟩ := map_eq_cons' hd
        rw [List.map_eq_nil_iff] at h3
        subst h3
        refine ⟨d, b, f, l ++ [y], [], ?_, pl.topic, pl.buffers, pl.failed, ?_, (heldFor_none rfl _).symm⟩
        · rw [pl.order]; simp
        · dsimp only
          rw [setAt_self, List.map_append, pl.queues, List.map_cons, h2]; rfl
      · have hd := pl.held
        rw [heldFor_some hh, if_neg (fun e => hq e.symm)] at hd
        refine ⟨d, b, f, l, h, pl.order, pl.topic, pl.buffers, pl.failed, ?_, ?_⟩
        · dsimp only; rw [setAt_other _ _ hq]; exact pl.queues
        · rw [hd, heldFor_none rfl]
  | @pass p m r hup hf hqs =>
    simp only [Option.toList_none, List.append_nil]
    refine ⟨log, past, fly, rest, inv.http, inv.pool, inv.ranges, inv.sent, inv.inflight, inv.before, inv.room, fun q => ?_, fun q => ?_⟩
    · dsimp only
      by_cases hq : q = p
      · subst hq; have := inv.full q; rw [hqs, List.length_cons] at this; rw [setAt_self]; omega
      · rw [setAt_other _ _ hq]; exact inv.full q
    · obtain ⟨d, b, f, l, h, pl⟩ := inv.placed q
      by_cases hq : q = p
      · subst hq
        have hff := pl.failed
        rw [hf] at hff
        have hl := pl.queues
        rw [hqs] at hl
        obtain ⟨y, l2, rfl, h2, h3⟩ := map_eq_cons' hl
        have hfn := List.map_eq_nil_iff.mp hff
        subst hfn
        refine ⟨d, b ++ [y], [], l2, h, ?_, pl.topic, ?_, pl.failed, ?_, pl.held⟩
        · rw [pl.order]; simp
        · dsimp only
          rw [setAt_self, List.map_append, pl.buffers, List.map_cons, h2]; rfl
        · dsimp only
          rw [setAt_self]; exact h3
      · refine ⟨d, b, f, l, h, pl.order, pl.topic, ?_, pl.failed, ?_, pl.held⟩
        · dsimp only; rw [setAt_other _ _ hq]; exact pl.buffers
        · dsimp only; rw [setAt_other _ _ hq]; exact pl.queues
  | @fail p m r hup hf hqs =>
    simp only [Option.toList_none, List.append_nil]
    refine ⟨log, past, fly, rest, inv.http, inv.pool, inv.ranges, inv.sent, inv.inflight, inv.before, inv.room, fun q => ?_, fun q => ?_⟩
    · dsimp only
      by_cases hq : q = p
      · subst hq; have := inv.full q; rw [hqs, List.length_cons] at this; rw [setAt_self]; omega
      · rw [setAt_other _ _ hq]; exact inv.full q
    · obtain ⟨d, b, f, l, h, pl⟩ := inv.placed q
      by_cases hq : q = p
      · subst hq
        have hff := pl.failed
        rw [hf] at hff
        have hl := pl.queues
        rw [hqs] at hl
        obtain ⟨y, l2, rfl, h2, h3⟩ := map_eq_cons' hl
        have hfn := List.map_eq_nil_iff.mp hff
        subst hfn
        refine ⟨d, b, [y], l2, h, ?_, pl.topic, pl.buffers, ?_, ?_, pl.held⟩
        · rw [pl.order]; simp
        · dsimp only
          rw [setAt_self, List.map_cons, h2]; rfl
        · dsimp only
          rw [setAt_self]; exact h3
      · refine ⟨d, b, f, l, h, pl.order, pl.topic, pl.buffers, ?_, ?_, pl.held⟩
        · dsimp only; rw [setAt_other _ _ hq]; exact pl.failed
        · dsimp only; rw [setAt_other _ _ hq]; exact pl.queues
  | @write p m r hup hb =>
    obtain ⟨d0, b0, f0, l0, h0, pl0⟩ := inv.placed p
    have hbb := pl0.buffers
    rw [hb] at hbb
    obtain ⟨y, b2, rfl, h2, h3⟩ := map_eq_cons' hbb
    have hy : y ∈ past.filter (Sent.inPart part p) := by rw [pl0.order]; simp
    obtain ⟨hyp, hyq⟩ := List.mem_filter.mp hy
    have hkey : part (littleEndian y.1.trace.toUInt64) = p := of_decide_eq_true hyq
    have hmem : y ∈ o.front.pool.sent := by rw [inv.sent]; exact List.mem_append_left _ hyp
    obtain ⟨k1, k2⟩ := inv.deref hmem
    rw [← h2, k1, k2]
    refine ⟨log, past, fly, rest, inv.http, inv.pool, inv.ranges, inv.sent, inv.inflight, inv.before, inv.room, inv.full, fun q => ?_⟩
    by_cases hq : q = p
    · subst hq
      refine ⟨d0 ++ [y], b2, f0, l0, h0, ?_, ?_, ?_, pl0.failed, pl0.queues, pl0.held⟩
      · rw [pl0.order]; simp
      · unfold messagesIn
        rw [List.filter_append]
        have := pl0.topic
        unfold messagesIn at this
        rw [this]
        simp [hkey, Sent.bytes]
      · dsimp only; rw [setAt_self]; exact h3
    · obtain ⟨d, b, f, l, h, pl⟩ := inv.placed q
      refine ⟨d, b, f, l, h, pl.order, ?_, ?_, pl.failed, pl.queues, pl.held⟩
      · unfold messagesIn
        rw [List.filter_append]
        have := pl.topic
        unfold messagesIn at this
        rw [this]
        have : ¬ part (littleEndian y.1.trace.toUInt64) = q := fun e => hq (by rw [← e, hkey])
        simp [this]
      · dsimp only; rw [setAt_other _ _ hq]; exact pl.buffers

theorem KafkaProducer.Later.inv {o o' : KafkaProducer} {outs outs' topic topic'} (hl : o.Later part outs' topic' o') {log past fly rest} (inv : ProducerInv part outs topic log past fly rest o) :
    ∃ log' past' fly' rest', ProducerInv part (outs ++ outs') (topic ++ topic') log' past' fly' rest' o' := by
  induction hl with
  | refl => exact ⟨log, past, fly, rest, by simpa using inv⟩
  | request r _ ih =>
    obtain ⟨log', past', fly', rest', i⟩ := ih
    rw [← List.append_assoc]
    exact ⟨log', past', fly', rest', .arrive r i.http, i.pool, i.ranges, i.sent, i.inflight, i.before, i.room, i.full, i.keep rfl rfl rfl rfl⟩
  | turn up _ ih =>
    obtain ⟨log', past', fly', rest', i⟩ := ih
    exact ⟨log', past', fly', rest', i.http, i.pool, i.ranges, i.sent, i.inflight, i.before, i.room, i.full, i.keep rfl rfl rfl rfl⟩
  | step _ hs ih =>
    obtain ⟨log', past', fly', rest', i⟩ := ih
    rw [← List.append_assoc]
    exact i.step hs

theorem KafkaProducer.Reachable.inv {o : KafkaProducer} {outs topic} (h : KafkaProducer.Reachable part outs topic o) :
    ∃ log past fly rest, ProducerInv part outs topic log past fly rest o := by
  simpa using KafkaProducer.Later.inv h ProducerInv.init

theorem KafkaProducer.Later.trans {a b g : KafkaProducer} {o o' : List Parsed} {t t' : List (List UInt8 × List UInt8)} (h : a.Later part o t b) (h' : b.Later part o' t' g) :
    a.Later part (o ++ o') (t ++ t') g := by
  induction h' with
  | refl => simpa using h
  | request r _ ih => rw [← List.append_assoc]; exact ih.request r
  | turn up _ ih => exact ih.turn up
  | step _ hs ih => rw [← List.append_assoc]; exact ih.step hs

end Verif
