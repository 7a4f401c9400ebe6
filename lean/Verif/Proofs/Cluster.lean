import Verif.Spec.Cluster
import Verif.Props.System
import Verif.Props.Balance

/-!
# Invariants of proxies that share a topic
-/

namespace Verif

open Spec

/-- A message, with the span and the order of tags it was made of. -/
abbrev Sent := Span × List (Str × Str) × Message

/-- A message is small enough, and its tags were iterated in a possible order. -/
structure SentOk (x : Sent) : Prop where
  small : messageSize (littleEndian x.1.trace.toUInt64) (binaryEncode x.1 x.2.1) ≤ maxMessageBytes
  range : IsRange x.2.1 (x.1.tags.getD ∅)

/-- The messages so far are those in the topic, those on their way, and those before. -/
structure FrontInv (outs : List Parsed) (log : List (Nat × Span)) (prod fly rest : List Sent) (f : Front) : Prop where
  http : Http.Reachable 256 outs log (f.pool.sent.map (·.1)) f.http
  pool : f.pool.Reachable
  ranges : ∀ x ∈ f.pool.sent, IsRange x.2.1 (x.1.tags.getD ∅)
  msgs : (prod ++ (fly ++ rest)).Perm f.pool.sent
  inflight : fly.map (·.2.2) = f.inflight
  before : rest.map (·.2.2) = f.dispatching.toList ++ f.offered.toList
  ok : ∀ x ∈ prod ++ fly, SentOk x

theorem FrontInv.init : FrontInv [] [] [] [] [] {} :=
  ⟨.init, .init, by simp, .refl _, rfl, rfl, by simp⟩

theorem FrontInv.request {outs log prod fly rest f} (inv : FrontInv outs log prod fly rest f) (o : Parsed) :
    FrontInv (outs ++ [o]) log prod fly rest { f with http := { f.http with conns := f.http.conns ++ [Conn.start o] } } :=
  ⟨.arrive o inv.http, inv.pool, inv.ranges, inv.msgs, inv.inflight, inv.before, inv.ok⟩

theorem FrontInv.deref {outs log prod fly rest f} (inv : FrontInv outs log prod fly rest f) {x : Sent} (hx : x ∈ prod ++ (fly ++ rest)) :
    f.pool.heap.deref x.2.2.key = littleEndian x.1.trace.toUInt64 ∧ f.pool.heap.deref x.2.2.value = binaryEncode x.1 x.2.1 :=
  C10_no_alias f.pool inv.pool x (inv.msgs.mem_iff.mp hx)

theorem map_eq_append_cons {α β : Type} {g : α → β} {l : List α} {a b : List β} {y : β} (h : l.map g = a ++ y :: b) :
    ∃ l1 x l2, l = l1 ++ x :: l2 ∧ l1.map g = a ∧ g x = y ∧ l2.map g = b := by
  obtain ⟨l1, l2, rfl, h1, h2⟩ := List.map_eq_append_iff.mp h
  obtain ⟨x, l3, rfl, h3, h4⟩ := List.map_eq_cons_iff.mp h2
  exact ⟨l1, x, l3, rfl, h1, h3, h4⟩

theorem FrontInv.step {part : List UInt8 → Nat} {outs log prod fly rest f f' e} (inv : FrontInv outs log prod fly rest f) (h : f.Step part f' e) :
    ∃ log' prod' fly' rest', FrontInv outs log' prod' fly' rest' f' ∧
      (e = none ∧ prod' = prod ∨ ∃ x, prod' = prod ++ [x] ∧ x ∈ f.pool.sent ∧ SentOk x ∧ e = some (littleEndian x.1.trace.toUInt64, binaryEncode x.1 x.2.1)) := by
  cases h with
  | @http h e hs =>
    exact ⟨log ++ e.toList, prod, fly, rest, ⟨.step inv.http hs, inv.pool, inv.ranges, inv.msgs, inv.inflight, inv.before, inv.ok⟩, .inl ⟨rfl, rfl⟩⟩
  | new =>
    exact ⟨log, prod, fly, rest, ⟨inv.http, .step inv.pool (.new f.pool), inv.ranges, inv.msgs, inv.inflight, inv.before, inv.ok⟩, .inl ⟨rfl, rfl⟩⟩
  | @send x r j enc enc' ord h m ho hc hj hr he =>
    refine ⟨log, prod, fly, rest ++ [(x, ord, m)], ⟨?_, .step inv.pool (.encode hj he), ?_, ?_, inv.inflight, ?_, inv.ok⟩, .inl ⟨rfl, rfl⟩⟩
    · have := Http.Reachable.take inv.http hc
      simpa using this
    · intro y hy
      rcases List.mem_append.mp hy with hy | hy
      · exact inv.ranges y hy
      · rw [List.mem_singleton] at hy; subst hy; exact hr
    · have := inv.msgs.append_right [(x, ord, m)]
      simpa [List.append_assoc] using this
    · have := inv.before
      rw [ho] at this
      simp at this
      simp [this]
  | @input m ho hd =>
    refine ⟨log, prod, fly, rest, ⟨inv.http, inv.pool, inv.ranges, inv.msgs, inv.inflight, ?_, inv.ok⟩, .inl ⟨rfl, rfl⟩⟩
    have := inv.before
    rw [ho, hd] at this
    simpa using this
  | @dispatch m hd hs =>
    have hb := inv.before
    rw [hd] at hb
    obtain ⟨l1, y, l2, rfl, h1, h2, h3⟩ := map_eq_append_cons (a := []) hb
    rw [List.map_eq_nil_iff] at h1
    subst h1
    have hmem : y ∈ prod ++ (fly ++ ([] ++ y :: l2)) := by simp
    obtain ⟨k1, k2⟩ := inv.deref hmem
    refine ⟨log, prod, fly ++ [y], l2, ⟨inv.http, inv.pool, inv.ranges, ?_, ?_, ?_, ?_⟩, .inl ⟨rfl, rfl⟩⟩
    · have := inv.msgs
      simpa [List.append_assoc] using this
    · rw [List.map_append, inv.inflight, List.map_cons, h2]; rfl
    · rw [h3]; rfl
    · intro x hx
      rw [← List.append_assoc] at hx
      rcases List.mem_append.mp hx with hx | hx
      · exact inv.ok x hx
      · rw [List.mem_singleton] at hx; subst hx
        refine ⟨?_, inv.ranges _ (inv.msgs.mem_iff.mp hmem)⟩
        rw [← k1, ← k2, h2]; exact hs
  | @produce m l l' hi hfirst =>
    have hfly := inv.inflight
    rw [hi] at hfly
    obtain ⟨l1, y, l2, rfl, h1, h2, h3⟩ := map_eq_append_cons hfly
    have hmem : y ∈ prod ++ ((l1 ++ y :: l2) ++ rest) := by simp
    obtain ⟨k1, k2⟩ := inv.deref hmem
    refine ⟨log, prod ++ [y], l1 ++ l2, rest, ⟨inv.http, inv.pool, inv.ranges, ?_, ?_, inv.before, ?_⟩, .inr ⟨y, rfl, inv.msgs.mem_iff.mp hmem, inv.ok y (by simp), ?_⟩⟩
    · refine List.Perm.trans ?_ inv.msgs
      rw [List.append_assoc]
      refine List.Perm.append_left _ ?_
      rw [← List.append_assoc, ← List.append_assoc]
      refine List.Perm.append_right _ ?_
      rw [List.singleton_append]
      exact (List.perm_middle).symm
    · rw [List.map_append, h1, h3]
    · intro x hx
      apply inv.ok
      simp only [List.mem_append, List.mem_cons, List.not_mem_nil, or_false] at hx ⊢
      rcases hx with (h | h) | h | h
      · exact .inl h
      · exact .inr (.inr (.inl h))
      · exact .inr (.inl h)
      · exact .inr (.inr (.inr h))
    · rw [← h2, k1, k2]

/-- What was taken from the channel comes from accepted requests. -/
theorem http_accepted {cap : Nat} {outs : List Parsed} {log : List (Nat × Span)} {taken : List Span} {h : Http} (hr : Http.Reachable cap outs log taken h) {p : Span} (hp : p ∈ taken) :
    Accepted outs p := by
  obtain ⟨hl, hall, hlt, hlog⟩ := C33_all_or_nothing hr
  have : p ∈ log.map (·.2) := by rw [hlog]; exact List.mem_append_left _ hp
  obtain ⟨e, he, rfl⟩ := List.mem_map.mp this
  have hi := hlt e he
  have hi' : e.1 < h.conns.length := by rw [hl]; exact hi
  have hp' : e.2 ∈ pushedBy e.1 log := List.mem_map.mpr ⟨e, List.mem_filter.mpr ⟨he, by simp⟩, rfl⟩
  have hao := hall e.1 _ _ (List.getElem?_eq_getElem hi) (List.getElem?_eq_getElem hi')
  have hmem : outs[e.1] ∈ outs := List.getElem_mem hi
  generalize pushedBy e.1 log = pushed at hp' hao
  generalize outs[e.1] = o at hao hmem
  generalize h.conns[e.1] = c at hao
  cases hao with
  | pushing => exact ⟨_, hmem, List.mem_append_left _ hp'⟩
  | accepted => exact ⟨_, hmem, hp'⟩
  | failing => cases hp'
  | rejected => cases hp'
  | panicked => cases hp'
  | waiting => cases hp'

theorem writeString_length (s : Str) : s.length + 1 ≤ (writeString s).length := by
  unfold writeString
  have := (C03_long_size (Int64.ofNat s.length)).1
  rw [List.length_append]; omega

theorem entries_length (ord : List (Str × Str)) : ord.length ≤ (ord.flatMap (fun e => writeString e.1 ++ writeString e.2)).length ∧
    ∀ e ∈ ord, e.1.length ≤ (ord.flatMap (fun e => writeString e.1 ++ writeString e.2)).length ∧ e.2.length ≤ (ord.flatMap (fun e => writeString e.1 ++ writeString e.2)).length := by
  induction ord with
  | nil => simp
  | cons x l ih =>
    have h1 := writeString_length x.1
    have h2 := writeString_length x.2
    simp only [List.flatMap_cons, List.length_append, List.length_cons]
    refine ⟨by have := ih.1; omega, ?_⟩
    intro e he
    rcases List.mem_cons.mp he with rfl | he
    · exact ⟨by omega, by omega⟩
    · have := ih.2 e he
      exact ⟨by omega, by omega⟩

/-- What is small enough for Kafka can be decoded. -/
theorem encodable_of_length {s : Span} {ord : List (Str × Str)} (ho : IsRange ord (s.tags.getD ∅)) (hl : (binaryEncode s ord).length < 2 ^ 31) : Encodable s := by
  unfold binaryEncode writeMapString at hl
  simp only [List.length_append] at hl
  have h1 := writeString_length s.name
  have h2 := writeString_length s.service
  by_cases h0 : ord.length = 0
  · have hm : s.tags.getD ∅ = ∅ := by
      have : (s.tags.getD ∅).toList = [] := by
        have := ho.length_eq
        exact List.eq_nil_of_length_eq_zero (by omega)
      exact Std.ExtTreeMap.toList_eq_nil_iff.mp this
    refine ⟨by omega, by omega, ?_, ?_⟩
    · rw [hm]; simp
    · intro k v hk; rw [hm] at hk; simp at hk
  · rw [if_neg h0, List.length_append] at hl
    obtain ⟨h3, h4⟩ := entries_length ord
    refine ⟨by omega, by omega, ?_, ?_⟩
    · rw [← Std.ExtTreeMap.length_toList, ← ho.length_eq]; omega
    · intro k v hk
      have := h4 (k, v) (ho.mem_iff.mpr (Std.ExtTreeMap.mem_toList_iff_getElem?_eq_some.mpr hk))
      dsimp only at this
      exact ⟨by omega, by omega⟩

theorem SentOk.decode {x : Sent} (h : SentOk x) : decodeKafkaMessage (binaryEncode x.1 x.2.1) = some x.1.withTags := by
  have hl : (binaryEncode x.1 x.2.1).length < 2 ^ 31 := by
    have := h.small
    unfold messageSize maxMessageBytes at this
    omega
  have := C04_span_roundtrip x.1 x.2.1 [] (encodable_of_length h.range hl) h.range
  rw [List.append_nil] at this
  unfold decodeKafkaMessage
  rw [this]; rfl

/-! ## Any history -/

/-- Where the values of a partition come from. -/
def TopicOk (part : List UInt8 → Nat) (outcomes : List Parsed) (foreign : List (List UInt8)) (topic : Nat → List (List UInt8)) : Prop :=
  ∀ p v, v ∈ topic p → v ∈ foreign ∨ ∃ x : Sent, Accepted outcomes x.1 ∧ SentOk x ∧ v = binaryEncode x.1 x.2.1 ∧ p = partitionOf part x.1.trace

/-- A span that was given to the callback is in the topic. -/
def InTopic (topic : Nat → List (List UInt8)) (x : Span) : Prop := ∃ p v, v ∈ topic p ∧ decodeKafkaMessage v = some x

variable {κ : Type} {conv : κ → Span → Option Span × κ} {k : κ} {part : List UInt8 → Nat}

structure InstanceInv (conv : κ → Span → Option Span × κ) (k : κ) (outcomes : List Parsed) (topic : Nat → List (List UInt8)) (n : Instance κ) : Prop where
  front : ∃ outs log prod fly rest, (∀ o ∈ outs, o ∈ outcomes) ∧ FrontInv outs log prod fly rest n.front
  back : ∃ bouts, System.Reachable conv k bouts n.back ∧ ∀ o ∈ bouts, ∃ x, o = .spans [x] ∧ InTopic topic x

structure ClusterInv (conv : κ → Span → Option Span × κ) (k : κ) (part : List UInt8 → Nat) (outcomes : List Parsed) (foreign : List (List UInt8)) (c : Cluster κ) : Prop where
  topic : TopicOk part outcomes foreign c.topic
  instances : ∀ n ∈ c.instances, InstanceInv conv k outcomes c.topic n

theorem InstanceInv.mono {outcomes outcomes' : List Parsed} {topic topic' : Nat → List (List UInt8)} {n : Instance κ} (h : InstanceInv conv k outcomes topic n)
    (ho : ∀ o ∈ outcomes, o ∈ outcomes') (ht : ∀ p v, v ∈ topic p → v ∈ topic' p) : InstanceInv conv k outcomes' topic' n := by
  obtain ⟨⟨outs, log, prod, fly, rest, h1, h2⟩, ⟨bouts, h3, h4⟩⟩ := h
  refine ⟨⟨outs, log, prod, fly, rest, fun o h => ho o (h1 o h), h2⟩, ⟨bouts, h3, fun o h => ?_⟩⟩
  obtain ⟨x, hx, p, v, hv, hd⟩ := h4 o h
  exact ⟨x, hx, p, v, ht p v hv, hd⟩

theorem Accepted.mono {outcomes outcomes' : List Parsed} {p : Span} (h : Accepted outcomes p) (ho : ∀ o ∈ outcomes, o ∈ outcomes') : Accepted outcomes' p := by
  obtain ⟨l, hl, hp⟩ := h
  exact ⟨l, ho _ hl, hp⟩

theorem InstanceInv.fresh (outcomes : List Parsed) (topic : Nat → List (List UInt8)) (now : Time) (claims : List Claim) :
    InstanceInv conv k outcomes topic { claims := claims, back := System.init k now } :=
  ⟨⟨[], [], [], [], [], by simp, .init⟩, ⟨[], .init now, by simp⟩⟩

theorem mem_appendTopic {topic : Nat → List (List UInt8)} {p q : Nat} {v w : List UInt8} (h : w ∈ topic q) : w ∈ appendTopic topic p v q := by
  unfold appendTopic
  split
  · exact List.mem_append_left _ h
  · exact h

theorem mem_deliverTopic {topic : Nat → List (List UInt8)} {q : Nat} {e : Option (List UInt8 × List UInt8)} {w : List UInt8} (h : w ∈ topic q) : w ∈ deliverTopic part topic e q := by
  cases e with
  | none => exact h
  | some e => exact mem_appendTopic h

theorem of_mem_appendTopic {topic : Nat → List (List UInt8)} {p q : Nat} {v w : List UInt8} (h : w ∈ appendTopic topic p v q) : w ∈ topic q ∨ q = p ∧ w = v := by
  unfold appendTopic at h
  split at h
  · rcases List.mem_append.mp h with h | h
    · exact .inl h
    · exact .inr ⟨by assumption, List.mem_singleton.mp h⟩
  · exact .inl h

theorem ClusterInv.request {outcomes foreign} {c : Cluster κ} (inv : ClusterInv conv k part outcomes foreign c) {i : Nat} {n : Instance κ} (o : Parsed) (hi : c.instances[i]? = some n) :
    ClusterInv conv k part (outcomes ++ [o]) foreign
      { c with instances := c.instances.set i { n with front := { n.front with http := { n.front.http with conns := n.front.http.conns ++ [Conn.start o] } } } } := by
  have sub : ∀ o' ∈ outcomes, o' ∈ outcomes ++ [o] := fun o' h => List.mem_append_left _ h
  refine ⟨?_, ?_⟩
  · intro p v hv
    rcases inv.topic p v hv with h | ⟨x, h1, h2⟩
    · exact .inl h
    · exact .inr ⟨x, h1.mono sub, h2⟩
  · intro n' hn'
    rcases List.mem_or_eq_of_mem_set hn' with h | rfl
    · exact (inv.instances n' h).mono sub (fun _ _ h => h)
    · obtain ⟨⟨outs, log, prod, fly, rest, h1, h2⟩, hb⟩ := (inv.instances n (List.mem_of_getElem? hi)).mono sub (fun _ _ h => h)
      refine ⟨⟨outs ++ [o], log, prod, fly, rest, ?_, h2.request o⟩, hb⟩
      intro o' ho'
      rcases List.mem_append.mp ho' with h | h
      · exact h1 o' h
      · exact List.mem_append_right _ h

theorem ClusterInv.step {outcomes foreign} {c c' : Cluster κ} (inv : ClusterInv conv k part outcomes foreign c) (h : c.Step conv part c') : ClusterInv conv k part outcomes foreign c' := by
  cases h with
  | @front i n f e hi hs =>
    obtain ⟨⟨outs, log, prod, fly, rest, h1, h2⟩, hb⟩ := inv.instances n (List.mem_of_getElem? hi)
    obtain ⟨log', prod', fly', rest', h3, h4⟩ := h2.step hs
    refine ⟨?_, ?_⟩
    · rcases h4 with ⟨rfl, _⟩ | ⟨x, _, hx, hok, rfl⟩
      · exact inv.topic
      · intro p v hv
        rcases of_mem_appendTopic hv with hv | ⟨rfl, rfl⟩
        · exact inv.topic p v hv
        · refine .inr ⟨x, (http_accepted h2.http ?_).mono h1, hok, rfl, rfl⟩
          exact List.mem_map.mpr ⟨x, hx, rfl⟩
    · intro n' hn'
      rcases List.mem_or_eq_of_mem_set hn' with h | rfl
      · exact (inv.instances n' h).mono (fun _ h => h) (fun _ _ h => mem_deliverTopic h)
      · refine InstanceInv.mono (topic := c.topic) ⟨⟨outs, log', prod', fly', rest', h1, h3⟩, hb⟩ (fun _ h => h) (fun _ _ h => mem_deliverTopic h)
  | @back i n n' x hi hs =>
    refine ⟨inv.topic, ?_⟩
    intro m hm
    rcases List.mem_or_eq_of_mem_set hm with h | rfl
    · exact inv.instances m h
    · obtain ⟨hf, bouts, h1, h2⟩ := inv.instances n (List.mem_of_getElem? hi)
      cases hs with
      | skip => exact ⟨hf, bouts, h1, h2⟩
      | mark => exact ⟨hf, bouts, h1, h2⟩
      | back hs => exact ⟨hf, bouts, .step h1 hs, h2⟩
      | event hs => exact ⟨hf, bouts, .event h1 hs, h2⟩
      | @call j cl v x hj hb hv hd =>
        refine ⟨hf, bouts ++ [.spans [x]], .request _ h1, ?_⟩
        intro o ho
        rcases List.mem_append.mp ho with h | h
        · exact h2 o h
        · exact ⟨x, List.mem_singleton.mp h, _, v, List.mem_of_getElem? hv, hd⟩

theorem Cluster.Reachable.inv {outcomes foreign} {c : Cluster κ} (h : Cluster.Reachable conv k part outcomes foreign c) : ClusterInv conv k part outcomes foreign c := by
  induction h with
  | init => exact ⟨fun p v h => (List.not_mem_nil h).elim, fun n h => (List.not_mem_nil h).elim⟩
  | request o _ hi ih => exact ih.request o hi
  | foreign p v _ ih =>
    refine ⟨?_, fun n hn => (ih.instances n hn).mono (fun _ h => h) (fun _ _ h => mem_appendTopic h)⟩
    intro q w hw
    rcases of_mem_appendTopic hw with hw | ⟨rfl, rfl⟩
    · rcases ih.topic q w hw with h | h
      · exact .inl (List.mem_append_left _ h)
      · exact .inr h
    · exact .inl (List.mem_append_right _ List.mem_cons_self)
  | step _ hs ih => exact ih.step hs
  | @upheaval outcomes foreign c c' _ hs ih =>
    cases hs with
    | start now =>
      refine ⟨ih.topic, fun n hn => ?_⟩
      rcases List.mem_append.mp hn with h | h
      · exact ih.instances n h
      · rw [List.mem_singleton.mp h]; exact .fresh _ _ now []
    | crash i now =>
      refine ⟨ih.topic, fun n hn => ?_⟩
      rcases List.mem_or_eq_of_mem_set hn with h | rfl
      · exact ih.instances n h
      · exact .fresh _ _ now []
    | @lose i n l l' m hi hl =>
      refine ⟨ih.topic, fun n' hn => ?_⟩
      rcases List.mem_or_eq_of_mem_set hn with h | rfl
      · exact ih.instances n' h
      · obtain ⟨⟨outs, log, prod, fly, rest, h1, inv⟩, hb⟩ := ih.instances n (List.mem_of_getElem? hi)
        have hfly := inv.inflight
        rw [hl] at hfly
        obtain ⟨l1, y, l2, rfl, h3, h4, h5⟩ := map_eq_append_cons hfly
        -- what is lost counts as if it were produced
        refine ⟨⟨outs, log, prod ++ [y], l1 ++ l2, rest, h1, ⟨inv.http, inv.pool, inv.ranges, ?_, ?_, inv.before, ?_⟩⟩, hb⟩
        · refine List.Perm.trans ?_ inv.msgs
          rw [List.append_assoc]
          refine List.Perm.append_left _ ?_
          rw [← List.append_assoc, ← List.append_assoc]
          refine List.Perm.append_right _ ?_
          rw [List.singleton_append]
          exact (List.perm_middle).symm
        · rw [List.map_append, h3, h5]
        · intro x hx
          apply inv.ok
          simp only [List.mem_append, List.mem_cons, List.not_mem_nil, or_false] at hx ⊢
          rcases hx with (h | h) | h | h
          · exact .inl h
          · exact .inr (.inr (.inl h))
          · exact .inr (.inl h)
          · exact .inr (.inr (.inr h))
    | assign p o hi _ =>
      refine ⟨ih.topic, fun n' hn => ?_⟩
      rcases List.mem_or_eq_of_mem_set hn with h | rfl
      · exact ih.instances n' h
      · exact ⟨(ih.instances _ (List.mem_of_getElem? hi)).front, (ih.instances _ (List.mem_of_getElem? hi)).back⟩
    | revoke hi _ _ =>
      refine ⟨ih.topic, fun n' hn => ?_⟩
      rcases List.mem_or_eq_of_mem_set hn with h | rfl
      · exact ih.instances n' h
      · exact ⟨(ih.instances _ (List.mem_of_getElem? hi)).front, (ih.instances _ (List.mem_of_getElem? hi)).back⟩

/-- What a proxy consumed. -/
theorem fromTopic {outcomes foreign} {topic : Nat → List (List UInt8)} (ht : TopicOk part outcomes foreign topic) {x : Span} (h : InTopic topic x) : FromTopic outcomes foreign x := by
  obtain ⟨p, v, hv, hd⟩ := h
  rcases ht p v hv with h | ⟨y, h1, h2, rfl, _⟩
  · refine .inr ⟨v, h, ?_⟩
    unfold decodeKafkaMessage at hd
    obtain ⟨⟨s, rest⟩, h1, h2⟩ := Option.map_eq_some_iff.mp hd
    dsimp only at h2; subst h2
    exact ⟨rest, h1⟩
  · rw [h2.decode, Option.some.injEq] at hd
    exact .inl ⟨y.1, h1, hd.symm⟩

theorem stemsFromTopic {outcomes foreign bouts} {topic : Nat → List (List UInt8)} (ht : TopicOk part outcomes foreign topic)
    (hb : ∀ o ∈ bouts, ∃ x, o = Parsed.spans [x] ∧ InTopic topic x) {s : Span} (h : Stems conv bouts s) : StemsFromTopic conv outcomes foreign s := by
  obtain ⟨h1, h2, k, m, h3, h4⟩ := h
  refine ⟨h1, h2, k, m, h3, ?_⟩
  rcases h4 with h | ⟨p, ⟨l, hl, hp⟩, h5⟩
  · exact .inl h
  · obtain ⟨x, hx, hin⟩ := hb _ hl
    injection hx with hx
    subst hx
    rw [List.mem_singleton.mp hp] at h5
    exact .inr ⟨x, fromTopic ht hin, h5⟩

end Verif
