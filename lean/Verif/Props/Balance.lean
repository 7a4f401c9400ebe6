import Verif.Spec.Balance
import Verif.Proofs.Balance
import Verif.Proofs.Maps

/-!
# The Kafka hop: C09–C12, C63
-/

namespace Verif

/-! ## C09 -/

/-- The key is the little-endian representation of the trace id in eight bytes. -/
theorem leValue_littleEndian (v : UInt64) : leValue (littleEndian v) = v.toNat := by
  have h := v.toNat_lt
  simp only [littleEndian, leValue, UInt64.toNat_toUInt8, UInt64.toNat_shiftRight, Nat.shiftRight_eq_div_pow]
  simp only [show (8 : UInt64).toNat % 64 = 8 from rfl, show (16 : UInt64).toNat % 64 = 16 from rfl,
    show (24 : UInt64).toNat % 64 = 24 from rfl, show (32 : UInt64).toNat % 64 = 32 from rfl,
    show (40 : UInt64).toNat % 64 = 40 from rfl, show (48 : UInt64).toNat % 64 = 48 from rfl,
    show (56 : UInt64).toNat % 64 = 56 from rfl]
  omega

/-- C09: in every history of the producer side, the key of a message is eight bytes, the trace id in
little-endian order; and two messages have the same key exactly if their spans have the same trace id. -/
theorem C09_key (p : Pool) (hp : p.Reachable) (x : Span × List (Str × Str) × Message) (hx : x ∈ p.sent) :
    (p.heap.deref x.2.2.key).length = 8 ∧ leValue (p.heap.deref x.2.2.key) = x.1.trace.toUInt64.toNat := by
  rw [(hp.inv.sent x hx).key]
  exact ⟨rfl, leValue_littleEndian _⟩

theorem C09_key_injective (p : Pool) (hp : p.Reachable) (x y : Span × List (Str × Str) × Message) (hx : x ∈ p.sent)
    (hy : y ∈ p.sent) : p.heap.deref x.2.2.key = p.heap.deref y.2.2.key ↔ x.1.trace = y.1.trace := by
  constructor
  · intro h
    have h1 := (C09_key p hp x hx).2
    have h2 := (C09_key p hp y hy).2
    rw [h, h2] at h1
    have h3 := congrArg UInt64.toInt64 (UInt64.toNat_inj.mp h1)
    rw [Int64.toInt64_toUInt64, Int64.toInt64_toUInt64] at h3
    exact h3.symm
  · intro h
    rw [(hp.inv.sent x hx).key, (hp.inv.sent y hy).key, h]

example : littleEndian 0x0102030405060708 = [8, 7, 6, 5, 4, 3, 2, 1] := by decide +kernel

/-! ## C10 -/

/-- C10: in every history of the pool of encoders, each message made so far still has the key of its span and
the encoding of its span as its value, whatever was encoded after it, with the same or another encoder. -/
theorem C10_no_alias (p : Pool) (hp : p.Reachable) (x : Span × List (Str × Str) × Message) (hx : x ∈ p.sent) :
    p.heap.deref x.2.2.key = littleEndian x.1.trace.toUInt64 ∧ p.heap.deref x.2.2.value = binaryEncode x.1 x.2.1 :=
  ⟨(hp.inv.sent x hx).key, (hp.inv.sent x hx).value⟩

/-- C10: encoding never panics, with any encoder of the pool. -/
theorem C10_no_panic (p : Pool) (hp : p.Reachable) (enc : Encoder) (he : enc ∈ p.encoders) (span : Span)
    (ord : List (Str × Str)) : (encode p.heap enc span ord).isSome := by
  obtain ⟨_, _, _, h, _⟩ := encode_spec span ord (hp.inv.freeB enc he) (hp.inv.freeH enc he)
  rw [h]; rfl

/-- The messages of a list of spans, all encoded with one encoder. -/
theorem pool_encodes (l : List (Span × List (Str × Str))) :
    ∃ p : Pool, p.Reachable ∧ p.encoders.length = 1 ∧ p.sent.map (fun x => (x.1, x.2.1)) = l := by
  refine list_snoc_induction (P := fun l => ∃ p : Pool, p.Reachable ∧ p.encoders.length = 1 ∧ p.sent.map (fun x => (x.1, x.2.1)) = l) ?_ ?_ l
  · exact ⟨{ encoders := [{}] }, .step .init (.new {}), rfl, rfl⟩
  · intro l x ih
    obtain ⟨p, hp, hl, hs⟩ := ih
    obtain ⟨enc, henc⟩ := List.length_eq_one_iff.mp hl
    have h := C10_no_panic p hp enc (by rw [henc]; simp) x.1 x.2
    obtain ⟨⟨h', enc', m⟩, he⟩ := Option.isSome_iff_exists.mp h
    refine ⟨_, .step hp (.encode (j := 0) (by rw [henc]; rfl) he), ?_, ?_⟩
    · simp [hl]
    · simp [hs]

/-- Witness: every list of spans with any tag orders is the list of messages of some history. -/
theorem C10_history_exists (l : List (Span × List (Str × Str))) :
    ∃ p : Pool, p.Reachable ∧ p.sent.map (fun x => (x.1, x.2.1)) = l :=
  let ⟨p, h1, _, h2⟩ := pool_encodes l
  ⟨p, h1, h2⟩

/-! ## C11 -/

theorem delivered_consumeClaim (log : List (List UInt8)) (o : Nat) :
    delivered (consumeClaim o log) = log.filterMap decodeKafkaMessage := by
  induction log generalizing o with
  | nil => rfl
  | cons v vs ih =>
    unfold consumeClaim
    cases hv : decodeKafkaMessage v with
    | none => rw [List.filterMap_cons_none hv]; exact ih _
    | some s =>
      rw [List.filterMap_cons_some hv]
      show s :: delivered (consumeClaim (o + 1) vs) = _
      rw [ih]

/-- What may be in the topic: messages of the proxy for spans that the codec can carry, and messages of
others, which do not decode. -/
def Entry.Ok (p : Pool) : Entry → Prop
  | .sent s ord m => (s, ord, m) ∈ p.sent ∧ Encodable s ∧ IsRange ord (s.tags.getD ∅)
  | .foreign _ v => binaryDecode v = none

/-- C11: in every history of the producer side, for every partitioner, whatever the offset at which a
partition starts: the consumer of a partition hands exactly the spans that were sent to this partition to the
callback, in the order in which they were sent, unchanged up to nil versus empty tags. Messages that do not decode
have no influence. -/
theorem C11_delivery (p : Pool) (hp : p.Reachable) (entries : List Entry) (hok : ∀ e ∈ entries, e.Ok p)
    (part : List UInt8 → Nat) (n o : Nat) :
    delivered (consumeClaim o (partitionLog p.heap part n entries)) =
      sentSpans (entries.filter fun e => part (e.key p.heap) = n) := by
  rw [delivered_consumeClaim]
  unfold partitionLog sentSpans
  rw [List.filterMap_map]
  have key : ∀ l : List Entry, (∀ e ∈ l, e.Ok p) →
      l.filterMap (decodeKafkaMessage ∘ Entry.value p.heap) = l.filterMap fun | .sent s _ _ => some s.withTags | .foreign _ _ => none := by
    intro l hl
    have each : ∀ e ∈ l, (decodeKafkaMessage ∘ Entry.value p.heap) e =
        (fun | .sent s _ _ => some s.withTags | .foreign _ _ => none : Entry → Option Span) e := by
     intro e he
     have h := hl e he
     cases e with
     | sent s ord m =>
       obtain ⟨h1, h2, h3⟩ := h
       show decodeKafkaMessage (p.heap.deref m.value) = some s.withTags
       rw [show p.heap.deref m.value = binaryEncode s ord from (hp.inv.sent _ h1).value]
       unfold decodeKafkaMessage
       have := C04_span_roundtrip s ord [] h2 h3
       rw [List.append_nil] at this
       rw [this]; rfl
     | foreign k v =>
       show decodeKafkaMessage v = none
       unfold decodeKafkaMessage
       rw [show binaryDecode v = none from h]; rfl
    induction l with
    | nil => rfl
    | cons e es ih =>
      rw [List.filterMap_cons, List.filterMap_cons, each e (by simp),
        ih (fun e he => hl e (List.mem_cons_of_mem _ he)) (fun e he => each e (List.mem_cons_of_mem _ he))]
  exact key _ (fun e he => hok e (List.mem_filter.mp he).1)

/-- C11: the spans of a trace go through one partition: its consumer gets all of them, in order, and the
consumers of the other partitions get none of them. -/
theorem C11_trace_together (p : Pool) (hp : p.Reachable) (entries : List Entry) (hok : ∀ e ∈ entries, e.Ok p)
    (part : List UInt8 → Nat) (t : Id) (n o : Nat) :
    (delivered (consumeClaim o (partitionLog p.heap part n entries))).filter (fun s => s.trace = t) =
      if n = part (littleEndian t.toUInt64) then (sentSpans entries).filter (fun s => s.trace = t) else [] := by
  rw [C11_delivery p hp entries hok]
  induction entries with
  | nil => simp [sentSpans]
  | cons e es ih =>
    have ih := ih (fun e he => hok e (List.mem_cons_of_mem _ he))
    have he := hok e (by simp)
    have hcons : ∀ l, sentSpans (e :: l) = sentSpans [e] ++ sentSpans l := by
      intro l; unfold sentSpans; rw [← List.filterMap_append]; rfl
    rw [List.filter_cons]
    cases e with
    | foreign k v =>
      have hnil : sentSpans [Entry.foreign k v] = [] := rfl
      split
      · rw [hcons, hcons es, hnil, List.nil_append, List.nil_append]; exact ih
      · rw [hcons es, hnil, List.nil_append]; exact ih
    | sent s ord m =>
      have hone : sentSpans [Entry.sent s ord m] = [s.withTags] := rfl
      have hkey : (Entry.sent s ord m).key p.heap = littleEndian s.trace.toUInt64 := (hp.inv.sent _ he.1).key
      rw [hkey]
      have hst : s.withTags.trace = s.trace := rfl
      by_cases ht : s.trace = t
      · by_cases hn : n = part (littleEndian t.toUInt64)
        · rw [if_pos hn] at ih ⊢
          rw [if_pos (by rw [ht, hn]; simp), hcons, hcons es, hone, List.filter_append, List.filter_append, ih]
        · rw [if_neg hn] at ih ⊢
          rw [if_neg (by rw [ht]; simp; exact fun h => hn h.symm), ih]
      · have hf : [s.withTags].filter (fun s => s.trace = t) = [] := by simp [hst, ht]
        split
        · rw [hcons, hcons es, hone, List.filter_append, List.filter_append, hf, List.nil_append, List.nil_append]; exact ih
        · rw [hcons es, hone, List.filter_append, hf, List.nil_append]; exact ih

/-- Witness: a topic with two spans of a trace and garbage between them. -/
example : ∃ p : Pool, p.Reachable ∧ ∃ entries : List Entry, (∀ e ∈ entries, e.Ok p) ∧
    (sentSpans entries).map (·.name) = [b!"get", b!"put"] ∧ entries.length = 3 := by
  obtain ⟨p, hp, hs⟩ := C10_history_exists [({ name := b!"get", trace := 7 }, []), ({ name := b!"put", trace := 7 }, [])]
  rw [List.map_eq_cons_iff] at hs
  obtain ⟨x, l, hl, hx, hs⟩ := hs
  rw [List.map_eq_cons_iff] at hs
  obtain ⟨y, l', hl', hy, _⟩ := hs
  obtain ⟨xs, xo, xm⟩ := x
  obtain ⟨ys, yo, ym⟩ := y
  simp only [Prod.mk.injEq] at hx hy
  obtain ⟨rfl, rfl⟩ := hx
  obtain ⟨rfl, rfl⟩ := hy
  have hemp : ((none : Option TagMap).getD ∅) = (∅ : TagMap) := rfl
  have henc : ∀ s : Span, s.name.length < 2 ^ 31 → s.service.length < 2 ^ 31 → s.tags = none → Encodable s := by
    intro s h1 h2 h3
    refine ⟨h1, h2, by rw [h3]; decide, ?_⟩
    intro k v h
    rw [h3] at h
    simp at h
  refine ⟨p, hp, [.sent { name := b!"get", trace := 7 } [] xm, .foreign b!"x" b!"\xff", .sent { name := b!"put", trace := 7 } [] ym], ?_, rfl, rfl⟩
  intro e he
  simp only [List.mem_cons, List.not_mem_nil, or_false] at he
  rcases he with rfl | rfl | rfl
  · exact ⟨by rw [hl]; simp, henc _ (by decide) (by decide) rfl, List.Perm.refl _⟩
  · show binaryDecode _ = none
    decide +kernel
  · exact ⟨by rw [hl, hl']; simp, henc _ (by decide) (by decide) rfl, List.Perm.refl _⟩

/-! ## C12 -/

theorem consumeClaim_prefix (log : List (List UInt8)) (o : Nat) (pre : List ConsumerEvent) (h : pre <+: consumeClaim o log) :
    (∀ k s, ConsumerEvent.delivered k s ∈ pre → o ≤ k ∧ ∃ v, log[k - o]? = some v ∧ decodeKafkaMessage v = some s) ∧
    (∀ a k b, pre = a ++ ConsumerEvent.marked k :: b → o ≤ k ∧ (∃ v s, log[k - o]? = some v ∧ decodeKafkaMessage v = some s ∧
      ∃ a', a = a' ++ [ConsumerEvent.delivered k s]) ∧
      ∀ i v s, o ≤ i → i ≤ k → log[i - o]? = some v → decodeKafkaMessage v = some s → ConsumerEvent.delivered i s ∈ a) := by
  induction log generalizing o pre with
  | nil =>
    have : pre = [] := List.prefix_nil.mp h
    subst this
    exact ⟨fun _ _ h => (List.not_mem_nil h).elim, fun a k b h => by simp at h⟩
  | cons v vs ih =>
    unfold consumeClaim at h
    have shift : ∀ k, o + 1 ≤ k → (v :: vs)[k - o]? = vs[k - (o + 1)]? := by
      intro k hk
      rw [show k - o = (k - (o + 1)) + 1 by omega, List.getElem?_cons_succ]
    cases hv : decodeKafkaMessage v with
    | none =>
      rw [hv] at h
      obtain ⟨i1, i2⟩ := ih (o + 1) pre h
      refine ⟨?_, ?_⟩
      · intro k s hk
        obtain ⟨h1, h2⟩ := i1 k s hk
        rw [shift k h1]
        exact ⟨by omega, h2⟩
      · intro a k b hk
        obtain ⟨h1, h2, h3⟩ := i2 a k b hk
        rw [shift k h1]
        refine ⟨by omega, h2, ?_⟩
        intro i w s hi hik hw hd
        by_cases hio : i = o
        · subst hio
          rw [Nat.sub_self] at hw
          rw [← Option.some.inj hw, hv] at hd
          cases hd
        · rw [shift i (by omega)] at hw
          exact h3 i w s (by omega) hik hw hd
    | some s0 =>
      rw [hv] at h
      dsimp only at h
      rcases List.prefix_cons_iff.mp h with rfl | ⟨pre1, rfl, h1⟩
      · exact ⟨fun _ _ h => (List.not_mem_nil h).elim, fun a k b h => by simp at h⟩
      have first : (v :: vs)[o - o]? = some v := by rw [Nat.sub_self]; rfl
      rcases List.prefix_cons_iff.mp h1 with rfl | ⟨pre2, rfl, h2⟩
      · refine ⟨?_, ?_⟩
        · intro k s hk
          rw [List.mem_singleton] at hk
          injection hk with hk hs
          subst hk hs
          exact ⟨Nat.le_refl _, v, first, hv⟩
        · intro a k b hk
          rcases a with _ | ⟨x, a⟩
          · simp at hk
          · simp at hk
      · obtain ⟨i1, i2⟩ := ih (o + 1) pre2 h2
        refine ⟨?_, ?_⟩
        · intro k s hk
          simp only [List.mem_cons, ConsumerEvent.delivered.injEq, reduceCtorEq, false_or] at hk
          rcases hk with ⟨rfl, rfl⟩ | hk
          · exact ⟨Nat.le_refl _, v, first, hv⟩
          · obtain ⟨h1, h2⟩ := i1 k s hk
            rw [shift k h1]
            exact ⟨by omega, h2⟩
        · intro a k b hk
          rcases a with _ | ⟨x, _ | ⟨y, a⟩⟩
          · simp at hk
          · simp only [List.cons_append, List.nil_append, List.cons.injEq, ConsumerEvent.marked.injEq] at hk
            obtain ⟨rfl, rfl, _⟩ := hk
            refine ⟨Nat.le_refl _, ⟨v, s0, first, hv, [], rfl⟩, ?_⟩
            intro i w s hi hik hw hd
            have : i = o := by omega
            subst this
            rw [Nat.sub_self] at hw
            rw [← Option.some.inj hw, hv] at hd
            injection hd with hd
            subst hd
            simp
          · simp only [List.cons_append, List.cons.injEq] at hk
            obtain ⟨rfl, rfl, hk⟩ := hk
            obtain ⟨h1, ⟨w, s, h2, h3, a', h4⟩, h5⟩ := i2 a k b hk
            rw [shift k h1]
            refine ⟨by omega, ⟨w, s, h2, h3, _ :: _ :: a', by rw [h4]; rfl⟩, ?_⟩
            intro i w s hi hik hw hd
            by_cases hio : i = o
            · subst hio
              rw [Nat.sub_self] at hw
              rw [← Option.some.inj hw, hv] at hd
              injection hd with hd
              subst hd
              simp
            · rw [shift i (by omega)] at hw
              simp only [List.mem_cons, reduceCtorEq, false_or]
              exact Or.inr (h5 i w s (by omega) hik hw hd)

/-- C12: at every point in a session (after any part `pre` of what it does) each marked message decodes,
and was handed to the callback directly before it was marked. -/
theorem C12_marked_after_delivery (log : List (List UInt8)) (o : Nat) (pre : List ConsumerEvent)
    (h : pre <+: consumeClaim o log) (a b : List ConsumerEvent) (k : Nat) (hk : pre = a ++ ConsumerEvent.marked k :: b) :
    ∃ v s rest, o ≤ k ∧ log[k - o]? = some v ∧ binaryDecode v = some (s, rest) ∧ ∃ a', a = a' ++ [ConsumerEvent.delivered k s] := by
  obtain ⟨h1, ⟨v, s, h2, h3, h4⟩, _⟩ := (consumeClaim_prefix log o pre h).2 a k b hk
  unfold decodeKafkaMessage at h3
  cases hd : binaryDecode v with
  | none => rw [hd] at h3; cases h3
  | some r =>
    obtain ⟨s', rest⟩ := r
    rw [hd] at h3
    injection h3 with h3
    dsimp only at h3
    subst h3
    exact ⟨v, s', rest, h1, h2, hd, h4⟩

/-- C12: a message that does not decode is never marked, and never handed to the callback. -/
theorem C12_undecodable_not_marked (log : List (List UInt8)) (o i : Nat) (v : List UInt8) (hi : log[i]? = some v)
    (hv : binaryDecode v = none) :
    ConsumerEvent.marked (o + i) ∉ consumeClaim o log ∧ ∀ s, ConsumerEvent.delivered (o + i) s ∉ consumeClaim o log := by
  refine ⟨?_, ?_⟩
  · intro h
    obtain ⟨a, b, hab⟩ := List.append_of_mem h
    obtain ⟨v', s, rest, _, h2, h3, _⟩ := C12_marked_after_delivery log o _ (List.prefix_refl _) a b _ hab
    rw [Nat.add_sub_cancel_left, hi] at h2
    rw [← Option.some.inj h2, hv] at h3
    cases h3
  · intro s h
    obtain ⟨_, v', h2, h3⟩ := (consumeClaim_prefix log o _ (List.prefix_refl _)).1 _ s h
    rw [Nat.add_sub_cancel_left, hi] at h2
    rw [← Option.some.inj h2] at h3
    unfold decodeKafkaMessage at h3
    rw [hv] at h3
    cases h3

/-- Witness: a session with a good, a bad and a good message. -/
example : (consumeClaim 5 [binaryEncode {} [], b!"\xff", binaryEncode {} []]).length = 4 := by decide +kernel

/-! ## C63 -/

/-- C63: at-least-once. In every history of sessions and crashes, every message before the committed
offset that decodes was handed to a callback by some session; so no message is lost by a restart. -/
theorem C63_at_least_once (log : List (List UInt8)) (g : Group) (h : g.Reachable log) (i : Nat) (v : List UInt8) (s : Span)
    (rest : List UInt8) (hi : i < g.committed) (hv : log[i]? = some v) (hd : binaryDecode v = some (s, rest)) :
    (i, s) ∈ g.handed := by
  have hd' : decodeKafkaMessage v = some s := by unfold decodeKafkaMessage; rw [hd]; rfl
  induction h with
  | init => exact absurd hi (Nat.not_lt_zero _)
  | @step g g' _ st ih =>
    cases st with
    | @run events c hp hc =>
      dsimp only at hi ⊢
      rw [List.mem_append]
      by_cases hlt : i < g.committed
      · exact Or.inl (ih hlt)
      · rcases hc with rfl | ⟨k, hk, rfl⟩
        · exact absurd hi hlt
        · right
          obtain ⟨a, b, hab⟩ := List.append_of_mem hk
          obtain ⟨h1, _, h3⟩ := (consumeClaim_prefix _ _ _ hp).2 a k b hab
          have := h3 i v s (by omega) (by omega) (by rw [List.getElem?_drop, show g.committed + (i - g.committed) = i by omega]; exact hv) hd'
          rw [List.mem_filterMap]
          exact ⟨_, by rw [hab]; exact List.mem_append_left _ this, rfl⟩

/-- C63: nothing is made up: what was handed to a callback is in the log, and decodes to the span. -/
theorem C63_provenance (log : List (List UInt8)) (g : Group) (h : g.Reachable log) (i : Nat) (s : Span)
    (hi : (i, s) ∈ g.handed) : ∃ v rest, log[i]? = some v ∧ binaryDecode v = some (s, rest) := by
  induction h with
  | init => exact (List.not_mem_nil hi).elim
  | @step g g' _ st ih =>
    cases st with
    | @run events c hp hc =>
      rcases List.mem_append.mp hi with hi | hi
      · exact ih hi
      · obtain ⟨e, he, hes⟩ := List.mem_filterMap.mp hi
        cases e with
        | marked k => cases hes
        | delivered k s' =>
          injection hes with hes
          injection hes with e1 e2
          subst e1 e2
          obtain ⟨h1, v, h2, h3⟩ := (consumeClaim_prefix _ _ _ hp).1 _ _ he
          rw [List.getElem?_drop, show g.committed + (k - g.committed) = k by omega] at h2
          unfold decodeKafkaMessage at h3
          cases hd : binaryDecode v with
          | none => rw [hd] at h3; cases h3
          | some r =>
            rw [hd] at h3
            injection h3 with h3
            exact ⟨v, r.2, h2, by rw [hd, ← h3]⟩

/-- C63: a session that is not cut off hands every decodable message from the committed offset on to the
callback. -/
theorem C63_session_complete (log : List (List UInt8)) (g : Group) :
    ∃ g', Group.Session log g g' ∧ ∀ (i : Nat) v s rest, g.committed ≤ i → log[i]? = some v → binaryDecode v = some (s, rest) → (i, s) ∈ g'.handed := by
  refine ⟨_, .run (List.prefix_refl _) (Or.inl rfl), ?_⟩
  intro i v s rest hi hv hd
  rw [List.mem_append, List.mem_filterMap]
  right
  refine ⟨.delivered i s, ?_, rfl⟩
  have gen : ∀ (l : List (List UInt8)) (o j : Nat), l[j]? = some v → ConsumerEvent.delivered (o + j) s ∈ consumeClaim o l := by
    intro l
    induction l with
    | nil => intro o j h; simp at h
    | cons w ws ih =>
      intro o j h
      unfold consumeClaim
      cases j with
      | zero =>
        have : w = v := by simpa using h
        rw [this]
        unfold decodeKafkaMessage
        rw [hd]
        simp
      | succ j =>
        have := ih (o + 1) j (by simpa using h)
        rw [show o + 1 + j = o + (j + 1) by omega] at this
        split
        · exact this
        · simp only [List.mem_cons, reduceCtorEq, false_or]
          exact Or.inr this
  have := gen (log.drop g.committed) g.committed (i - g.committed) (by rw [List.getElem?_drop, show g.committed + (i - g.committed) = i by omega]; exact hv)
  rwa [show g.committed + (i - g.committed) = i by omega] at this

/-- Witness: a group that crashed between the callback and the mark, and then read the message again. -/
example : ∃ g : Group, g.Reachable [binaryEncode {} []] ∧ g.committed = 1 ∧ g.handed.length = 2 := by
  have hd : decodeKafkaMessage (binaryEncode {} []) = some (Span.withTags {}) := by
    unfold decodeKafkaMessage
    have := C04_span_roundtrip {} [] [] ⟨by decide, by decide, by decide, by intro k v h; simp at h⟩ (List.Perm.refl _)
    rw [List.append_nil] at this
    rw [this]; rfl
  have hc : consumeClaim 0 [binaryEncode {} []] = [.delivered 0 (Span.withTags {}), .marked 0] := by
    unfold consumeClaim; rw [hd]; rfl
  refine ⟨_, .step (.step .init (.run (events := [.delivered 0 (Span.withTags {})]) (c := 0) ?_ (Or.inl rfl)))
    (.run (events := [.delivered 0 (Span.withTags {}), .marked 0]) (c := 1) ?_ (Or.inr ⟨0, by simp, rfl⟩)), rfl, rfl⟩
  · show _ <+: consumeClaim 0 [binaryEncode {} []]
    rw [hc]; exact ⟨[.marked 0], rfl⟩
  · show _ <+: consumeClaim 0 [binaryEncode {} []]
    rw [hc]; exact List.prefix_refl _

end Verif
