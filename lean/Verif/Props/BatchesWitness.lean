import Verif.Props.Batches

/-!
# C111: Two requests of different formats that meet all hypotheses
-/

namespace Verif

open Spec

/-! ## An execution -/

/-- An execution in which two requests come, with three spans, of which the first and the last are of the same trace. -/
theorem two_requests {k : Id} {a x b : Span} (hh : Healthy k [a, b]) (hx : x.trace ≠ k) : ∃ (r : Execution plainConverter ()) (es fs : List CEvent) (i : TickInput), r.Fair ∧ r.SenderFair ∧ r.SinkTicks ∧
    (∀ m, r.outcomes m <+: [.spans [a, x], .spans [b]]) ∧ (r.outcomes 8 = [.spans [a, x], .spans [b]]) ∧
    receivedFor k (r.state 0).world.received = [] ∧ Runs (r.state 0).world es (r.state 8).world ∧ Quick k es ∧ Calm (r.state 0).world es ∧
    receivedFor k (r.state 8).world.received = [a, b] ∧ timesOf k es = some (0, 0) ∧ Runs (r.state 8).world (fs ++ [.tick i]) (r.state 9).world ∧ Calm (r.state 8).world (fs ++ [.tick i]) ∧
    (0 : Time) + 8000000000 ≤ i.now1 ∧ TicksBy (0 + 10000000000) (fs ++ [.tick i]) := by
  let outs : List Parsed := [.spans [a, x], .spans [b]]
  let s0 : System Unit := System.init () 0
  have h0 : System.Reachable plainConverter () [] s0 := .init (k := ()) 0
  let s1 : System Unit := { s0 with http := { conns := [.pushing [a, x]], channel := [] } }
  have h1 : System.Reachable plainConverter () [.spans [a, x]] s1 := .request (.spans [a, x]) h0
  let s2 : System Unit := { s0 with http := { conns := [.pushing [a, x], .pushing [b]], channel := [] } }
  have h2 : System.Reachable plainConverter () outs s2 := .request (.spans [b]) h1
  let s3 : System Unit := { s0 with http := { conns := [.pushing [x], .pushing [b]], channel := [a] } }
  have st3 : s2.Step plainConverter s3 := .http (.push (i := 0) (s := a) (rest := [x]) _ rfl (by show 0 < 256; decide))
  have h3 : System.Reachable plainConverter () outs s3 := .step h2 st3
  let s4 : System Unit := { s0 with http := { conns := [.pushing [], .pushing [b]], channel := [a, x] } }
  have st4 : s3.Step plainConverter s4 := .http (.push (i := 0) (s := x) (rest := []) _ rfl (by show 1 < 256; decide))
  have h4 : System.Reachable plainConverter () outs s4 := .step h3 st4
  let s5 : System Unit := { s0 with http := { conns := [.pushing [], .pushing []], channel := [a, x, b] } }
  have st5 : s4.Step plainConverter s5 := .http (.push (i := 1) (s := b) (rest := []) _ rfl (by show 2 < 256; decide))
  have h5 : System.Reachable plainConverter () outs s5 := .step h4 st5
  let s6 : System Unit := { s5 with http := { s5.http with channel := [x, b] }, world := s5.world.receive 0 0 a }
  have st6 : s5.Step plainConverter s6 := .collect 0 0 rfl rfl (Int.le_refl _) (Int.le_refl _)
  have h6 : System.Reachable plainConverter () outs s6 := .step h5 st6
  let s7 : System Unit := { s6 with http := { s6.http with channel := [b] }, world := s6.world.receive 0 0 x }
  have st7 : s6.Step plainConverter s7 := .collect 0 0 rfl rfl (Int.le_refl _) (Int.le_refl _)
  have h7 : System.Reachable plainConverter () outs s7 := .step h6 st7
  let s8 : System Unit := { s7 with http := { s7.http with channel := [] }, world := s7.world.receive 0 0 b }
  have st8 : s7.Step plainConverter s8 := .collect 0 0 rfl rfl (Int.le_refl _) (Int.le_refl _)
  have h8 : System.Reachable plainConverter () outs s8 := .step h7 st8
  obtain ⟨i, hv, hn1, hn2, _⟩ := exists_valid s8.world.c 8000000000 8000000000 (fun _ => 0) (Int.le_refl _)
  have hclock : s8.world.clock ≤ i.now1 := by
    rw [hn1]
    show (0 : Int) ≤ 8000000000
    decide
  let s9 : System Unit := { s8 with world := s8.world.tick i, outbox := emittedOf (s8.world.c.tick i).2 }
  have st9 : s8.Event s9 := .tick i rfl hv hclock
  have h9 : System.Reachable plainConverter () outs s9 := .event h8 st9
  obtain ⟨r, e1, e2, f1, _, f3, f4⟩ := C101_exists h9
  have n9 : System.Next plainConverter outs s8 (r.outcomes 0) (r.state 0) := by rw [e1, e2 0]; exact .event st9
  let r8 := r.prepend h8 n9
  let r7 := r8.prepend h7 (o := outs) (.step st8)
  let r6 := r7.prepend h6 (o := outs) (.step st7)
  let r5 := r6.prepend h5 (o := outs) (.step st6)
  let r4 := r5.prepend h4 (o := outs) (.step st5)
  let r3 := r4.prepend h3 (o := outs) (.step st4)
  let r2 := r3.prepend h2 (o := outs) (.step st3)
  let r1 := r2.prepend h1 (o := [.spans [a, x]]) (.request (.spans [b]))
  let r0 := r1.prepend h0 (o := []) (.request (.spans [a, x]))
  have hstate : r0.state 9 = s9 := e1
  have hrec : receivedFor k [a, b] = [a, b] := hh.receivedFor
  have hta := hh.trace a (by simp)
  have htb := hh.trace b (by simp)
  have tra : Traced a := ⟨by rw [hta.1]; exact hh.some, hta.2⟩
  have trb : Traced b := ⟨by rw [htb.1]; exact hh.some, htb.2⟩
  have hrec' : receivedFor k [a, x, b] = [a, b] := by
    unfold receivedFor
    rw [List.filter_cons_of_pos (by simp [tra, hta.1]), List.filter_cons_of_neg (by simp [hx]), List.filter_cons_of_pos (by simp [trb, htb.1])]
    rfl
  have noTick : ∀ j, CEvent.tick j ∉ [CEvent.receive 0 0 a, CEvent.receive 0 0 x, CEvent.receive 0 0 b] := fun j hj => by simp at hj
  refine ⟨r0, [.receive 0 0 a, .receive 0 0 x, .receive 0 0 b], [], i,
    prepend_fair _ _ (prepend_fair _ _ (prepend_fair _ _ (prepend_fair _ _ (prepend_fair _ _ (prepend_fair _ _ (prepend_fair _ _ (prepend_fair _ _ (prepend_fair _ _ f1)))))))),
    prepend_sender _ _ (prepend_sender _ _ (prepend_sender _ _ (prepend_sender _ _ (prepend_sender _ _ (prepend_sender _ _ (prepend_sender _ _ (prepend_sender _ _ (prepend_sender _ _ f3)))))))),
    prepend_sinkTicks _ _ (prepend_sinkTicks _ _ (prepend_sinkTicks _ _ (prepend_sinkTicks _ _ (prepend_sinkTicks _ _ (prepend_sinkTicks _ _ (prepend_sinkTicks _ _ (prepend_sinkTicks _ _ (prepend_sinkTicks _ _ f4)))))))),
    ?_, rfl, rfl, ?_, quick_of_no_tick noTick, calm_of_no_tick noTick, hrec', ?_, ?_, ?_, by rw [hn1]; decide, ?_⟩
  · intro m
    match m with
    | 0 => exact List.nil_prefix
    | 1 => exact List.prefix_append [Parsed.spans [a, x]] [Parsed.spans [b]]
    | 2 => exact List.prefix_rfl
    | 3 => exact List.prefix_rfl
    | 4 => exact List.prefix_rfl
    | 5 => exact List.prefix_rfl
    | 6 => exact List.prefix_rfl
    | 7 => exact List.prefix_rfl
    | 8 => exact List.prefix_rfl
    | m + 9 =>
      have : r0.outcomes (m + 9) = outs := e2 m
      rw [this]
      exact List.prefix_rfl
  · exact Runs.receive (es := [.receive 0 0 a, .receive 0 0 x]) 0 0 b
      (Runs.receive (es := [.receive 0 0 a]) 0 0 x (Runs.receive (es := []) 0 0 a .nil (Int.le_refl _) (Int.le_refl _)) (Int.le_refl _) (Int.le_refl _)) (Int.le_refl _) (Int.le_refl _)
  · have c1 : (if Traced a ∧ a.trace = k then some ((0 : Time), (0 : Time)) else none) = some (0, 0) := if_pos ⟨tra, hta.1⟩
    unfold timesOf
    simp only [List.foldl_cons, List.foldl_nil, c1]
    rw [if_neg (fun h => hx h.2)]
    simp only
    rw [if_pos ⟨trb, htb.1⟩]
  · rw [hstate]
    exact Runs.tick (es := []) i .nil hv hclock
  · intro pre j u hp hu
    have hl := hp.length_le
    match pre, hp with
    | [], _ =>
      rw [runs_nil hu]
      refine Nat.le_trans (counted_le (reachable_inv (r0.world 8))) ?_
      show 3 ≤ 100000
      decide
    | x :: pre, hp => simp at hl
  · intro pre j hp
    have hl := hp.length_le
    match pre, hp with
    | [], ⟨t, ht⟩ =>
      simp at ht
      rw [ht.1, hn2]
      decide
    | x :: pre, hp => simp at hl

/-! ## Two documents -/

/-- Version 2: the root of a trace, and a span of another one. -/
def firstBatch : Str := b!"[{\"traceId\":\"9\",\"id\":\"7\",\"timestamp\":1577836800000001},{\"traceId\":\"5\",\"id\":\"4\"}]"

def rootItem : SpanV2 := { traceId := 9, id := 7, timestamp := 1577836800000001 }
def strangerItem : SpanV2 := { traceId := 5, id := 4 }

theorem unquotes_text {l : Str} (h : ∀ c ∈ l, c ≠ c!"\"" ∧ c ≠ c!"\\" ∧ 0x20 ≤ c) : Unquotes l l := by
  refine ⟨?_, text_unescape h⟩
  induction l with
  | nil => exact .nil
  | cons c l ih => exact .char (h c (by simp)).1 (h c (by simp)).2.1 (ih fun x hx => h x (by simp [hx]))

theorem firstBatch_body : BodyV2 firstBatch [rootItem, strangerItem] := by
  refine ⟨_, ⟨[], _, [], rfl, by decide, .array (.cons (w := []) (by decide) (.object
      (.cons (w := []) (lit := b!"traceId") (w' := b!":") (t := b!"\"9\",\"id\":\"7\",\"timestamp\":1577836800000001},{\"traceId\":\"5\",\"id\":\"4\"}]") (by decide) (unquotes_text (by decide)) (by decide)
        (.string (lit := b!"9") (unquotes_text (by decide)))
      (.cons (w := b!",") (lit := b!"id") (w' := b!":") (t := b!"\"7\",\"timestamp\":1577836800000001},{\"traceId\":\"5\",\"id\":\"4\"}]") (by decide) (unquotes_text (by decide)) (by decide)
        (.string (lit := b!"7") (unquotes_text (by decide)))
      (.cons (w := b!",") (lit := b!"timestamp") (w' := b!":") (t := b!"1577836800000001},{\"traceId\":\"5\",\"id\":\"4\"}]") (by decide) (unquotes_text (by decide)) (by decide)
        (.number (t := b!"1577836800000001") ⟨_, _, rfl, by decide, by decide⟩ ⟨_, _, rfl, by decide⟩)
      (.nil (w := []) (by decide))))))
    (.cons (w := b!",") (by decide) (.object
      (.cons (w := []) (lit := b!"traceId") (w' := b!":") (t := b!"\"5\",\"id\":\"4\"}]") (by decide) (unquotes_text (by decide)) (by decide)
        (.string (lit := b!"5") (unquotes_text (by decide)))
      (.cons (w := b!",") (lit := b!"id") (w' := b!":") (t := b!"\"4\"}]") (by decide) (unquotes_text (by decide)) (by decide)
        (.string (lit := b!"4") (unquotes_text (by decide)))
      (.nil (w := []) (by decide)))))
    (.nil (w := []) (by decide))))⟩, ?_⟩
  rfl

/-- Names that differ at most in the case of letters, in ASCII. -/
theorem variant_lower {f k : Str} (h : NameVariant f k) (hk : ∀ c ∈ k, c < 0x80) : f.map toLower = k.map toLower := by
  induction h with
  | nil => rfl
  | same _ ih => rw [List.map_cons, List.map_cons, ih fun c hc => hk c (List.mem_cons_of_mem _ hc)]
  | lower h1 h2 _ ih =>
    have key : ∀ c : UInt8, c!"A" ≤ c → c ≤ c!"Z" → toLower c = toLower (c + 32) := byte_forall (by decide +kernel)
    rw [List.map_cons, List.map_cons, ih fun c hc => hk c (List.mem_cons_of_mem _ hc), key _ h1 h2]
  | upper h1 h2 _ ih =>
    have key : ∀ c : UInt8, c!"A" ≤ c → c ≤ c!"Z" → toLower (c + 32) = toLower c := byte_forall (by decide +kernel)
    rw [List.map_cons, List.map_cons, ih fun c hc => hk c (List.mem_cons_of_mem _ hc), key _ h1 h2]
  | longS => exact absurd (hk 0xC5 List.mem_cons_self) (by decide)
  | kelvin => exact absurd (hk 0xE2 List.mem_cons_self) (by decide)

theorem clear_ascii {fields : List Str} {nms : List (Str × Json)} (h1 : (nms.map (·.1)).Nodup) (h2 : ∀ n ∈ nms.map (·.1), ∀ c ∈ n, c < 0x80)
    (h3 : ∀ f ∈ fields, ∀ n ∈ nms.map (·.1), f.map toLower = n.map toLower → n = f) : ClearNames fields nms :=
  ⟨h1, fun f hf m hm hv => h3 f hf m.1 (List.mem_map_of_mem hm) (variant_lower hv (h2 m.1 (List.mem_map_of_mem hm)))⟩

/-- Jaeger: a child of the root. -/
def secondBatch : Str := b!"{\"data\":[{\"spans\":[{\"traceID\":\"9\",\"spanID\":\"8\",\"references\":[{\"refType\":\"CHILD_OF\",\"spanID\":\"7\"}],\"startTime\":1577836800000002}]}]}"

def secondSpan : Json := .object [(b!"traceID", .string b!"9"), (b!"spanID", .string b!"8"), (b!"references", .array [.object [(b!"refType", .string b!"CHILD_OF"), (b!"spanID", .string b!"7")]]),
  (b!"startTime", .number b!"1577836800000002")]

def secondJson : Json := .object [(b!"data", .array [.object [(b!"spans", .array [secondSpan])]])]

def childItem : JaegerSpan := { traceId := 9, spanId := 8, references := [(b!"CHILD_OF", 7)], timestamp := 1577836800000002 }

theorem second_number : JsonNumber b!"1577836800000002" := ⟨[], b!"1577836800000002", [], [], by decide, by decide, by decide, .inl rfl, .inl rfl⟩

theorem secondBatch_writes : Writes JsonNumber secondJson secondBatch := by
  have lit : ∀ {l : Str}, (∀ c ∈ l, c ≠ c!"\"" ∧ c ≠ c!"\\" ∧ 0x20 ≤ c) → JsonLiteral l := fun h => ⟨_, text_json h⟩
  have href := writes_array1 (writes_object2 (N := JsonNumber) (k1 := b!"refType") (k2 := b!"spanID") (lit (by decide)) (Writes.string (lit := b!"CHILD_OF") (lit (by decide))) (lit (by decide)) (Writes.string (lit := b!"7") (lit (by decide))))
  have hspan : Writes JsonNumber secondSpan _ := Writes.object
    (WritesMembers.cons (lit := b!"traceID") (w := []) (w1 := []) (w2 := []) (w' := []) (by decide) (lit (by decide)) (by decide) (by decide) (Writes.string (lit := b!"9") (lit (by decide))) (by decide)
    (WritesMembers.cons (lit := b!"spanID") (w := []) (w1 := []) (w2 := []) (w' := []) (by decide) (lit (by decide)) (by decide) (by decide) (Writes.string (lit := b!"8") (lit (by decide))) (by decide)
    (WritesMembers.cons (lit := b!"references") (w := []) (w1 := []) (w2 := []) (w' := []) (by decide) (lit (by decide)) (by decide) (by decide) href (by decide)
    (WritesMembers.last (lit := b!"startTime") (w := []) (w1 := []) (w2 := []) (w' := []) (by decide) (lit (by decide)) (by decide) (by decide) (.number second_number) (by decide)))))
  have := writes_object1 (key := b!"data") (lit (by decide)) (writes_array1 (writes_object1 (key := b!"spans") (lit (by decide)) (writes_array1 hspan)))
  exact this

theorem secondBatch_nesting : Nesting 10000 secondJson := by
  refine .object (n := 9999) fun m hm => ?_
  rw [List.mem_singleton.mp hm]
  refine .array (n := 9998) fun m hm => ?_
  rw [List.mem_singleton.mp hm]
  refine .object (n := 9997) fun m hm => ?_
  rw [List.mem_singleton.mp hm]
  refine .array (n := 9996) fun m hm => ?_
  rw [List.mem_singleton.mp hm]
  refine .object (n := 9995) fun m hm => ?_
  simp only [List.mem_cons, List.not_mem_nil, or_false] at hm
  rcases hm with rfl | rfl | rfl | rfl
  · exact .string _
  · exact .string _
  · refine .array (n := 9994) fun m hm => ?_
    rw [List.mem_singleton.mp hm]
    refine .object (n := 9993) fun m hm => ?_
    simp only [List.mem_cons, List.not_mem_nil, or_false] at hm
    rcases hm with rfl | rfl <;> exact .string _
  · exact .number _

theorem secondBatch_of (floatFails : Str → Bool) : JaegerOf ClearNames PlainHexOf (GoNumber floatFails) secondJson [{ spans := [childItem], processes := ∅ }] := by
  have hex : ∀ {v : Str} {id : Int64}, v.length ≤ 16 → (∀ c ∈ v, IsHexDigit c) → id.toUInt64.toNat = hexValue v → PlainHexOf (.string v) id := fun h1 h2 h3 => .string h1 h2 h3
  have name : ∀ {l : Str} (j : Json), (∀ c ∈ l, c ≠ c!"\"" ∧ c ≠ c!"\\" ∧ 0x20 ≤ c ∧ c < 0x80) → Utf8String (l, j).1 (l, j).1 ∧ (l, j).2 = (l, j).2 := fun _ h => ⟨text_utf8 h, rfl⟩
  have href : ReferenceOf ClearNames PlainHexOf (.object [(b!"refType", .string b!"CHILD_OF"), (b!"spanID", .string b!"7")]) (b!"CHILD_OF", 7) :=
    .object (nms := [(b!"refType", _), (b!"spanID", _)]) (.cons (name _ (by decide)) (.cons (name _ (by decide)) .nil)) (clear_ascii (by decide) (by decide) (by decide))
      (.inl ⟨_, List.mem_cons_self, .value (.string (text_utf8 (by decide)))⟩) (.inl ⟨_, List.mem_cons_of_mem _ List.mem_cons_self, hex (by decide) (by decide) (by decide)⟩)
  have hspan : JaegerSpanOf ClearNames PlainHexOf (GoNumber floatFails) secondSpan childItem :=
    .object (nms := [(b!"traceID", _), (b!"spanID", _), (b!"references", _), (b!"startTime", _)])
      (.cons (name _ (by decide)) (.cons (name _ (by decide)) (.cons (name _ (by decide)) (.cons (name _ (by decide)) .nil)))) (clear_ascii (by decide) (by decide) (by decide))
      (.inl ⟨_, List.mem_cons_self, hex (by decide) (by decide) (by decide)⟩)
      (.inl ⟨_, List.mem_cons_of_mem _ List.mem_cons_self, hex (by decide) (by decide) (by decide)⟩)
      (.inr ⟨by decide, rfl⟩)
      (.inl ⟨_, List.mem_cons_of_mem _ (List.mem_cons_of_mem _ List.mem_cons_self), .value (.array (.cons href .nil))⟩)
      (.inl ⟨_, List.mem_cons_of_mem _ (List.mem_cons_of_mem _ (List.mem_cons_of_mem _ List.mem_cons_self)), .value (.number (by decide) (by decide))⟩)
      (.inr ⟨by decide, rfl⟩) (.inr ⟨by decide, rfl⟩) (.inr ⟨by decide, rfl⟩)
  refine .object (nms := [(b!"data", _)]) (.cons (name _ (by decide)) .nil) (clear_outer _ _ _ (.inl ⟨rfl, rfl⟩)) (.inl ⟨_, List.mem_cons_self, .value (.array (.cons ?_ .nil))⟩)
  exact .object (nms := [(b!"spans", _)]) (.cons (name _ (by decide)) .nil) (clear_outer _ _ _ (.inr ⟨rfl, rfl⟩)) (.inl ⟨_, List.mem_cons_self, .value (.array (.cons hspan .nil))⟩) (.inr ⟨by decide, rfl⟩)

theorem batches_healthy : HealthyItems 9 [.v2 rootItem, .jaeger ∅ childItem] := by
  refine ⟨by decide, ?_, by decide, by decide, ⟨.v2 rootItem, by simp, .inr ?_, ?_⟩, ?_, ?_⟩
  · intro v hv
    rcases List.mem_pair.mp hv with rfl | rfl <;> decide
  · intro v hv
    rcases List.mem_pair.mp hv with rfl | rfl <;> decide
  · intro v hv hne
    rcases List.mem_pair.mp hv with rfl | rfl
    · exact absurd rfl hne
    · exact ⟨by decide, _, List.mem_cons_self, by decide⟩
  · intro v hv
    rcases List.mem_pair.mp hv with rfl | rfl <;> decide
  · intro v hv
    rcases List.mem_pair.mp hv with rfl | rfl <;> trivial

/-- C111: a trace with its root in a request of version 2, beside a span of another trace, and its other span in a request of the jaeger format. In some execution both are answered with 202, and the two spans are
sent in one call; or they were discarded. -/
theorem C111_witness : ∃ (r : Execution plainConverter ()) (l : List Item) (spans : List Span), l.Perm [.v2 rootItem, .jaeger ∅ childItem] ∧ Pairwise₂ Item.Shown l (spans.map toDatadog) ∧
    (∃ m, OneCall (r.state m) spans ∨ InDiscarded (r.state m) spans) ∧ (∃ m, (r.state m).http.conns[0]? = some (.answered 202)) ∧ ∃ m, (r.state m).http.conns[1]? = some (.answered 202) := by
  let ff : Str → Bool := fun _ => false
  let env : HandlerEnv := { newCap := fun _ n => n, decodeJaeger := fun r => goDecodeJaeger ff r.data, buf := List.replicate 4096 0, pool := [] }
  let req0 : Request := { route := .v2, contentType := [], contentEncoding := [], body := { data := firstBatch, script := [], failing := false, idle := false }, unzipped := none }
  let req1 : Request := { route := .jaeger, contentType := [], contentEncoding := [], body := { data := secondBatch, script := [], failing := false, idle := false }, unzipped := none }
  let req : Nat → Request := fun i => if i = 0 then req0 else req1
  let items : Nat → List Item := fun i => if i = 0 then [.v2 rootItem, .v2 strangerItem] else [.jaeger ∅ childItem]
  have hdel0 : req0.Delivers req0.body := by unfold Request.Delivers; rw [if_neg (by decide)]
  have hdel1 : req1.Delivers req1.body := by unfold Request.Delivers; rw [if_neg (by decide)]
  have hfit : TokensFit env.buf.length firstBatch := by decide +kernel
  have hbuf : 0 < env.buf.length := by rw [List.length_replicate]; decide
  have hsay0 : RequestSays env req0 [.v2 rootItem, .v2 strangerItem] := .v2 (vs := [rootItem, strangerItem]) rfl hdel0 hfit hbuf firstBatch_body
  have hsay1 : RequestSays env req1 [.jaeger ∅ childItem] :=
    .jaeger (l := [{ spans := [childItem], processes := ∅ }]) (w := []) (t := secondBatch) (z := []) rfl (fun _ => rfl) hdel1 (by rw [List.append_nil, List.nil_append]) (by decide) secondBatch_writes secondBatch_nesting (secondBatch_of ff)
  obtain ⟨l0, hm0, hp0⟩ := (C90_v2 firstBatch).1 _ firstBatch_body
  have ret0 := C33_document hp0 env req0 rfl hdel0 rfl hfit hbuf
  obtain ⟨l1, hs1, hp1⟩ := C76_jaeger_partial (w := []) (s := []) (by decide) secondBatch_writes secondBatch_nesting (secondBatch_of ff)
  rw [List.append_nil, List.nil_append] at hp1
  have ret1 : Returns (fun fuel => handleRequest env fuel req1) (.spans l1) := ⟨0, fun fuel _ => hp1 env fuel req1 req1.body (fun _ => rfl) rfl hdel1 rfl⟩
  have hm1 := spansOf_means hs1
  obtain ⟨a, x, rfl, ma, mx⟩ : ∃ a x, l0 = [a, x] ∧ MeansV2 rootItem a ∧ MeansV2 strangerItem x := by
    cases hm0 with
    | cons ha h => cases h with
      | cons hx h => cases h; exact ⟨_, _, rfl, ha, hx⟩
  obtain ⟨b, rfl, mb⟩ : ∃ b, l1 = [b] ∧ Item.Means (.jaeger ∅ childItem) b := by
    cases hm1 with
    | cons hb h => cases h; exact ⟨_, rfl, hb⟩
  have hmeans : Pairwise₂ Item.Means [.v2 rootItem, .jaeger ∅ childItem] [a, b] := .cons (show Item.Means (.v2 rootItem) a from ma) (.cons mb .nil)
  obtain ⟨r, es, fs, i, f1, f2, f3, hall, hout, hfresh, hrun, hq, hc, hrec, ht, hrun', hc', hlate, hby⟩ := two_requests (batches_healthy.spans hmeans) (x := x) (by rw [mx.2.1]; decide)
  have hreq : Requests r.outcomes (fun _ => env) req items := by
    intro m j out hj
    obtain ⟨t, ht⟩ := hall m
    have : [Parsed.spans [a, x], Parsed.spans [b]][j]? = some out := by rw [← ht, List.getElem?_append_left (List.getElem?_eq_some_iff.mp hj).1, hj]
    match j with
    | 0 => cases this; exact ⟨ret0, hsay0⟩
    | 1 => cases this; exact ⟨ret1, hsay1⟩
    | j + 2 => cases this
  have hpost : ∀ m, List.Subperm (postedItems items 9 (r.outcomes m).length) [.v2 rootItem, .jaeger ∅ childItem] := by
    intro m
    have hle : (r.outcomes m).length ≤ 2 := (hall m).length_le
    generalize (r.outcomes m).length = n at hle
    match n with
    | 0 => exact List.nil_subperm
    | 1 => exact List.Sublist.subperm (List.Sublist.cons_cons _ (List.nil_sublist _))
    | 2 => exact List.Subperm.refl _
    | n + 3 => omega
  obtain ⟨h202, l', spans, hl', hsh, ⟨m, _, hm⟩, _⟩ := C111_batches f1 f2 f3 hreq batches_healthy hpost hfresh hrun hq hc (by rw [hrec]; exact Nat.le_refl _) ht (by decide) hrun' hc' hlate hby
  obtain ⟨m0, h0⟩ := h202 8 0 (by rw [hout]; simp) (by simp [items])
  obtain ⟨m1, h1⟩ := h202 8 1 (by rw [hout]; simp) (by simp [items])
  exact ⟨r, l', spans, hl', hsh, ⟨m, hm⟩, ⟨m0, h0 m0 (Nat.le_refl _)⟩, m1, h1 m1 (Nat.le_refl _)⟩

end Verif
