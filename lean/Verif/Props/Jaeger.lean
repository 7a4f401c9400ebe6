import Verif.Proofs.Jaeger
import Verif.Props.Document
import Verif.Props.Handlers

/-!
# Documents of the jaeger format (C76)
-/

namespace Verif

open Spec

/-- A jaeger request with this body, however delivered, is answered with these spans. -/
def ParsesJaeger (floatFails : Str → Bool) (data : Str) (spans : List Span) : Prop :=
  ∀ (env : HandlerEnv) (fuel : Nat) (req : Request) (r : Reader), (∀ r, env.decodeJaeger r = goDecodeJaeger floatFails r.data) → req.route = .jaeger → req.Delivers r → r.data = data →
    handleRequest env fuel req = .spans spans

/-- A jaeger request with this body, however delivered, is rejected. -/
def RejectsJaeger (floatFails : Str → Bool) (data : Str) : Prop :=
  ∀ (env : HandlerEnv) (fuel : Nat) (req : Request) (r : Reader), (∀ r, env.decodeJaeger r = goDecodeJaeger floatFails r.data) → req.route = .jaeger → req.Delivers r → r.data = data →
    handleRequest env fuel req = .err

theorem toSpanJaeger_means (procs : TagMap) (v : JaegerSpan) : MeansJaeger procs v (v.toSpan procs) := by
  obtain ⟨h1, h2, h3, h4, h5, _, h7, h8, h9, h10⟩ := toSpanJaeger_spec v procs
  exact ⟨h1, h2, h3, h4, h5, h7, h8, h9, h10⟩

theorem jaegerSpans_of (l : List JaegerData) : SpansOf l (jaegerSpans l) := by
  induction l with
  | nil => exact .nil
  | cons d l ih => exact .cons (pairwise_map _ (toSpanJaeger_means d.processes) d.spans) ih

theorem parsesJaeger {floatFails : Str → Bool} {data : Str} {l : List JaegerData} (h : goDecodeJaeger floatFails data = some l) : ParsesJaeger floatFails data (jaegerSpans l) := by
  intro env fuel req r henv hroute hd hr
  refine ((C33_outcome env fuel req).1 _).mpr ⟨fun he => ?_, r, hd, .inr (.inr ⟨hroute, l, by rw [henv, hr, h], rfl⟩)⟩
  rw [hroute] at he; cases he

theorem rejectsJaeger {floatFails : Str → Bool} {data : Str} (h : goDecodeJaeger floatFails data = none) : RejectsJaeger floatFails data := by
  intro env fuel req r henv hroute hd hr
  refine ((C33_outcome env fuel req).2).mpr (.inr (.inr ⟨r, hd, ?_⟩))
  exact .inr (.inr ⟨hroute, by rw [henv, hr, h]⟩)

/-- A document of the jaeger format — any white space, any order of fields, unknown fields with any value, anything after the document — is answered with exactly
the spans that it describes, in order. (Missing: ids with digits written as escapes, fields whose name differs from one of the format only in the case of letters,
fields that occur twice, and documents with more than 10000 levels; see `C76_fails`.) -/
theorem C76_jaeger_partial {floatFails : Str → Bool} {j : Json} {l : List JaegerData} {w t s : Str} (hw : Blank w) (ht : Writes JsonNumber j t) (hn : Nesting 10000 j)
    (hd : JaegerOf ClearNames PlainHexOf (GoNumber floatFails) j l) : ∃ spans, SpansOf l spans ∧ ParsesJaeger floatFails (w ++ t ++ s) spans :=
  ⟨_, jaegerSpans_of l, parsesJaeger (goDecodeJaeger_eq hw ht hn hd)⟩

/-! ### A document -/

theorem writes_object1 {N : Str → Prop} {key t : Str} {j : Json} (hk : JsonLiteral key) (h : Writes N j t) :
    Writes N (.object [(key, j)]) (b!"{\"" ++ (key ++ (b!"\":" ++ (t ++ b!"}")))) := by
  have := Writes.object (WritesMembers.last (w := []) (w1 := []) (w2 := []) (w' := []) (by decide) hk (by decide) (by decide) h (by decide))
  simpa using this

theorem writes_object2 {N : Str → Prop} {k1 k2 t1 t2 : Str} {j1 j2 : Json} (hk1 : JsonLiteral k1) (h1 : Writes N j1 t1) (hk2 : JsonLiteral k2) (h2 : Writes N j2 t2) :
    Writes N (.object [(k1, j1), (k2, j2)]) (b!"{\"" ++ (k1 ++ (b!"\":" ++ (t1 ++ (b!",\"" ++ (k2 ++ (b!"\":" ++ (t2 ++ b!"}")))))))) := by
  have := Writes.object (WritesMembers.cons (w := []) (w1 := []) (w2 := []) (w' := []) (by decide) hk1 (by decide) (by decide) h1 (by decide)
    (WritesMembers.last (w := []) (w1 := []) (w2 := []) (w' := []) (by decide) hk2 (by decide) (by decide) h2 (by decide)))
  simpa using this

theorem writes_array1 {N : Str → Prop} {t : Str} {j : Json} (h : Writes N j t) : Writes N (.array [j]) (b!"[" ++ (t ++ b!"]")) := by
  have := Writes.array (WritesElements.last (w := []) (w' := []) (by decide) h (by decide))
  simpa using this

/-- ASCII text stands for itself. -/
theorem text_utf8 {lit : Str} (h : ∀ c ∈ lit, c ≠ c!"\"" ∧ c ≠ c!"\\" ∧ 0x20 ≤ c ∧ c < 0x80) : Utf8String lit lit := by
  refine ⟨text_json fun c hc => ⟨(h c hc).1, (h c hc).2.1, (h c hc).2.2.1⟩, lit.map UInt8.toNat, ?_, ?_⟩
  · intro r hr
    obtain ⟨c, hc, rfl⟩ := List.mem_map.mp hr
    have := UInt8.lt_iff_toNat_lt.mp (h c hc).2.2.2
    have h2 : c.toNat < 128 := this
    unfold Surrogate
    omega
  · clear * - h
    induction lit with
    | nil => rfl
    | cons c lit ih =>
      have : c.toNat < 128 := UInt8.lt_iff_toNat_lt.mp (h c (by simp)).2.2.2
      rw [List.map_cons, List.flatMap_cons, utf8, if_pos (by omega), UInt8.ofNat_toNat, ← ih fun x hx => h x (by simp [hx])]
      rfl

/-- A document with one span with these two members. -/
def spanDocument (k1 : Str) (j1 : Json) (k2 : Str) (j2 : Json) : Json :=
  .object [(b!"data", .array [.object [(b!"spans", .array [.object [(k1, j1), (k2, j2)]])]])]

theorem spanDocument_writes {k1 k2 v1 v2 : Str} (hk1 : JsonLiteral k1) (h1 : JsonLiteral v1) (hk2 : JsonLiteral k2) (h2 : JsonLiteral v2) :
    Writes JsonNumber (spanDocument k1 (.string v1) k2 (.string v2)) (b!"{\"data\":[{\"spans\":[{\"" ++ (k1 ++ (b!"\":\"" ++ (v1 ++ (b!"\",\"" ++ (k2 ++ (b!"\":\"" ++ (v2 ++ b!"\"}]}]}")))))))) := by
  have := writes_object1 (key := b!"data") ⟨_, text_json (by decide)⟩ (writes_array1 (writes_object1 (key := b!"spans") ⟨_, text_json (by decide)⟩
    (writes_array1 (writes_object2 hk1 (Writes.string (N := JsonNumber) h1) hk2 (Writes.string h2)))))
  simpa [spanDocument] using this

theorem spanDocument_nesting {k1 k2 v1 v2 : Str} {n : Nat} : Nesting (n + 5) (spanDocument k1 (.string v1) k2 (.string v2)) := by
  refine .object fun m hm => ?_
  rw [List.mem_singleton.mp hm]
  refine .array fun m hm => ?_
  rw [List.mem_singleton.mp hm]
  refine .object fun m hm => ?_
  rw [List.mem_singleton.mp hm]
  refine .array fun m hm => ?_
  rw [List.mem_singleton.mp hm]
  refine .object fun m hm => ?_
  simp only [List.mem_cons, List.not_mem_nil, or_false] at hm
  rcases hm with rfl | rfl <;> exact .string _

/-- What such a document says, given what it says about the span. -/
theorem spanDocument_of {F : List Str → List (Str × Json) → Prop} {I : Json → Int64 → Prop} {inRange : Str → Prop} {k1 k2 : Str} {j1 j2 : Json} {v : JaegerSpan}
    (hF : ∀ fields name j, fields = [b!"data"] ∧ name = b!"data" ∨ fields = [b!"spans", b!"processes"] ∧ name = b!"spans" → F fields [(name, j)])
    (h : JaegerSpanOf F I inRange (.object [(k1, j1), (k2, j2)]) v) : JaegerOf F I inRange (spanDocument k1 j1 k2 j2) [{ spans := [v], processes := ∅ }] := by
  refine .object (nms := [(b!"data", _)]) (.cons ⟨text_utf8 (lit := b!"data") (by decide), rfl⟩ .nil) (hF _ _ _ (.inl ⟨rfl, rfl⟩)) (.inl ⟨_, List.mem_cons_self .., .value (.array (.cons ?_ .nil))⟩)
  refine .object (nms := [(b!"spans", _)]) (.cons ⟨text_utf8 (lit := b!"spans") (by decide), rfl⟩ .nil) (hF _ _ _ (.inr ⟨rfl, rfl⟩)) (.inl ⟨_, List.mem_cons_self .., .value (.array (.cons h .nil))⟩)
    (.inr ⟨by simp, rfl⟩)

deriving instance DecidableEq for JaegerValue, JaegerSpan

/-- The first bytes of a name and of a variant of it. -/
theorem notVariant_head {f k : Str} {a b : UInt8} (h : NameVariant (a :: f) (b :: k)) : toLower a = toLower b ∨ b = 0xC5 ∨ b = 0xE2 := by
  cases h with
  | same => exact .inl rfl
  | lower h1 h2 =>
    left
    have key : ∀ c : UInt8, c!"A" ≤ c → c ≤ c!"Z" → toLower c = toLower (c + 32) := byte_forall (by decide +kernel)
    exact key _ h1 h2
  | upper h1 h2 =>
    left
    have key : ∀ c : UInt8, c!"A" ≤ c → c ≤ c!"Z" → toLower (c + 32) = toLower c := byte_forall (by decide +kernel)
    exact key _ h1 h2
  | longS => exact .inr (.inl rfl)
  | kelvin => exact .inr (.inr rfl)

theorem variant_tail {f k : Str} {a b : UInt8} (h : NameVariant (a :: f) (b :: k)) (hb : b < 0x80) : NameVariant f k := by
  generalize h1 : a :: f = x at h
  generalize h2 : b :: k = y at h
  cases h with
  | nil => cases h1
  | same h => rw [(List.cons.inj h1).2, (List.cons.inj h2).2]; exact h
  | lower _ _ h => rw [(List.cons.inj h1).2, (List.cons.inj h2).2]; exact h
  | upper _ _ h => rw [(List.cons.inj h1).2, (List.cons.inj h2).2]; exact h
  | longS => rw [(List.cons.inj h2).1] at hb; exact absurd hb (by decide)
  | kelvin => rw [(List.cons.inj h2).1] at hb; exact absurd hb (by decide)

theorem clear_outer (fields : List Str) (name : Str) (j : Json) (h : fields = [b!"data"] ∧ name = b!"data" ∨ fields = [b!"spans", b!"processes"] ∧ name = b!"spans") :
    ClearNames fields [(name, j)] := by
  rcases h with ⟨rfl, rfl⟩ | ⟨rfl, rfl⟩
  · refine ⟨by simp, ?_⟩
    intro f hf m hm _
    rw [List.mem_singleton.mp hf, List.mem_singleton.mp hm]
  · refine ⟨by simp, ?_⟩
    intro f hf m hm hv
    rw [List.mem_singleton.mp hm] at hv ⊢
    simp only [List.mem_cons, List.not_mem_nil, or_false] at hf
    rcases hf with rfl | rfl
    · rfl
    · exact absurd (notVariant_head hv) (by decide)

theorem clear_span (j1 j2 : Json) : ClearNames [b!"traceID", b!"spanID", b!"operationName", b!"references", b!"startTime", b!"duration", b!"processID", b!"tags"]
    [(b!"spanID", j1), (b!"operationName", j2)] := by
  refine ⟨by simp, ?_⟩
  intro f hf m hm hv
  simp only [List.mem_cons, List.not_mem_nil, or_false] at hf hm
  rcases hm with rfl | rfl
  · rcases hf with rfl | rfl | rfl | rfl | rfl | rfl | rfl | rfl
    · exact absurd (notVariant_head hv) (by decide)
    · rfl
    · exact absurd (notVariant_head hv) (by decide)
    · exact absurd (notVariant_head hv) (by decide)
    · exact absurd (notVariant_head (variant_tail hv (by decide))) (by decide)
    · exact absurd (notVariant_head hv) (by decide)
    · exact absurd (notVariant_head hv) (by decide)
    · exact absurd (notVariant_head hv) (by decide)
  · rcases hf with rfl | rfl | rfl | rfl | rfl | rfl | rfl | rfl
    · exact absurd (notVariant_head hv) (by decide)
    · exact absurd (notVariant_head hv) (by decide)
    · rfl
    · exact absurd (notVariant_head hv) (by decide)
    · exact absurd (notVariant_head hv) (by decide)
    · exact absurd (notVariant_head hv) (by decide)
    · exact absurd (notVariant_head hv) (by decide)
    · exact absurd (notVariant_head hv) (by decide)

/-- A span with an id and a name. -/
theorem span_of {I : Json → Int64 → Prop} {inRange : Str → Prop} {j : Json} {id : Int64} (h : I j id) :
    JaegerSpanOf ClearNames I inRange (.object [(b!"spanID", j), (b!"operationName", .string b!"get")]) { spanId := id, operationName := b!"get" } :=
  .object (nms := [(b!"spanID", _), (b!"operationName", _)])
    (.cons ⟨text_utf8 (lit := b!"spanID") (by decide), rfl⟩ (.cons ⟨text_utf8 (lit := b!"operationName") (by decide), rfl⟩ .nil))
    (clear_span _ _) (.inr ⟨by simp, rfl⟩) (.inl ⟨_, List.mem_cons_self .., h⟩)
    (.inl ⟨_, List.mem_cons_of_mem _ (List.mem_cons_self ..), .value (.string (text_utf8 (by decide)))⟩)
    (.inr ⟨by simp, rfl⟩) (.inr ⟨by simp, rfl⟩) (.inr ⟨by simp, rfl⟩) (.inr ⟨by simp, rfl⟩) (.inr ⟨by simp, rfl⟩)

/-- A document, with white space before it and something else after it. -/
theorem C76_witness : ∃ (j : Json) (l : List JaegerData) (w t s : Str), Blank w ∧ Writes JsonNumber j t ∧ Nesting 10000 j ∧ JaegerOf ClearNames PlainHexOf (GoNumber fun _ => false) j l ∧
    w ++ t ++ s = b!"\n{\"data\":[{\"spans\":[{\"spanID\":\"1f\",\"operationName\":\"get\"}]}]}]" ∧
    l.map (·.spans) = [[{ spanId := 0x1f, operationName := b!"get" }]] :=
  ⟨_, _, b!"\n", _, b!"]", by decide,
    spanDocument_writes (k1 := b!"spanID") (v1 := b!"1f") (k2 := b!"operationName") (v2 := b!"get") ⟨_, text_json (by decide)⟩ ⟨_, text_json (by decide)⟩ ⟨_, text_json (by decide)⟩
      ⟨_, text_json (by decide)⟩, spanDocument_nesting (n := 9995), spanDocument_of clear_outer (span_of (.string (id := 0x1f) (by decide) (by decide) (by decide))), by decide, rfl⟩

/-! ### Documents that are not read as they should -/

/-- Arrays in each other. -/
def deepArray : Nat → Json
  | 0 => .array []
  | n + 1 => .array [deepArray n]

theorem deepArray_writes (n : Nat) : Writes JsonNumber (deepArray n) (List.replicate (n + 1) c!"[" ++ List.replicate (n + 1) c!"]") := by
  induction n with
  | zero => exact Writes.array (WritesElements.empty (w := []) (by decide))
  | succ n ih =>
    have := writes_array1 ih
    rw [List.replicate_succ (n := n + 1) (a := c!"["), List.replicate_succ' (n := n + 1) (a := c!"]")]
    simpa [deepArray] using this

theorem scanValue_deep (d : Nat) (s : Str) : ∀ fuel, scanValue fuel d (List.replicate (d + 1) c!"[" ++ s) = none := by
  induction d with
  | zero =>
    intro fuel
    cases fuel with
    | zero => rfl
    | succ fuel => rfl
  | succ d ih =>
    intro fuel
    cases fuel with
    | zero => rfl
    | succ fuel =>
      rw [List.replicate_succ, List.cons_append, scanValue, if_neg (by decide), if_pos (by simp), if_neg (by omega)]
      have e : skipSpace (List.replicate (d + 1) c!"[" ++ s) = c!"[" :: (List.replicate d c!"[" ++ s) := by
        rw [List.replicate_succ, List.cons_append, skipSpace_cons (by decide)]
      rw [e]
      simp only
      rw [if_neg (by decide), Nat.add_sub_cancel]
      cases fuel with
      | zero => rfl
      | succ fuel =>
        have := ih fuel
        rw [List.replicate_succ, List.cons_append] at this
        rw [scanElements, this]
        rfl

/-- The full property is false: documents that say one thing and are rejected, or taken for another. Digits of an id may not be written as escapes; a field that the format
does not define overrides one whose name differs only in the case of letters; documents may not be nested more than 10000 levels
deep. Trace ids of 128 bits are not supported. -/
theorem C76_fails :
    (∃ (j : Json) (l : List JaegerData), Writes JsonNumber j b!"{\"data\":[{\"spans\":[{\"spanID\":\"\\u0061\",\"operationName\":\"get\"}]}]}" ∧
      JaegerOf ClearNames HexOf (GoNumber fun _ => false) j l ∧ l.map (·.spans) = [[{ spanId := 0xa, operationName := b!"get" }]] ∧
      RejectsJaeger (fun _ => false) b!"{\"data\":[{\"spans\":[{\"spanID\":\"\\u0061\",\"operationName\":\"get\"}]}]}") ∧
    (∃ (j : Json) (l l' : List JaegerData), Writes JsonNumber j b!"{\"data\":[{\"spans\":[{\"spanID\":\"1\",\"SPANID\":\"2\"}]}]}" ∧
      JaegerOf UniqueNames PlainHexOf (GoNumber fun _ => false) j l ∧ l.map (·.spans) = [[{ spanId := 1 }]] ∧
      ParsesJaeger (fun _ => false) b!"{\"data\":[{\"spans\":[{\"spanID\":\"1\",\"SPANID\":\"2\"}]}]}" (jaegerSpans l') ∧ l'.map (·.spans) = [[{ spanId := 2 }]]) ∧
    (∃ (j : Json) (t : Str), Writes JsonNumber j t ∧ JaegerOf ClearNames PlainHexOf (GoNumber fun _ => false) j [] ∧ RejectsJaeger (fun _ => false) t) ∧
    RejectsJaeger (fun _ => false) b!"{\"data\":[{\"spans\":[{\"traceID\":\"463ac35c9f6413ad48485a3953bb6124\"}]}]}" := by
  refine ⟨⟨_, [{ spans := [{ spanId := 0xa, operationName := b!"get" }], processes := ∅ }], spanDocument_writes (k1 := b!"spanID") (v1 := b!"\\u0061") (k2 := b!"operationName")
    (v2 := b!"get") ⟨_, text_json (by decide)⟩ ⟨_, .unicode (r := 0x61) (by decide) (by decide) .nil⟩ ⟨_, text_json (by decide)⟩ ⟨_, text_json (by decide)⟩, spanDocument_of clear_outer (span_of ?_), rfl,
    rejectsJaeger (by decide +kernel)⟩, ?_, ?_, rejectsJaeger (by decide +kernel)⟩
  · exact .string (v := b!"a") (.unicode (r := 0x61) (by decide) (by decide) .nil) (by decide) (by decide) (by decide)
  · have h : (goDecodeJaeger (fun _ => false) b!"{\"data\":[{\"spans\":[{\"spanID\":\"1\",\"SPANID\":\"2\"}]}]}").map (fun l => l.map (·.spans)) = some [[{ spanId := 2 }]] := by decide +kernel
    obtain ⟨l', h1, h2⟩ := Option.map_eq_some_iff.mp h
    refine ⟨_, _, l', spanDocument_writes (k1 := b!"spanID") (v1 := b!"1") (k2 := b!"SPANID") (v2 := b!"2") ⟨_, text_json (by decide)⟩ ⟨_, text_json (by decide)⟩ ⟨_, text_json (by decide)⟩
      ⟨_, text_json (by decide)⟩, spanDocument_of (v := { spanId := 1 }) ?_ ?_, rfl, parsesJaeger h1, h2⟩
    · intro fields name j _
      simp [UniqueNames]
    · exact .object (nms := [(b!"spanID", _), (b!"SPANID", _)]) (.cons ⟨text_utf8 (lit := b!"spanID") (by decide), rfl⟩ (.cons ⟨text_utf8 (lit := b!"SPANID") (by decide), rfl⟩ .nil))
        (by simp [UniqueNames]) (.inr ⟨by simp, rfl⟩) (.inl ⟨_, List.mem_cons_self .., .string (by decide) (by decide) (by decide)⟩)
        (.inr ⟨by simp, rfl⟩) (.inr ⟨by simp, rfl⟩) (.inr ⟨by simp, rfl⟩) (.inr ⟨by simp, rfl⟩) (.inr ⟨by simp, rfl⟩) (.inr ⟨by simp, rfl⟩)
  · have hw := writes_object1 (N := JsonNumber) (key := b!"x") ⟨_, text_json (by decide)⟩ (deepArray_writes 9999)
    refine ⟨_, _, hw, ?_, rejectsJaeger ?_⟩
    · refine .object (nms := [(b!"x", _)]) (.cons ⟨text_utf8 (lit := b!"x") (by decide), rfl⟩ .nil) ⟨by simp, ?_⟩ (.inr ⟨by simp, rfl⟩)
      intro f hf m hm hv
      rw [List.mem_singleton.mp hm, List.mem_singleton.mp hf] at hv
      exact absurd (notVariant_head hv) (by decide)
    · unfold goDecodeJaeger
      have := scanValue_deep 9999 (List.replicate 10000 c!"]" ++ b!"}")
      generalize hd : List.replicate 10000 c!"[" ++ List.replicate 10000 c!"]" = deep at *
      generalize (b!"{\"" ++ (b!"x" ++ (b!"\":" ++ (deep ++ b!"}")))).length = n
      rw [← List.append_assoc, hd] at this
      simp only [List.cons_append, List.nil_append] at this ⊢
      have hsp : skipSpace (deep ++ [c!"}"]) = deep ++ [c!"}"] := by
        rw [← hd, List.replicate_succ]
        exact skipSpace_cons (by decide) _
      have h2 : scanValue (n + 1) maxNestingDepth (skipSpace (c!"{" :: c!"\"" :: c!"x" :: c!"\"" :: c!":" :: (deep ++ [c!"}"]))) = none := by
        rw [skipSpace_cons (by decide), scanValue, if_pos (by simp), if_neg (by decide), skipSpace_cons (by decide)]
        simp only
        rw [if_neg (by decide)]
        cases n with
        | zero => rfl
        | succ n =>
          rw [scanMembers, if_neg (by simp), show scanLit (c!"x" :: c!"\"" :: c!":" :: (deep ++ [c!"}"])) = some ([c!"x"], c!":" :: (deep ++ [c!"}"])) from scanLit_json (text_json (lit := b!"x") (by decide)) _]
          simp only
          rw [skipSpace_cons (by decide)]
          simp only
          rw [if_neg (by simp), hsp, show maxNestingDepth - 1 = 9999 from rfl, this]
          rfl
      rw [h2]
      rfl

/-- A field that occurs twice: the second one is stored over the first one, so that a span gets the name of another one. An empty array in between, or a null,
prevents this; if it comes last, nothing is left. -/
theorem C76_repeated :
    (∃ l : List JaegerData,
      ParsesJaeger (fun _ => false) b!"{\"data\":[{\"spans\":[{\"spanID\":\"1\",\"operationName\":\"get\"}],\"spans\":[{\"spanID\":\"2\"}]}]}" (jaegerSpans l) ∧
      l.map (·.spans) = [[{ spanId := 2, operationName := b!"get" }]]) ∧
    (∃ l : List JaegerData,
      ParsesJaeger (fun _ => false) b!"{\"data\":[{\"spans\":[{\"spanID\":\"1\",\"operationName\":\"get\"}],\"spans\":[],\"spans\":[{\"spanID\":\"2\"}]}]}" (jaegerSpans l) ∧
      l.map (·.spans) = [[{ spanId := 2 }]]) ∧
    (∃ l : List JaegerData,
      ParsesJaeger (fun _ => false) b!"{\"data\":[{\"spans\":[{\"spanID\":\"1\",\"operationName\":\"get\"}],\"spans\":null,\"spans\":[{\"spanID\":\"2\"}]}]}" (jaegerSpans l) ∧
      l.map (·.spans) = [[{ spanId := 2 }]]) ∧
    (∃ l : List JaegerData,
      ParsesJaeger (fun _ => false) b!"{\"data\":[{\"spans\":[{\"spanID\":\"1\",\"operationName\":\"get\"}],\"spans\":[]}]}" (jaegerSpans l) ∧ l.map (·.spans) = [[]]) := by
  have key : ∀ {data : Str} {r : List (List JaegerSpan)}, (goDecodeJaeger (fun _ => false) data).map (fun l => l.map (·.spans)) = some r →
      ∃ l, ParsesJaeger (fun _ => false) data (jaegerSpans l) ∧ l.map (·.spans) = r := by
    intro data r h
    obtain ⟨l, h1, h2⟩ := Option.map_eq_some_iff.mp h
    exact ⟨l, parsesJaeger h1, h2⟩
  exact ⟨key (by decide +kernel), key (by decide +kernel), key (by decide +kernel), key (by decide +kernel)⟩

end Verif
