import Verif.Proofs.Pool

/-!
# Documents of the Zipkin formats (C26, C27, C28)
-/

namespace Verif

open Spec

/-! ## C26: version 2 -/

/-- A request of version 2 with this body, however delivered, is answered with these spans. -/
def ParsesV2 (data : Str) (spans : List Span) : Prop :=
  ∀ (newCap : Nat → Nat → Nat) (r : Reader) (buf : List UInt8), r.data = data → TokensFit buf.length data → 0 < buf.length →
    Returns (fun fuel => parseJsonV2 newCap fuel r buf) (.spans spans)

/-- A request of version 2 with this body, however delivered, is rejected. -/
def RejectsV2 (data : Str) : Prop :=
  ∀ (newCap : Nat → Nat → Nat) (r : Reader) (buf : List UInt8), r.data = data → TokensFit buf.length data → 0 < buf.length →
    Returns (fun fuel => parseJsonV2 newCap fuel r buf) .err

theorem toSpanV2_means (v : SpanV2) : MeansV2 v v.toSpan := by
  obtain ⟨h1, h2, h3, h4, h5, _, h7, h8⟩ := toSpanV2_spec v
  exact ⟨h1, h2, h3, h4, h5, h7, h8⟩

theorem pairwise_const {α β : Type} {vs : List α} {us : List α} (P : β → Prop) (h : Pairwise₂ (fun (f : β → α) v => ∃ a, P a ∧ v = f a) (vs.map fun v _ => v) us) : us = vs := by
  induction vs generalizing us with
  | nil => cases h; rfl
  | cons v vs ih =>
    cases h with
    | cons h1 h2 =>
      obtain ⟨_, _, rfl⟩ := h1
      rw [ih h2]

theorem pairwise_map {α β : Type} {R : α → β → Prop} (f : α → β) (h : ∀ a, R a (f a)) (l : List α) : Pairwise₂ R l (l.map f) := by
  induction l with
  | nil => exact .nil
  | cons a l ih => exact .cons (h a) ih

theorem pairwise_spansV2 {S : Str → Str → Prop} (hS : Readable S) {l : List Json} {vs : List SpanV2} (h : Pairwise₂ (SpanV2Of S) l vs) :
    Pairwise₂ (fun j f => ∀ a, True → ReadsJson spanV2ValueDecoder j a (f a)) l (vs.map fun v _ => v) := by
  induction h with
  | nil => exact .nil
  | cons h _ ih => exact .cons (fun a _ => reads_spanV2 hS h a) ih

theorem parsesV2 {S : Str → Str → Prop} (hS : Readable S) {l : List Json} {vs : List SpanV2} {w t s : Str} (hw : Blank w)
    (ht : Writes PlainNumber (.array l) t) (hd : Pairwise₂ (SpanV2Of S) l vs) : ParsesV2 (w ++ (t ++ s)) (vs.map SpanV2.toSpan) := by
  intro newCap r buf hr hfit h0
  cases ht with
  | array ht =>
    have hfresh : Fresh ({} : SpanV2) (fun _ => True) 0 { cells := [], len := 0 } := ⟨rfl, Nat.zero_le _, fun _ _ => trivial⟩
    obtain ⟨N, hN⟩ := sliceLoop_reads (newCap := newCap) (good := fun _ => True) trivial (pairwise_spansV2 hS hd) hfresh ht
    obtain ⟨E, hE⟩ := runs_of_stream (N := N) (b := false) (fun fuel => decoderSliceSpanV2 newCap fuel { cells := [], len := 0 }) (fun fuel hf => by
      unfold decoderSliceSpanV2 makeSliceDecoder
      simp only [List.cons_append, List.append_assoc, List.nil_append]
      rw [stream_consume (sep_blank hw) (c := c!"[") (by decide) (t := .arrayBegin) (by decide)]
      exact hN fuel fuel hf hf [] s false Sep.nil) r buf hr hfit h0
    refine ⟨E, fun fuel hf => ?_⟩
    obtain ⟨p, e, _⟩ := hE fuel hf
    obtain ⟨_, us, e1, e2⟩ := pushAll_spec (newCap := newCap) (zero := ({} : SpanV2)) (good := fun _ => True) trivial (vs.map fun v _ => v) hfresh
    simp only [parseJsonV2, e, e1, pairwise_const _ e2]
    rfl

/-- A document of version 2 — any white space, any order of fields, unknown fields with any value, anything after the document — is answered with
exactly its spans, in order. (Missing: strings with escapes of control characters or surrogate pairs, and numbers written with `E` or `+`;
see `C26_fails`.) -/
theorem C26_v2_partial {l : List Json} {vs : List SpanV2} {w t s : Str} (hw : Blank w) (ht : Writes PlainNumber (.array l) t)
    (hd : Pairwise₂ (SpanV2Of PlainString) l vs) : ∃ spans, Pairwise₂ MeansV2 vs spans ∧ ParsesV2 (w ++ (t ++ s)) spans :=
  ⟨_, pairwise_map _ toSpanV2_means vs, parsesV2 readable_plain hw ht hd⟩

/-! ### Strings and numbers that are not read as they should -/

theorem text_plain {lit : Str} (h : ∀ c ∈ lit, c ≠ c!"\"" ∧ c ≠ c!"\\" ∧ 0x20 ≤ c) : PlainString lit lit := by
  induction lit with
  | nil => exact .nil
  | cons c lit ih =>
    obtain ⟨h1, h2, h3⟩ := h c (by simp)
    exact .char h1 h2 h3 (ih fun x hx => h x (by simp [hx]))

theorem text_json {lit : Str} (h : ∀ c ∈ lit, c ≠ c!"\"" ∧ c ≠ c!"\\" ∧ 0x20 ≤ c) : JsonString lit lit := by
  induction lit with
  | nil => exact .nil
  | cons c lit ih =>
    obtain ⟨h1, h2, h3⟩ := h c (by simp)
    exact .char h1 h2 h3 (ih fun x hx => h x (by simp [hx]))

theorem text_unescape {lit : Str} (h : ∀ c ∈ lit, c ≠ c!"\"" ∧ c ≠ c!"\\" ∧ 0x20 ≤ c) : unescape lit = some lit := readable_plain _ _ (text_plain h)

/-- An array with one object with one member, without white space. -/
theorem writes_one {N : Str → Prop} {key t : Str} {j : Json} (hk : JsonLiteral key) (h : Writes N j t) :
    Writes N (.array [.object [(key, j)]]) (b!"[{\"" ++ (key ++ (b!"\":" ++ (t ++ b!"}]")))) := by
  have := Writes.array (WritesElements.last (w := []) (w' := []) (by decide)
    (Writes.object (WritesMembers.last (w := []) (w1 := []) (w2 := []) (w' := []) (by decide) hk (by decide) (by decide) h (by decide))) (by decide))
  simpa using this

/-- The literal `a\nb`. -/
theorem newline_json : JsonString b!"a\\nb" [c!"a", 0x0A, c!"b"] :=
  .char (by decide) (by decide) (by decide) (.short (by decide) (.char (by decide) (by decide) (by decide) .nil))

/-- As `sliceLoop_reads`, for programs that fail on a stream. -/
theorem rejectsV2 {data : Str} {m : (Nat → Nat → Nat) → GoSlice SpanV2} {fuel : Nat}
    (h : ∀ newCap, (decoderSliceSpanV2 newCap fuel { cells := [], len := 0 }).stream false data = .err (m newCap)) : RejectsV2 data := by
  intro newCap r buf hr hfit h0
  obtain ⟨E, hE⟩ := fails_of_stream (N := fuel) (fun fuel => decoderSliceSpanV2 newCap fuel { cells := [], len := 0 }) (fun fuel' hf => by
    rw [(decoderSliceSpanV2_le newCap hf _).stream _ _ (by rw [h newCap]; simp)]
    exact h newCap) r buf hr hfit h0
  refine ⟨E, fun fuel hf => ?_⟩
  obtain ⟨p, e⟩ := hE fuel hf
  simp only [parseJsonV2, e]

/-- The property as stated does not hold. In the name `"a\nb"`, the newline becomes the letter `n`; a document with an unknown field with the number
`1E5` is rejected; so is one with a trace id of 128 bits. -/
theorem C26_fails :
    (∃ (l : List Json) (v : SpanV2) (s : Span), Writes PlainNumber (.array l) b!"[{\"name\":\"a\\nb\"}]" ∧ Pairwise₂ (SpanV2Of JsonString) l [v] ∧
      v.name = [c!"a", 0x0A, c!"b"] ∧ ParsesV2 b!"[{\"name\":\"a\\nb\"}]" [s] ∧ s.name = b!"anb") ∧
    (∃ (l : List Json), Writes JsonNumber (.array l) b!"[{\"x\":1E5}]" ∧ Pairwise₂ (SpanV2Of JsonString) l [{}] ∧
      RejectsV2 b!"[{\"x\":1E5}]") ∧
    RejectsV2 b!"[{\"traceId\":\"463ac35c9f6413ad48485a3953bb6124\"}]" := by
  have hname : JsonString b!"name" b!"name" := text_json (by decide)
  have hw : Writes PlainNumber _ _ := writes_one ⟨_, hname⟩ (.string ⟨_, newline_json⟩)
  refine ⟨⟨_, { name := [c!"a", 0x0A, c!"b"] }, _, hw, .cons ?_ .nil, rfl,
    parsesV2 (S := fun lit v => unescape lit = some v) (fun _ _ h => h) (w := []) (s := []) (vs := [{ name := b!"anb" }]) (by decide) hw (.cons ?_ .nil), rfl⟩, ?_, ?_⟩
  · refine .object (nms := [(b!"name", _)]) (.cons ⟨hname, rfl⟩ .nil) (by decide) ?_ ?_ ?_ ?_ ?_ (.inl ⟨_, List.mem_cons_self .., .string newline_json⟩) ?_ ?_ ?_
    all_goals exact .inr ⟨by decide, rfl⟩
  · refine .object (nms := [(b!"name", _)]) (.cons ⟨rfl, rfl⟩ .nil) (by decide) ?_ ?_ ?_ ?_ ?_ (.inl ⟨_, List.mem_cons_self .., .string rfl⟩) ?_ ?_ ?_
    all_goals exact .inr ⟨by decide, rfl⟩
  · have n1 : JsonNumber b!"1E5" := ⟨[], b!"1", [], b!"E5", rfl, .inl rfl, ⟨by decide, .inr (by decide)⟩, .inl rfl,
      .inr ⟨c!"E", [], b!"5", rfl, .inr rfl, .inl rfl, by decide⟩⟩
    have hx : JsonString b!"x" b!"x" := text_json (by decide)
    refine ⟨_, writes_one ⟨_, hx⟩ (.number n1), .cons ?_ .nil, rejectsV2 (fuel := 10) (m := fun newCap => _) fun newCap => rfl⟩
    refine .object (nms := [(b!"x", _)]) (.cons ⟨hx, rfl⟩ .nil) (by decide) ?_ ?_ ?_ ?_ ?_ ?_ ?_ ?_ ?_
    all_goals exact .inr ⟨by decide, rfl⟩
  · exact rejectsV2 (fuel := 10) (m := fun newCap => _) fun newCap => rfl

/-! ### A document -/

/-- The last member of an object, without white space. -/
theorem writes_last {N : Str → Prop} {key t : Str} {j : Json} (hk : ∀ c ∈ key, c ≠ c!"\"" ∧ c ≠ c!"\\" ∧ 0x20 ≤ c) (h : Writes N j t) :
    WritesMembers N [(key, j)] (b!"\"" ++ (key ++ (b!"\":" ++ t))) := by
  have := WritesMembers.last (w := []) (w1 := []) (w2 := []) (w' := []) (by decide) ⟨key, text_json hk⟩ (by decide) (by decide) h (by decide)
  simpa using this

/-- A member of an object with a comma, without white space. -/
theorem writes_comma {N : Str → Prop} {key t u : Str} {j : Json} {m : Str × Json} {l : List (Str × Json)}
    (hk : ∀ c ∈ key, c ≠ c!"\"" ∧ c ≠ c!"\\" ∧ 0x20 ≤ c) (h : Writes N j t) (hl : WritesMembers N (m :: l) u) :
    WritesMembers N ((key, j) :: m :: l) (b!"\"" ++ (key ++ (b!"\":" ++ (t ++ (b!"," ++ u))))) := by
  have := WritesMembers.cons (w := []) (w1 := []) (w2 := []) (w' := []) (by decide) ⟨key, text_json hk⟩ (by decide) (by decide) h (by decide) hl
  simpa using this

theorem digits_plain {t : Str} (h : Digits t) (h0 : t.head? ≠ some c!"0") : PlainNumber t :=
  ⟨⟨[], t, [], [], by simp, .inl rfl, ⟨h, .inr h0⟩, .inl rfl, .inl rfl⟩,
    fun he => absurd (h.2 _ he) (by decide), fun he => absurd (h.2 _ he) (by decide)⟩

theorem writes_text {N : Str → Prop} {lit : Str} (h : ∀ c ∈ lit, c ≠ c!"\"" ∧ c ≠ c!"\\" ∧ 0x20 ≤ c) : Writes N (.string lit) (b!"\"" ++ (lit ++ b!"\"")) :=
  .string ⟨_, text_json h⟩

theorem stringOf_text {lit : Str} (h : ∀ c ∈ lit, c ≠ c!"\"" ∧ c ≠ c!"\\" ∧ 0x20 ≤ c) : StringOf PlainString (.string lit) lit := .string (text_plain h)

/-- A document with two spans, with fields in another order, an unknown field, and white space. -/
theorem C26_witness :
    let data := b!" [ {\"id\":\"2\",\"x\":[1],\"name\":\"get\",\"timestamp\":1700,\"tags\":{\"k\":\"v\"},\"kind\":\"CLIENT\",\"traceId\":\"1F\",\"localEndpoint\":{\"serviceName\":\"web\"}} ,{}]"
    ∃ (l : List Json) (v : SpanV2) (w t : Str), data = w ++ (t ++ []) ∧ Blank w ∧ Writes PlainNumber (.array l) t ∧
      Pairwise₂ (SpanV2Of PlainString) l [v, {}] ∧ v.id = 2 ∧ v.traceId = 31 ∧ v.parentId = 0 ∧ v.timestamp = 1700 ∧ v.name = b!"get" ∧
      v.tags = some ((∅ : TagMap).insert b!"k" b!"v") ∧ v.kind = b!"CLIENT" ∧ v.endpoint.serviceName = b!"web" := by
  let ms : List (Str × Json) := [(b!"id", .string b!"2"), (b!"x", .array [.number b!"1"]), (b!"name", .string b!"get"), (b!"timestamp", .number b!"1700"),
    (b!"tags", .object [(b!"k", .string b!"v")]), (b!"kind", .string b!"CLIENT"), (b!"traceId", .string b!"1F"),
    (b!"localEndpoint", .object [(b!"serviceName", .string b!"web")])]
  have w1 : Writes PlainNumber (.array [.number b!"1"]) b!"[1]" :=
    .array (.last (w := []) (w' := []) (by decide) (.number (digits_plain (by decide) (by decide))) (by decide))
  have w2 : WritesMembers PlainNumber ms _ :=
    writes_comma (by decide) (writes_text (by decide)) <| writes_comma (by decide) w1 <| writes_comma (by decide) (writes_text (by decide)) <|
    writes_comma (by decide) (.number (digits_plain (by decide) (by decide))) <|
    writes_comma (by decide) (.object (writes_last (by decide) (writes_text (by decide)))) <|
    writes_comma (by decide) (writes_text (by decide)) <| writes_comma (by decide) (writes_text (by decide)) <|
    writes_last (by decide) (.object (writes_last (by decide) (writes_text (by decide))))
  let v : SpanV2 := { id := 2, traceId := 31, timestamp := 1700, name := b!"get", tags := some ((∅ : TagMap).insert b!"k" b!"v"), kind := b!"CLIENT", endpoint := { serviceName := b!"web" } }
  refine ⟨[.object ms, .object []], v, b!" ", _, ?_, by decide,
    .array (.cons (w := b!" ") (w' := b!" ") (by decide) (.object w2) (by decide) (.last (w := []) (w' := []) (by decide) (.object (.empty (w := []) (by decide))) (by decide))),
    .cons ?_ (.cons ?_ .nil), rfl, rfl, rfl, rfl, rfl, rfl, rfl, rfl⟩
  · rfl
  · refine .object (nms := ms) ?_ (by decide) (.inl ⟨.string b!"2", by simp [ms], .string (text_plain (by decide)) (by decide) (by decide) (by decide)⟩)
      (.inl ⟨.string b!"1F", by simp [ms], .string (text_plain (by decide)) (by decide) (by decide) (by decide)⟩) (.inr ⟨by decide, rfl⟩)
      (.inl ⟨.number b!"1700", by simp [ms], .number (by decide) (by decide)⟩) (.inr ⟨by decide, rfl⟩)
      (.inl ⟨.string b!"get", by simp [ms], stringOf_text (by decide)⟩)
      (.inl ⟨.object [(b!"k", .string b!"v")], by simp [ms], .object (pairs := [(b!"k", b!"v")]) (.cons ⟨text_plain (by decide), stringOf_text (by decide)⟩ .nil) (by simp) ?_⟩)
      (.inl ⟨.string b!"CLIENT", by simp [ms], stringOf_text (by decide)⟩)
      (.inl ⟨.object [(b!"serviceName", .string b!"web")], by simp [ms], .object (nms := [(b!"serviceName", .string b!"web")])
        (.cons ⟨text_plain (by decide), rfl⟩ .nil) (by decide) (.inl ⟨_, List.mem_cons_self .., stringOf_text (by decide)⟩)⟩)
    · exact .cons ⟨text_plain (by decide), rfl⟩ <| .cons ⟨text_plain (by decide), rfl⟩ <| .cons ⟨text_plain (by decide), rfl⟩ <|
        .cons ⟨text_plain (by decide), rfl⟩ <| .cons ⟨text_plain (by decide), rfl⟩ <| .cons ⟨text_plain (by decide), rfl⟩ <|
        .cons ⟨text_plain (by decide), rfl⟩ <| .cons ⟨text_plain (by decide), rfl⟩ .nil
    · intro key
      show ((∅ : TagMap).insert b!"k" b!"v")[key]? = _
      rw [get_insert]
      simp only [last?]
      by_cases hk : key = b!"k"
      · subst hk; rfl
      · rw [if_neg (fun e => hk e.symm), List.filter_cons_of_neg (by simpa using fun e => hk e.symm)]
        rfl
  · refine .object (nms := []) .nil (by decide) ?_ ?_ ?_ ?_ ?_ ?_ ?_ ?_ ?_
    all_goals exact .inr ⟨by decide, rfl⟩

/-! ## C27: version 1 -/

/-- A request of version 1 with this body, however delivered, on this pooled slice, is answered with these spans and leaves this in the pool. -/
def ParsesV1 (newCap : Nat → Nat → Nat) (data : Str) (pool : List SpanV1) (spans : List Span) (pool' : List SpanV1) : Prop :=
  ∀ (r : Reader) (buf : List UInt8), r.data = data → TokensFit buf.length data → 0 < buf.length →
    Returns (fun fuel => parseJsonV1 newCap fuel r buf pool) (.spans spans, pool')

/-- A request of version 1 with this body, however delivered and on whatever pooled slice, is rejected. -/
def RejectsV1 (data : Str) : Prop :=
  ∀ (newCap : Nat → Nat → Nat) (r : Reader) (buf : List UInt8) (pool : List SpanV1), r.data = data → TokensFit buf.length data → 0 < buf.length →
    Returns (fun fuel => (parseJsonV1 newCap fuel r buf pool).1) .err

theorem toSpanV1_means (v : SpanV1) : MeansV1 v v.toSpan := by
  obtain ⟨h1, h2, h3, h4, h5, _, h7, h8⟩ := toSpanV1_spec v
  exact ⟨h1, h2, h3, h4, h5, h7, h8⟩

/-- All spans of a pooled slice have nothing behind their binary annotations. -/
def CleanPool (pool : List SpanV1) : Prop := ∀ s ∈ pool, Clean s

theorem cleanPool_getD {pool : List SpanV1} : CleanPool pool ↔ ∀ i, Clean (pool.getD i {}) := by
  constructor
  · intro h i
    rw [List.getD_eq_getElem?_getD]
    cases e : pool[i]? with
    | none => exact clean_default
    | some s => exact h s (List.mem_of_getElem? e)
  · intro h s hs
    obtain ⟨i, hi⟩ := List.getElem?_of_mem hs
    have := h i
    rwa [List.getD_eq_getElem?_getD, hi] at this

theorem decodedV1_spec (newCap : Nat → Nat → Nat) {present : Bool} {v a : SpanV1} (hp : present = false → v.binaryAnnotations.elems = []) (ha : Clean a) :
    (decodedV1 newCap present v a).toSpan = v.toSpan ∧ Clean (decodedV1 newCap present v a) := by
  have hf := reset_fresh ha
  have e0 : a.reset.binaryAnnotations.elems = [] := rfl
  cases present with
  | false =>
    refine ⟨?_, ?_⟩
    · simp only [decodedV1, SpanV1.toSpan, hp rfl]
      rfl
    · obtain ⟨h1, h2, h3⟩ := hf
      exact ⟨Nat.zero_le _, fun i _ => h3 i (Nat.zero_le _)⟩
  | true =>
    obtain ⟨⟨h1, h2, h3⟩, us, e1, e2⟩ := pushAll_spec (newCap := newCap) (good := (· = {})) rfl (v.binaryAnnotations.elems.map fun v _ => v) hf
    have e3 := pairwise_const _ e2
    rw [e0, List.nil_append, e3] at e1
    refine ⟨?_, ?_⟩
    · simp only [decodedV1, SpanV1.toSpan, if_true, e1]
    · simp only [decodedV1, Clean, if_true]
      rw [h1]
      exact ⟨h2, h3⟩

theorem pairwise_spansV1 {S : Str → Str → Prop} (hS : Readable S) (newCap : Nat → Nat → Nat) {l : List Json} {vs : List SpanV1} (h : Pairwise₂ (SpanV1Of S) l vs) :
    ∃ fs : List (SpanV1 → SpanV1), Pairwise₂ (fun j f => ∀ a, Clean a → ReadsJson (spanV1ValueDecoder newCap) j a (f a)) l fs ∧
      Pairwise₂ (fun v f => ∀ a, Clean a → (f a).toSpan = v.toSpan ∧ Clean (f a)) vs fs := by
  induction h with
  | nil => exact ⟨[], .nil, .nil⟩
  | cons h _ ih =>
    obtain ⟨fs, h1, h2⟩ := ih
    obtain ⟨present, hp, hr⟩ := reads_spanV1 hS newCap h
    exact ⟨_ :: fs, .cons hr h1, .cons (fun a ha => decodedV1_spec newCap hp ha) h2⟩

theorem pairwise_results {vs us : List SpanV1} {fs : List (SpanV1 → SpanV1)} (h : Pairwise₂ (fun v f => ∀ a, Clean a → (f a).toSpan = v.toSpan ∧ Clean (f a)) vs fs)
    (hu : Pairwise₂ (fun f u => ∃ a, Clean a ∧ u = f a) fs us) : us.map SpanV1.toSpan = vs.map SpanV1.toSpan ∧ ∀ u ∈ us, Clean u := by
  induction h generalizing us with
  | nil => cases hu; exact ⟨rfl, by simp⟩
  | cons h _ ih =>
    cases hu with
    | cons h1 h2 =>
      obtain ⟨a, ha, rfl⟩ := h1
      obtain ⟨g1, g2⟩ := ih h2
      obtain ⟨k1, k2⟩ := h a ha
      refine ⟨by rw [List.map_cons, List.map_cons, g1, k1], ?_⟩
      intro u hu
      rcases List.mem_cons.mp hu with rfl | hu
      · exact k2
      · exact g2 u hu

theorem parsesV1 {S : Str → Str → Prop} (hS : Readable S) (newCap : Nat → Nat → Nat) {pool : List SpanV1} (hp : CleanPool pool) {l : List Json} {vs : List SpanV1}
    {w t s : Str} (hw : Blank w) (ht : Writes PlainNumber (.array l) t) (hd : Pairwise₂ (SpanV1Of S) l vs) :
    ∃ pool', CleanPool pool' ∧ pool'.length = pool.length ∧ ParsesV1 newCap (w ++ (t ++ s)) pool (vs.map SpanV1.toSpan) pool' := by
  cases ht with
  | array ht =>
    obtain ⟨fs, hf1, hf2⟩ := pairwise_spansV1 hS newCap hd
    have hfresh : Fresh ({} : SpanV1) Clean 0 { cells := pool, len := 0 } := ⟨rfl, Nat.zero_le _, fun i _ => cleanPool_getD.mp hp i⟩
    obtain ⟨N, hN⟩ := sliceLoop_reads (newCap := newCap) clean_default hf1 hfresh ht
    obtain ⟨⟨k1, k2, k3⟩, us, e1, e2⟩ := pushAll_spec (newCap := newCap) clean_default fs hfresh
    obtain ⟨e3, e4⟩ := pairwise_results hf2 e2
    have e5 : (pushAll newCap {} fs 0 { cells := pool, len := 0 }).elems = us := by rw [e1]; rfl
    have hlen := pushAll_cap newCap ({} : SpanV1) fs 0 { cells := pool, len := 0 }
    refine ⟨(pushAll newCap {} fs 0 { cells := pool, len := 0 }).cells.take pool.length, ?_, by rw [List.length_take]; exact Nat.min_eq_left hlen, fun r buf hr hfit h0 => ?_⟩
    · intro x hx
      have hx := List.mem_of_mem_take hx
      obtain ⟨i, hi⟩ := List.getElem?_of_mem hx
      by_cases hl : i < (pushAll newCap {} fs 0 { cells := pool, len := 0 }).len
      · refine e4 x ?_
        rw [← e5]
        refine List.mem_of_getElem? (i := i) ?_
        rw [GoSlice.elems, List.getElem?_take, if_pos hl]
        exact hi
      · have := k3 i (by omega)
        rwa [List.getD_eq_getElem?_getD, hi] at this
    · obtain ⟨E, hE⟩ := runs_of_stream (N := N) (b := false) (fun fuel => decoderSliceSpanV1 newCap fuel { cells := pool, len := 0 }) (fun fuel hf => by
        unfold decoderSliceSpanV1 makeSliceDecoder
        simp only [List.cons_append, List.append_assoc, List.nil_append]
        rw [stream_consume (sep_blank hw) (c := c!"[") (by decide) (t := .arrayBegin) (by decide)]
        exact hN fuel fuel hf hf [] s false Sep.nil) r buf hr hfit h0
      refine ⟨E, fun fuel hf => ?_⟩
      obtain ⟨p, e, _⟩ := hE fuel hf
      simp only [parseJsonV1, e, e5, e3]

/-- A document of version 1 — any white space, any order of fields, unknown fields with any value, anything after the document — decoded into clean
pooled memory is answered with exactly its spans, in order; and the memory stays clean. (Missing: strings with escapes of control characters or
surrogate pairs, numbers written with `E` or `+`, see `C27_fails`; and memory that is not clean, see `C28_leaks`.) -/
theorem C27_v1_partial (newCap : Nat → Nat → Nat) {pool : List SpanV1} (hp : CleanPool pool) {l : List Json} {vs : List SpanV1} {w t s : Str}
    (hw : Blank w) (ht : Writes PlainNumber (.array l) t) (hd : Pairwise₂ (SpanV1Of PlainString) l vs) :
    ∃ spans pool', Pairwise₂ MeansV1 vs spans ∧ CleanPool pool' ∧ ParsesV1 newCap (w ++ (t ++ s)) pool spans pool' := by
  obtain ⟨pool', h1, _, h2⟩ := parsesV1 readable_plain newCap hp hw ht hd (s := s)
  exact ⟨_, pool', pairwise_map _ toSpanV1_means vs, h1, h2⟩

theorem rejectsV1 {data : Str} {m : (Nat → Nat → Nat) → List SpanV1 → GoSlice SpanV1} {fuel : Nat}
    (h : ∀ newCap pool, (decoderSliceSpanV1 newCap fuel { cells := pool, len := 0 }).stream false data = .err (m newCap pool)) : RejectsV1 data := by
  intro newCap r buf pool hr hfit h0
  obtain ⟨E, hE⟩ := fails_of_stream (N := fuel) (fun fuel => decoderSliceSpanV1 newCap fuel { cells := pool, len := 0 }) (fun fuel' hf => by
    rw [(decoderSliceSpanV1_le newCap hf _).stream _ _ (by rw [h newCap]; simp)]
    exact h newCap pool) r buf hr hfit h0
  refine ⟨E, fun fuel hf => ?_⟩
  obtain ⟨p, e⟩ := hE fuel hf
  simp only [parseJsonV1, e]

/-- The property as stated does not hold, for the same reasons as in version 2. Moreover, a binary annotation with the number `1E5` as its value is
rejected. -/
theorem C27_fails :
    (∃ (l : List Json) (v : SpanV1) (s : Span), Writes PlainNumber (.array l) b!"[{\"name\":\"a\\nb\"}]" ∧ Pairwise₂ (SpanV1Of JsonString) l [v] ∧
      v.name = [c!"a", 0x0A, c!"b"] ∧ s.name = b!"anb" ∧
      ∀ newCap pool, CleanPool pool → ∃ pool', ParsesV1 newCap b!"[{\"name\":\"a\\nb\"}]" pool [s] pool') ∧
    (∃ (l : List Json) (v : SpanV1), Writes JsonNumber (.array l) b!"[{\"binaryAnnotations\":[{\"value\":1E5}]}]" ∧
      Pairwise₂ (SpanV1Of JsonString) l [v] ∧ RejectsV1 b!"[{\"binaryAnnotations\":[{\"value\":1E5}]}]") ∧
    RejectsV1 b!"[{\"traceId\":\"463ac35c9f6413ad48485a3953bb6124\"}]" := by
  have hname : JsonString b!"name" b!"name" := text_json (by decide)
  have hw : Writes PlainNumber _ _ := writes_one ⟨_, hname⟩ (.string ⟨_, newline_json⟩)
  refine ⟨⟨_, { name := [c!"a", 0x0A, c!"b"] }, SpanV1.toSpan { name := b!"anb" }, hw, .cons ?_ .nil, rfl, rfl, fun newCap pool hp => ?_⟩, ?_, ?_⟩
  · refine .object (nms := [(b!"name", _)]) (.cons ⟨hname, rfl⟩ .nil) (by decide) ?_ ?_ ?_ ?_ ?_ (.inl ⟨_, List.mem_cons_self .., .string newline_json⟩) ?_ ?_
    all_goals exact .inr ⟨by decide, rfl⟩
  · obtain ⟨pool', _, _, h⟩ := parsesV1 (S := fun lit v => unescape lit = some v) (fun _ _ h => h) newCap hp (w := []) (s := []) (vs := [{ name := b!"anb" }])
      (by decide) hw (.cons (by
        refine .object (nms := [(b!"name", _)]) (.cons ⟨rfl, rfl⟩ .nil) (by decide) ?_ ?_ ?_ ?_ ?_ (.inl ⟨_, List.mem_cons_self .., .string rfl⟩) ?_ ?_
        all_goals exact .inr ⟨by decide, rfl⟩) .nil)
    exact ⟨pool', h⟩
  · have n1 : JsonNumber b!"1E5" := ⟨[], b!"1", [], b!"E5", rfl, .inl rfl, ⟨by decide, .inr (by decide)⟩, .inl rfl,
      .inr ⟨c!"E", [], b!"5", rfl, .inr rfl, .inl rfl, by decide⟩⟩
    have hb : JsonString b!"binaryAnnotations" b!"binaryAnnotations" := text_json (by decide)
    have hv : JsonString b!"value" b!"value" := text_json (by decide)
    refine ⟨_, { binaryAnnotations := { cells := [{ value := b!"1E5" }], len := 1 } }, writes_one ⟨_, hb⟩ (writes_one ⟨_, hv⟩ (.number n1)), .cons ?_ .nil,
      rejectsV1 (fuel := 12) (m := fun newCap pool => _) fun newCap pool => rfl⟩
    refine .object (nms := [(b!"binaryAnnotations", _)]) (.cons ⟨hb, rfl⟩ .nil) (by decide) ?_ ?_ ?_ ?_ ?_ ?_ ?_
      (.inl ⟨_, List.mem_cons_self .., .array (.cons (.object (nms := [(b!"value", _)]) (.cons ⟨hv, rfl⟩ .nil) (by decide) (.inr ⟨by decide, rfl⟩)
        (.inl ⟨_, List.mem_cons_self .., .number _⟩) (.inr ⟨by decide, rfl⟩)) .nil)⟩)
    all_goals exact .inr ⟨by decide, rfl⟩
  · exact rejectsV1 (fuel := 10) (m := fun newCap pool => _) fun newCap pool => rfl

/-- A document with five annotations, of which the last counts for nothing, and a binary annotation with a number. -/
theorem C27_witness :
    let data := b!"[{\"annotations\":[{\"value\":\"cs\",\"timestamp\":5},{},{},{},7],\"binaryAnnotations\":[{\"key\":\"n\",\"value\":12}],\"id\":\"2\"}]"
    ∃ (l : List Json) (v : SpanV1) (t : Str), data = [] ++ (t ++ []) ∧ Writes PlainNumber (.array l) t ∧ Pairwise₂ (SpanV1Of PlainString) l [v] ∧
      v.id = 2 ∧ v.annotations = [{ value := b!"cs", timestamp := 5 }, {}, {}, {}] ∧ v.binaryAnnotations.elems = [{ key := b!"n", value := b!"12" }] := by
  let empty : Json := .object []
  let ann : List (Str × Json) := [(b!"value", .string b!"cs"), (b!"timestamp", .number b!"5")]
  let bin : List (Str × Json) := [(b!"key", .string b!"n"), (b!"value", .number b!"12")]
  let ms : List (Str × Json) := [(b!"annotations", .array [.object ann, empty, empty, empty, .number b!"7"]), (b!"binaryAnnotations", .array [.object bin]), (b!"id", .string b!"2")]
  have we : Writes PlainNumber empty b!"{}" := .object (.empty (w := []) (by decide))
  have wa : WritesMembers PlainNumber ann _ := writes_comma (by decide) (writes_text (by decide)) <| writes_last (by decide) (.number (digits_plain (by decide) (by decide)))
  have wb : WritesMembers PlainNumber bin _ := writes_comma (by decide) (writes_text (by decide)) <| writes_last (by decide) (.number (digits_plain (by decide) (by decide)))
  have w2 : WritesMembers PlainNumber ms _ :=
    writes_comma (by decide) (.array (.cons (w := []) (w' := []) (by decide) (.object wa) (by decide) <| .cons (w := []) (w' := []) (by decide) we (by decide) <|
      .cons (w := []) (w' := []) (by decide) we (by decide) <| .cons (w := []) (w' := []) (by decide) we (by decide) <|
      .last (w := []) (w' := []) (by decide) (.number (digits_plain (by decide) (by decide))) (by decide))) <|
    writes_comma (by decide) (.array (.last (w := []) (w' := []) (by decide) (.object wb) (by decide))) <|
    writes_last (by decide) (writes_text (by decide))
  have ae : AnnotationOf PlainString empty {} := .object (nms := []) .nil (by decide) (.inr ⟨by decide, rfl⟩) (.inr ⟨by decide, rfl⟩) (.inr ⟨by decide, rfl⟩)
  let a : AnnotationV1 := { value := b!"cs", timestamp := 5 }
  let b : BinaryAnnotationV1 := { key := b!"n", value := b!"12" }
  have ha : AnnotationOf PlainString (.object ann) a :=
    .object (nms := ann) (.cons ⟨text_plain (by decide), rfl⟩ <| .cons ⟨text_plain (by decide), rfl⟩ .nil) (by decide)
      (.inl ⟨.number b!"5", by simp [ann], .number (by decide) (by decide)⟩) (.inl ⟨.string b!"cs", by simp [ann], stringOf_text (by decide)⟩) (.inr ⟨by decide, rfl⟩)
  have hb : BinaryAnnotationOf PlainString (.object bin) b :=
    .object (nms := bin) (.cons ⟨text_plain (by decide), rfl⟩ <| .cons ⟨text_plain (by decide), rfl⟩ .nil) (by decide)
      (.inl ⟨.string b!"n", by simp [bin], stringOf_text (by decide)⟩) (.inl ⟨.number b!"12", by simp [bin], .number _⟩) (.inr ⟨by decide, rfl⟩)
  refine ⟨[.object ms], { id := 2, annotations := [a, {}, {}, {}], binaryAnnotations := { cells := [b], len := 1 } }, _, ?_,
    .array (.last (w := []) (w' := []) (by decide) (.object w2) (by decide)), .cons ?_ .nil, rfl, rfl, rfl⟩
  · rfl
  · refine .object (nms := ms) (.cons ⟨text_plain (by decide), rfl⟩ <| .cons ⟨text_plain (by decide), rfl⟩ <| .cons ⟨text_plain (by decide), rfl⟩ .nil) (by decide)
      (.inl ⟨.string b!"2", by simp [ms], .string (text_plain (by decide)) (by decide) (by decide) (by decide)⟩) (.inr ⟨by decide, rfl⟩) (.inr ⟨by decide, rfl⟩)
      (.inr ⟨by decide, rfl⟩) (.inr ⟨by decide, rfl⟩) (.inr ⟨by decide, rfl⟩)
      (.inl ⟨_, List.mem_cons_self .., .array (as := [a, {}, {}, {}]) (.cons ha <| .cons ae <| .cons ae <| .cons ae .nil)⟩)
      (.inl ⟨_, List.mem_cons_of_mem _ (List.mem_cons_self ..), .array (.cons hb .nil)⟩)

/-! ## C28: isolation of requests -/

/-- On clean pooled memory, the outcome of any request — also of a malformed one — does not depend on this memory, nor on how much slices grow. (Missing:
memory that is not clean.) -/
theorem C28_growth_partial (newCap newCap' : Nat → Nat → Nat) (fuel : Nat) (r : Reader) (buf : List UInt8) {pool pool' : List SpanV1} (h : CleanPool pool)
    (h' : CleanPool pool') : (parseJsonV1 newCap fuel r buf pool).1 = (parseJsonV1 newCap' fuel r buf pool').1 := by
  have hs : (decoderSliceSpanV1 newCap fuel { cells := pool, len := 0 }).Sim (fun s s' => s.elems.map SpanV1.toSpan = s'.elems.map SpanV1.toSpan)
      (decoderSliceSpanV1 newCap' fuel { cells := pool', len := 0 }) := by
    unfold decoderSliceSpanV1 makeSliceDecoder
    exact consume_sim (sliceLoop_spans newCap newCap' fuel fuel 0 rfl rfl (Nat.zero_le _) (Nat.zero_le _) rfl (fun i _ => cleanPool_getD.mp h i)
      (fun i _ => cleanPool_getD.mp h' i))
  have := hs.run fuel (Parser.newWithReader r buf)
  unfold parseJsonV1
  revert this
  cases (decoderSliceSpanV1 newCap fuel { cells := pool, len := 0 }).run fuel (Parser.newWithReader r buf) <;>
    cases (decoderSliceSpanV1 newCap' fuel { cells := pool', len := 0 }).run fuel (Parser.newWithReader r buf) <;>
    intro this <;> first | exact False.elim this | rfl | skip
  obtain ⟨e, _⟩ := this
  simp only [e]

theorem C28_clean_partial (newCap : Nat → Nat → Nat) (fuel : Nat) (r : Reader) (buf : List UInt8) {pool pool' : List SpanV1} (h : CleanPool pool)
    (h' : CleanPool pool') : (parseJsonV1 newCap fuel r buf pool).1 = (parseJsonV1 newCap fuel r buf pool').1 :=
  C28_growth_partial newCap newCap fuel r buf h h'

/-- The outcome of a request of version 2 does not depend on how much slices grow. -/
theorem C26_growth (newCap newCap' : Nat → Nat → Nat) (fuel : Nat) (r : Reader) (buf : List UInt8) :
    parseJsonV2 newCap fuel r buf = parseJsonV2 newCap' fuel r buf := by
  have hs : (decoderSliceSpanV2 newCap fuel { cells := [], len := 0 }).Sim (fun s s' => s.elems = s'.elems)
      (decoderSliceSpanV2 newCap' fuel { cells := [], len := 0 }) := by
    unfold decoderSliceSpanV2 makeSliceDecoder
    exact consume_sim (sliceLoop_values newCap newCap' _ _ fuel 0 rfl rfl (Nat.zero_le _) (Nat.zero_le _) rfl)
  have := hs.run fuel (Parser.newWithReader r buf)
  unfold parseJsonV2
  revert this
  cases (decoderSliceSpanV2 newCap fuel { cells := [], len := 0 }).run fuel (Parser.newWithReader r buf) <;>
    cases (decoderSliceSpanV2 newCap' fuel { cells := [], len := 0 }).run fuel (Parser.newWithReader r buf) <;>
    intro this <;> first | exact False.elim this | rfl | skip
  obtain ⟨e, _⟩ := this
  simp only [e]

/-- What the pool contains after any number of requests: at first, new slices of 64 spans; then slices that went through requests with v1 documents in which
no object has two members with the same name. -/
inductive PoolReaches (newCap : Nat → Nat → Nat) : List SpanV1 → Prop
  | new : PoolReaches newCap (List.replicate 64 {})
  | request {pool pool' : List SpanV1} {l : List Json} {vs : List SpanV1} {w t s : Str} {r : Reader} {buf : List UInt8} {out : Parsed} :
      PoolReaches newCap pool → Blank w → Writes PlainNumber (.array l) t → Pairwise₂ (SpanV1Of fun lit v => unescape lit = some v) l vs →
      r.data = w ++ (t ++ s) → TokensFit buf.length r.data → 0 < buf.length →
      Returns (fun fuel => parseJsonV1 newCap fuel r buf pool) (out, pool') → PoolReaches newCap pool'

theorem PoolReaches.clean {newCap : Nat → Nat → Nat} {pool : List SpanV1} (h : PoolReaches newCap pool) : CleanPool pool := by
  induction h with
  | new => exact fun s hs => (List.eq_of_mem_replicate hs) ▸ clean_default
  | request h hw ht hd hr hfit h0 hret ih =>
    rename_i s _ _ _
    obtain ⟨pool'', h1, _, h2⟩ := parsesV1 (s := s) (fun _ _ h => h) newCap ih hw ht hd
    have := hret.unique (h2 _ _ hr (hr ▸ hfit) h0)
    injection this with _ e
    rw [e]
    exact h1

/-- After any such history, the outcome of any request is that on new memory. (Missing: histories with other requests, see `C28_leaks`.) -/
theorem C28_history_partial {newCap : Nat → Nat → Nat} {pool : List SpanV1} (h : PoolReaches newCap pool) (fuel : Nat) (r : Reader) (buf : List UInt8) :
    (parseJsonV1 newCap fuel r buf pool).1 = (parseJsonV1 newCap fuel r buf (List.replicate 64 {})).1 :=
  C28_clean_partial newCap fuel r buf h.clean (PoolReaches.new (newCap := newCap)).clean

theorem parsesV1_of_stream {newCap : Nat → Nat → Nat} {data s : Str} {pool : List SpanV1} {m : GoSlice SpanV1} {b : Bool} {fuel : Nat}
    (h : (decoderSliceSpanV1 newCap fuel { cells := pool, len := 0 }).stream false data = .ok m b s) :
    ParsesV1 newCap data pool (m.elems.map SpanV1.toSpan) (m.cells.take pool.length) := by
  intro r buf hr hfit h0
  obtain ⟨E, hE⟩ := runs_of_stream (N := fuel) (fun fuel => decoderSliceSpanV1 newCap fuel { cells := pool, len := 0 }) (fun fuel' hf => by
    rw [(decoderSliceSpanV1_le newCap hf _).stream _ _ (by rw [h]; simp)]
    exact h) r buf hr hfit h0
  refine ⟨E, fun fuel hf => ?_⟩
  obtain ⟨p, e, _⟩ := hE fuel hf
  simp only [parseJsonV1, e]

/-- The property as stated does not hold. The first body has a span with two members `binaryAnnotations`, the first with two elements and the second with one: the
second element of the first stays in the pooled memory. In a second request, whose body says nothing about tags, it appears as a tag. -/
theorem C28_leaks :
    let body1 := b!"[{\"binaryAnnotations\":[{},{\"key\":\"secret\",\"value\":\"x\"}],\"binaryAnnotations\":[{}]}]"
    let body2 := b!"[{\"binaryAnnotations\":[{},{}]}]"
    let newCap : Nat → Nat → Nat := fun _ n => n
    let new : List SpanV1 := List.replicate 64 {}
    ∃ (pool1 pool2 pool3 : List SpanV1) (s1 s2 s3 : Span), ParsesV1 newCap body1 new [s1] pool1 ∧
      ParsesV1 newCap body2 new [s2] pool2 ∧ s2.tag b!"secret" = none ∧
      ParsesV1 newCap body2 pool1 [s3] pool3 ∧ s3.tag b!"secret" = some b!"x" := by
  let leak : SpanV1 := { binaryAnnotations := { cells := [{}, { key := b!"secret", value := b!"x" }], len := 1 } }
  let pool1 : List SpanV1 := leak :: List.replicate 63 {}
  let clean2 : SpanV1 := { binaryAnnotations := { cells := [{}, {}], len := 2 } }
  let leak2 : SpanV1 := { binaryAnnotations := { cells := [{}, { key := b!"secret", value := b!"x" }], len := 2 } }
  refine ⟨pool1, clean2 :: List.replicate 63 {}, leak2 :: List.replicate 63 {}, leak.toSpan, clean2.toSpan, leak2.toSpan, ?_, ?_, ?_, ?_, ?_⟩
  · exact parsesV1_of_stream (fuel := 20) (m := { cells := pool1, len := 1 }) (b := false) (s := []) rfl
  · exact parsesV1_of_stream (fuel := 20) (m := { cells := clean2 :: List.replicate 63 {}, len := 1 }) (b := false) (s := []) rfl
  · decide +kernel
  · exact parsesV1_of_stream (fuel := 20) (m := { cells := leak2 :: List.replicate 63 {}, len := 1 }) (b := false) (s := []) rfl
  · decide +kernel

/-- A history: a request with an empty document. -/
theorem C28_witness : ∃ pool, PoolReaches (fun _ n => n) pool := ⟨_, .request (buf := List.replicate 9 0) (r := { data := b!"[]", script := [], failing := false, idle := false })
  (w := []) (s := []) (vs := []) .new (by decide) (.array (.empty (w := []) (by decide))) .nil rfl (by decide) (by decide)
  (parsesV1_of_stream (fuel := 20) (m := { cells := List.replicate 64 {}, len := 0 }) (b := false) (s := []) rfl _ _ rfl (by decide) (by decide))⟩

end Verif
