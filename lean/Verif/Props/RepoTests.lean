import Verif.Props.Document
import Verif.Props.Jaeger
import Verif.Props.Tree
import Verif.Props.Lru
import Verif.Props.Binary
import Verif.Props.Balance
import Verif.Spec.RepoTests
import Mathlib.Data.List.Permutation

/-!
# C98: the tests of the project

Each test of the project, for all its random choices, and for all the ways in which its input can be delivered.
-/

namespace Verif

open Spec

/-! ## Comparing spans -/

/-- A span, with its tags as a list. -/
structure FlatSpan where
  id : Id
  parent : Id
  trace : Id
  name : Str
  service : Str
  timestamp : Timestamp
  duration : Duration
  tags : Option (List (Str × Str))
  timings : Timings
deriving DecidableEq

def Span.flat (s : Span) : FlatSpan :=
  ⟨s.id, s.parent, s.trace, s.name, s.service, s.timestamp, s.duration, s.tags.map (·.toList), s.timings⟩

theorem span_ext {s s' : Span} (h : s.flat = s'.flat) : s = s' := by
  obtain ⟨a1, a2, a3, a4, a5, a6, a7, a8, a9⟩ := s
  obtain ⟨b1, b2, b3, b4, b5, b6, b7, b8, b9⟩ := s'
  simp only [Span.flat, FlatSpan.mk.injEq] at h
  obtain ⟨rfl, rfl, rfl, rfl, rfl, rfl, rfl, h, rfl⟩ := h
  have : a8 = b8 := by
    cases a8 <;> cases b8 <;> simp at h ⊢
    exact Std.ExtTreeMap.ext_toList (by rw [h])
  rw [this]

theorem spans_ext {l l' : List Span} (h : l.map Span.flat = l'.map Span.flat) : l = l' := by
  induction l generalizing l' with
  | nil => cases l' with
    | nil => rfl
    | cons => cases h
  | cons s l ih => cases l' with
    | nil => cases h
    | cons s' l' =>
      simp only [List.map_cons, List.cons.injEq] at h
      rw [span_ext h.1, ih h.2]

theorem fitsFrom_mono {n n' : Nat} (h : n ≤ n') {st : LexState} {data : List UInt8} (hf : FitsFrom n st data) : FitsFrom n' st data := by
  induction data generalizing st with
  | nil => trivial
  | cons c data ih => exact ⟨Nat.lt_of_lt_of_le hf.1 h, ih hf.2⟩

/-! ## codec/json-v1_test.go, codec/json-v2_test.go, codec/jaeger_test.go -/

theorem parsesV2_of_stream {newCap : Nat → Nat → Nat} {data s : Str} {m : GoSlice SpanV2} {b : Bool} {fuel : Nat}
    (h : (decoderSliceSpanV2 newCap fuel { cells := [], len := 0 }).stream false data = .ok m b s) :
    ParsesV2 data (m.elems.map SpanV2.toSpan) := by
  intro newCap' r buf hr hfit h0
  obtain ⟨E, hE⟩ := runs_of_stream (N := fuel) (fun fuel => decoderSliceSpanV2 newCap fuel { cells := [], len := 0 }) (fun fuel' hf => by
    rw [(decoderSliceSpanV2_le newCap hf _).stream _ _ (by rw [h]; simp)]
    exact h) r buf hr hfit h0
  refine ⟨E, fun fuel hf => ?_⟩
  obtain ⟨p, e, _⟩ := hE fuel hf
  show parseJsonV2 newCap' fuel r buf = _
  rw [C26_growth newCap' newCap]
  simp only [parseJsonV2, e]

/-- The elements, if the stream was read. -/
def SDecoded.elems {α : Type} : SDecoded (GoSlice α) → Option (List α)
  | .ok m _ _ => some m.elems
  | _ => none

/-- `TestParseJsonV2`, however the text is delivered. -/
theorem C98_json_v2 : ParsesV2 encodedJsonV2 [expectedV2] := by
  have h : (((decoderSliceSpanV2 (fun _ n => n) 100 { cells := [], len := 0 }).stream false encodedJsonV2).elems.map fun l =>
      (l.map SpanV2.toSpan).map Span.flat) = some ([expectedV2].map Span.flat) := by decide +kernel
  generalize hs : (decoderSliceSpanV2 (fun _ n => n) 100 { cells := [], len := 0 }).stream false encodedJsonV2 = out at h
  cases out with
  | ok m b s =>
    rw [← spans_ext (Option.some.inj h)]
    exact parsesV2_of_stream hs
  | err => cases h
  | bad => cases h
  | timeout => cases h

/-- `TestParseJsonV1`, however the text is delivered, on any clean pooled memory, and however slices grow. -/
theorem C98_json_v1 (newCap : Nat → Nat → Nat) (pool : List SpanV1) (hp : CleanPool pool) (r : Reader) (buf : List UInt8) (hr : r.data = encodedJsonV1)
    (hb : 30 ≤ buf.length) : Returns (fun fuel => (parseJsonV1 newCap fuel r buf pool).1) (.spans [expectedV1]) := by
  have h : (((decoderSliceSpanV1 (fun _ n => n) 100 { cells := [], len := 0 }).stream false encodedJsonV1).elems.map fun l =>
      (l.map SpanV1.toSpan).map Span.flat) = some ([expectedV1].map Span.flat) := by decide +kernel
  generalize hs : (decoderSliceSpanV1 (fun _ n => n) 100 { cells := [], len := 0 }).stream false encodedJsonV1 = out at h
  cases out with
  | ok m b s =>
    rw [← spans_ext (Option.some.inj h)]
    obtain ⟨E, hE⟩ := parsesV1_of_stream hs r buf hr (fitsFrom_mono hb (by decide +kernel)) (by omega)
    refine ⟨E, fun fuel hf => ?_⟩
    have := hE fuel hf
    show (parseJsonV1 newCap fuel r buf pool).1 = _
    rw [C28_growth_partial newCap (fun _ n => n) fuel r buf hp (pool' := []) (by simp [CleanPool])]
    exact congrArg Prod.fst this
  | err => cases h
  | bad => cases h
  | timeout => cases h

set_option maxRecDepth 100000 in
/-- `TestParseJaeger`, however the text is delivered. -/
theorem C98_jaeger (floatFails : Str → Bool) : ParsesJaeger floatFails encodedJaeger [expectedJaeger] := by
  have h : ((goDecodeJaeger floatFails encodedJaeger).map fun l => (jaegerSpans l).map Span.flat) = some [expectedJaeger.flat] := by
    rfl
  generalize hs : goDecodeJaeger floatFails encodedJaeger = out at h
  cases out with
  | none => cases h
  | some l =>
    rw [← spans_ext (l := jaegerSpans l) (l' := [expectedJaeger]) (Option.some.inj h)]
    exact parsesJaeger hs

/-! ## codec/hyperjson/parser_test.go -/

/-- codec/hyperjson/parser_test.go:41-66 `doTest`; the result are the tokens read. -/
def doTest (fuel : Nat) : Prog (List Str) :=
  nextType [] fun t => if t ≠ .objectBegin then .fail [] else
  consume .objectBegin [] <|
  nextType [] fun t => if t ≠ .string then .fail [] else
  readString [] fun a1 => readNumber [] fun a2 =>
  readString [] fun a3 => (skipValue fuel).andThen (fun _ => []) fun _ =>
  readString [] fun a4 => .op .skipWhitespace [] fun _ => readBoolean [] fun a5 =>
  readString [] fun a6 => .op .skipWhitespace [] fun _ => .op (.readWord .null) [] fun a7 =>
  readString [] fun a8 => (skipValue fuel).andThen (fun _ => []) fun _ =>
  readString [] fun a9 => (skipValue fuel).andThen (fun _ => []) fun _ =>
  readString [] fun a10 => readString [] fun a11 =>
  readString [] fun a12 => readString [] fun a13 =>
  readString [] fun a14 => readString [] fun a15 =>
  readString [] fun a16 => readString [] fun a17 =>
  consume .objectEnd [] <| .done [a1, a2, a3, a4, a5, a6, a7, a8, a9, a10, a11, a12, a13, a14, a15, a16, a17]

theorem doTest_le {fuel fuel' : Nat} (h : fuel ≤ fuel') : (doTest fuel).Le (doTest fuel') := by
  have hr : ∀ {k k' : Str → Prog (List Str)}, (∀ a, (k a).Le (k' a)) → (readString [] k).Le (readString [] k') := fun h => readString_le h
  have ho : ∀ (o : Op) {k k' : o.Res → Prog (List Str)}, (∀ a, (k a).Le (k' a)) → (Prog.op o [] k).Le (Prog.op o [] k') := fun o _ _ h => .op o [] h
  have hs : ∀ {k k' : Unit → Prog (List Str)}, (∀ a, (k a).Le (k' a)) →
      ((skipValue fuel).andThen (fun _ => []) k).Le ((skipValue fuel').andThen (fun _ => []) k') := fun hk => (skipValue_le h).andThen _ hk
  unfold doTest
  refine nextType_le fun t => ?_
  split
  · exact .fail _
  refine consume_le _ (nextType_le fun t => ?_)
  split
  · exact .fail _
  refine hr fun a1 => ho _ fun _ => ho _ fun a2 => hr fun a3 => hs fun _ => hr fun a4 => ho _ fun _ => ho _ fun c => ?_
  split
  · exact ho _ fun a5 => hr fun a6 => ho _ fun _ => ho _ fun a7 => hr fun a8 => hs fun _ => hr fun a9 => hs fun _ => hr fun a10 => hr fun a11 =>
      hr fun a12 => hr fun a13 => hr fun a14 => hr fun a15 => hr fun a16 => hr fun a17 => consume_le _ (.done _)
  · exact ho _ fun a5 => hr fun a6 => ho _ fun _ => ho _ fun a7 => hr fun a8 => hs fun _ => hr fun a9 => hs fun _ => hr fun a10 => hr fun a11 =>
      hr fun a12 => hr fun a13 => hr fun a14 => hr fun a15 => hr fun a16 => hr fun a17 => consume_le _ (.done _)

/-- The tokens, if the stream was read. -/
def SDecoded.memory {σ : Type} : SDecoded σ → Option σ
  | .ok m _ _ => some m
  | _ => none

/-- `TestParser_Read`, `TestParser_Compact` and `TestParser_Pretty`, however the text is delivered, with any buffer that has room for the tokens. -/
theorem C98_parser (text : Str) (ht : text ∈ [jsonString, jsonStringCompact, jsonStringIndented]) (r : Reader) (buf : List UInt8) (hr : r.data = text)
    (hb : 70 ≤ buf.length) : ∃ enough, ∀ fuel, enough ≤ fuel → ∃ p, (doTest fuel).run fuel (Parser.newWithReader r buf) = .ok expectedTokens p := by
  have h : ((doTest 20).stream false text).memory = some expectedTokens ∧ TokensFit 70 text := by
    simp only [List.mem_cons, List.not_mem_nil, or_false] at ht
    rcases ht with rfl | rfl | rfl <;> decide +kernel
  obtain ⟨h, hfit⟩ := h
  generalize hs : (doTest 20).stream false text = out at h
  cases out with
  | ok m b s =>
    obtain rfl : m = _ := Option.some.inj h
    obtain ⟨E, hE⟩ := runs_of_stream (N := 20) doTest (fun fuel' hf => by
      rw [(doTest_le hf).stream _ _ (by rw [hs]; simp)]
      exact hs) r buf hr (fitsFrom_mono hb hfit) (by omega)
    refine ⟨E, fun fuel hf => ?_⟩
    obtain ⟨p, e, _⟩ := hE fuel hf
    exact ⟨p, e⟩
  | err => cases h
  | bad => cases h
  | timeout => cases h

/-! ## codec/binary_test.go, balance/sender_test.go -/

/-- `TestBinaryEncoding`, for every order in which the tags are written. -/
theorem C98_binary (ord : List (Str × Str)) (ho : IsRange ord (binaryTestSpan.tags.getD ∅)) :
    binaryDecode (binaryEncode binaryTestSpan ord) = some (binaryTestSpan, []) := by
  have := C04_span_roundtrip binaryTestSpan ord [] ⟨by decide, by decide, by decide +kernel, fun k v h => ?_⟩ ho
  · rw [List.append_nil] at this
    exact this
  · have hm := Std.ExtTreeMap.mem_toList_iff_getElem?_eq_some.mpr h
    have hl : (binaryTestSpan.tags.getD ∅).toList = [(b!"http.path", b!"/my/path"), (b!"protocolVersion", b!"json v1")] := by decide +kernel
    rw [hl] at hm
    simp only [List.mem_cons, Prod.mk.injEq, List.not_mem_nil, or_false] at hm
    rcases hm with ⟨rfl, rfl⟩ | ⟨rfl, rfl⟩ <;> decide

/-- `TestEncodeDecode`: any number of any spans that can be encoded and have tags, encoded one after the other, with the buffers of the pool, before the first of
them is decoded. -/
theorem C98_sender (p : Pool) (hp : p.Reachable) (x : Span × List (Str × Str) × Message) (hx : x ∈ p.sent) (he : Encodable x.1)
    (ht : x.1.tags.isSome) (ho : IsRange x.2.1 (x.1.tags.getD ∅)) : binaryDecode (p.heap.deref x.2.2.value) = some (x.1, []) := by
  rw [(C10_no_alias p hp x hx).2]
  have := C04_span_roundtrip x.1 x.2.1 [] he ho
  rw [List.append_nil] at this
  rw [this, Span.withTags]
  obtain ⟨⟨_, _, _, _, _, _, _, tags, _⟩, _⟩ := x
  cases tags with
  | none => cases ht
  | some _ => rfl

/-! ## cache/lru_test.go -/

theorem sixteenDigits_length (n : Nat) : (sixteenDigits n).length = 16 := by simp [sixteenDigits]

theorem lruTestString_length (n : Nat) : (lruTestString n).length = 256 := by
  simp [lruTestString, sixteenDigits_length]

theorem lruTestString_injective {a b : Nat} (ha : a < 100000) (hb : b < 100000) (h : lruTestString a = lruTestString b) : a = b := by
  have h16 : sixteenDigits a = sixteenDigits b := by
    unfold lruTestString at h
    rw [List.replicate_succ, List.replicate_succ, List.flatten_cons, List.flatten_cons] at h
    exact (List.append_inj h (by rw [sixteenDigits_length, sixteenDigits_length])).1
  have digit : ∀ k, k < 16 → a / 10 ^ (15 - k) % 10 = b / 10 ^ (15 - k) % 10 := by
    intro k hk
    have : (sixteenDigits a)[k]? = (sixteenDigits b)[k]? := by rw [h16]
    simp only [sixteenDigits, List.getElem?_map, List.getElem?_range hk, Option.map_some, Option.some.injEq] at this
    have := congrArg UInt8.toNat this
    simp only [UInt8.toNat_ofNat'] at this
    omega
  have d0 := digit 15 (by omega)
  have d1 := digit 14 (by omega)
  have d2 := digit 13 (by omega)
  have d3 := digit 12 (by omega)
  have d4 := digit 11 (by omega)
  norm_num at d0 d1 d2 d3 d4
  omega

theorem cost_256 {l : List Str} (h : ∀ s ∈ l, s.length = 256) : cost l = 312 * l.length := by
  unfold cost
  induction l with
  | nil => rfl
  | cons s l ih =>
    have h1 := h s (by simp)
    have h2 := ih fun s hs => h s (by simp [hs])
    simp only [List.map_cons, List.sum_cons, List.length_cons, h1, h2]
    omega

theorem recent_subset (uses : List Str) {s : Str} (h : s ∈ recent uses) : s ∈ uses := by
  induction uses with
  | nil => exact h
  | cons u uses ih =>
    rw [recent, List.mem_cons] at h
    rcases h with rfl | h
    · simp
    · simp [ih (List.mem_filter.mp h).1]

theorem recent_of_nodup {uses : List Str} (h : uses.Nodup) : recent uses = uses := by
  induction uses with
  | nil => rfl
  | cons u uses ih =>
    rw [List.nodup_cons] at h
    rw [recent, ih h.2, List.filter_eq_self.mpr]
    intro s hs
    simp only [decide_not, Bool.not_eq_eq_eq_not, Bool.not_true, decide_eq_false_iff_not]
    rintro rfl
    exact h.1 hs

section
variable {δ : Type}

/-- The calls of `Set` in the test. -/
def lruTestSets (fuel n : Nat) (d : Nat → δ) (c : Lru δ) : Option (Lru δ) := (List.range n).foldlM (fun c i => c.set fuel (lruTestString i) (d i)) c

theorem lruTest_state (fuel : Nat) (hf : 100000 ≤ fuel) (d : Nat → δ) (d0 : δ) (n : Nat) (hn : n ≤ 100000) :
    ∃ c, lruTestSets fuel n d (Lru.new (1024 * 1024) d0) = some c ∧
      Lru.Reachable (1024 * 1024) c ((List.range n).reverse.map lruTestString) ∧ (min n 3361 : Nat) ≤ c.count ∧ c.count ≤ n := by
  induction n with
  | zero => exact ⟨_, rfl, .new d0, Int.le_refl 0, Int.le_refl 0⟩
  | succ n ih =>
    obtain ⟨c, hc, hr, h1, h2⟩ := ih (by omega)
    obtain ⟨l, hl, hm⟩ := hr.inv
    have hcount : c.count = (c.strings l).length := by rw [hl.count]; simp [Lru.strings]
    have hpre := C15_least_recently_used _ c _ hr _ (hl.contents.mpr rfl)
    have hused : ∀ s ∈ c.strings l, ∃ i < n, s = lruTestString i := by
      intro s hs
      have := recent_subset _ (hpre.subset hs)
      rw [List.mem_map] at this
      obtain ⟨i, hi, rfl⟩ := this
      exact ⟨i, by simpa using hi, rfl⟩
    have hfresh : lruTestString n ∉ c.strings l := by
      intro hs
      obtain ⟨i, hi, e⟩ := hused _ hs
      have := lruTestString_injective (by omega) (by omega) e
      omega
    have hset : ∃ c', c.set fuel (lruTestString n) (d n) = some c' := by
      unfold Lru.set
      cases hv : c.values[lruTestString n]? with
      | some e => exact ⟨_, rfl⟩
      | none =>
        have hle : l.length ≤ fuel := by have := hl.count; omega
        obtain ⟨c1, e1⟩ := Option.isSome_iff_exists.mp (hl.ensure_ends (by rw [hm]; decide) fuel hle)
        exact ⟨_, by rw [e1]; rfl⟩
    obtain ⟨c', hset⟩ := hset
    have hr' : Lru.Reachable (1024 * 1024) c' ((List.range (n + 1)).reverse.map lruTestString) := by
      rw [List.range_succ, List.reverse_append, List.map_append]
      exact .set hr hset
    obtain ⟨l', hl', hm'⟩ := hr'.inv
    obtain ⟨k, e, hk1, hk2⟩ := C14_insertion _ c c' _ hr fuel _ _ _ _ (hl.contents.mpr rfl) hfresh hset (hl'.contents.mpr rfl)
    have hcount' : c'.count = ((c.strings l).take k).length + 1 := by
      rw [hl'.count, ← List.length_map (f := fun e => (c'.nodes e).value)]
      show ((c'.strings l').length : Int) = _
      rw [e]
      simp
    refine ⟨c', ?_, hr', ?_, ?_⟩
    · unfold lruTestSets at hc ⊢
      rw [List.range_succ, List.foldlM_append, hc]
      simp [hset]
    · rw [hcount']
      rw [List.length_take]
      by_cases hlt : k < (c.strings l).length
      · have hcost := hk2 (k + 1) (by omega) (by omega)
        rw [cost_256 (fun s hs => by obtain ⟨i, _, rfl⟩ := hused s (List.mem_of_mem_take hs); exact lruTestString_length i), List.length_take] at hcost
        omega
      · omega
    · rw [hcount', List.length_take]
      omega

/-- The map of the strings does not change when strings are looked up. -/
theorem get_values (c : Lru δ) (key : Str) : (c.get key).1.values = c.values := by
  unfold Lru.get
  split <;> rfl

/-- `TestLruCache_Get`, whatever else is looked up before. -/
theorem C98_lru_get (fuel : Nat) (hf : 100000 ≤ fuel) (d : Nat → δ) (d0 : δ) :
    ∃ c, lruTestSets fuel 100000 d (Lru.new (1024 * 1024) d0) = some c ∧ c.Size ≤ 2 * 1024 * 1024 ∧ c.Count ≤ 5000 ∧
      ∀ (keys : List Str) (i : Nat), 99000 ≤ i → i < 100000 →
        ∃ s, ((keys.foldl (fun c key => (c.get key).1) c).get (lruTestString i)).2 = some s ∧ s.1 = lruTestString i ∧ s.1 ≠ [] := by
  obtain ⟨c, hc, hr, h1, h2⟩ := lruTest_state fuel hf d d0 100000 (Nat.le_refl _)
  obtain ⟨l, hl, hm⟩ := hr.inv
  have hcount : c.count = (c.strings l).length := by rw [hl.count]; simp [Lru.strings]
  have hpre := C15_least_recently_used _ c _ hr _ (hl.contents.mpr rfl)
  have hlen : ∀ s ∈ c.strings l, s.length = 256 := by
    intro s hs
    have := recent_subset _ (hpre.subset hs)
    rw [List.mem_map] at this
    obtain ⟨i, _, rfl⟩ := this
    exact lruTestString_length i
  have hnodup : ((List.range 100000).reverse.map lruTestString).Nodup := by
    unfold List.Nodup
    rw [List.pairwise_map, List.pairwise_reverse]
    refine List.Pairwise.imp_of_mem ?_ (List.nodup_range (n := 100000))
    intro a b ha hb hne e
    exact hne (lruTestString_injective (List.mem_range.mp ha) (List.mem_range.mp hb) e.symm)
  rw [recent_of_nodup hnodup] at hpre
  have hsize : c.Size = 312 * (c.strings l).length := by
    rw [← cost_256 hlen]
    exact hl.cost
  have hb := C14_bounded _ (by decide) c _ hr
  have hbound : c.Size < 1024 * 1024 + 312 := by
    rcases hb with hb | ⟨strings, s, hs, hmem, hb⟩
    · omega
    · have := hl.contents.mp hs
      subst this
      rw [cost_256 (l := [s]) (by simpa using hlen s hmem)] at hb
      simpa using hb
  refine ⟨c, hc, by omega, by unfold Lru.Count; omega, fun keys i hi1 hi2 => ?_⟩
  have hr' : ∃ uses, Lru.Reachable (1024 * 1024) (keys.foldl (fun c key => (c.get key).1) c) uses := by
    clear h1 h2 hc hl hm hcount hpre hlen hsize hb hbound
    generalize (List.range 100000).reverse.map lruTestString = uses at hr
    induction keys generalizing c uses with
    | nil => exact ⟨_, hr⟩
    | cons key keys ih =>
      cases hg : (c.get key).2 with
      | none => exact ih _ _ (.miss hr hg)
      | some r => exact ih _ _ (.hit hr hg)
  have hv : (keys.foldl (fun c key => (c.get key).1) c).values = c.values := by
    clear hr' hr h1 h2 hc hl hm hcount hpre hlen hsize hb hbound
    induction keys generalizing c with
    | nil => rfl
    | cons key keys ih => rw [List.foldl_cons, ih, get_values]
  have hin : lruTestString i ∈ c.strings l := by
    obtain ⟨rest, e⟩ := hpre
    have hidx : ((List.range 100000).reverse.map lruTestString)[99999 - i]? = some (lruTestString i) := by
      rw [List.getElem?_map, List.getElem?_reverse (by simp; omega), List.length_range, List.getElem?_range (by omega), Option.map_some,
        show 100000 - 1 - (99999 - i) = i by omega]
    rw [← e, List.getElem?_append_left (by omega)] at hidx
    exact List.mem_of_getElem? hidx
  obtain ⟨e, he⟩ := hl.mem_strings.mp hin
  obtain ⟨uses', hr'⟩ := hr'
  obtain ⟨l', hl', _⟩ := hr'.inv
  generalize keys.foldl (fun c key => (c.get key).1) c = c' at *
  have he' : c'.values[lruTestString i]? = some e := by rw [hv]; exact he
  refine ⟨_, by unfold Lru.get; rw [he'], ((hl'.map _ _).mp he').2, ?_⟩
  show (c'.nodes e).value ≠ []
  rw [((hl'.map _ _).mp he').2]
  intro h0
  have := lruTestString_length i
  rw [h0] at this
  cases this

/-- `TestLruCache_RandomSet`, for any strings: after each call, the list of entries, which has an end, has as many elements as the cache says. -/
theorem C98_lru_random (m : Int) (c : Lru δ) (uses : List Str) (h : Lru.Reachable m c uses) :
    ∃ n : Nat, c.Count = n ∧ ∀ fuel, n ≤ fuel → countLoop c.nodes fuel c.usage.head = some n := by
  obtain ⟨l, _, _, _, _, h1, _, h2⟩ := C13_bookkeeping m c uses h
  exact ⟨l.length, h1, h2⟩

end

/-! ## correct_test.go -/

/-- The times of arrival do not matter for the spans. -/
theorem assemble_spans (now now' : Time) (traceId : Id) {l l' : List (Time × Span)} (h : l.map Prod.snd = l'.map Prod.snd) :
    (assemble now traceId l).spans = (assemble now' traceId l').spans := by
  unfold assemble
  have key : ∀ (l l' : List (Time × Span)) (t t' : Tree), l.map Prod.snd = l'.map Prod.snd → t.spans = t'.spans →
      (l.foldl (fun t e => t.addSpan e.1 e.2) t).spans = (l'.foldl (fun t e => t.addSpan e.1 e.2) t').spans := by
    intro l
    induction l with
    | nil => intro l' t t' h ht; cases l' with
      | nil => exact ht
      | cons => cases h
    | cons e l ih => intro l' t t' h ht; cases l' with
      | nil => cases h
      | cons e' l' =>
        simp only [List.map_cons, List.cons.injEq] at h
        refine ih l' _ _ h.2 ?_
        unfold Tree.addSpan
        dsimp only
        rw [ht, h.1]
        split <;> rfl
  exact key l l' _ _ h rfl

/-- `TestTree`, at whatever time the spans arrive. -/
theorem C98_tree (now now1 now2 : Time) :
    let first : Span := { id := 1 }
    let second : Span := { id := 2, parent := 1 }
    let t := assemble now 1 [(now1, first), (now2, second)]
    pick t.spans (childrenOf t.spans first.id) = [second] ∧
    ((getSpanRef t.spans t.traceId).bind fun i => t.spans[i]?) = some first ∧
    pick t.spans (roots t.spans) = [first] := by
  intro first second t
  have hs : t.spans = [second, first] := by
    rw [show t.spans = (assemble 0 1 [(0, first), (0, second)]).spans from assemble_spans _ _ _ rfl]
    exact spans_ext (by decide +kernel)
  rw [hs, show t.traceId = 1 from (assemble_inv_members now 1 _).2.2]
  have hr : getSpanRef [({ id := 2, parent := 1 } : Span), { id := 1 }] 1 = some 1 := by decide +kernel
  refine ⟨rfl, ?_, rfl⟩
  show ((getSpanRef [({ id := 2, parent := 1 } : Span), { id := 1 }] 1).bind fun i => [second, first][i]?) = some first
  rw [hr]
  rfl

/-- `TestMergeSpansInPlace_Annotations`. -/
theorem C98_merge_timings :
    let merged := mergeSpans (({} : Span).addTiming b!"cs" 1) (({} : Span).addTiming b!"ss" 2)
    merged.timings.CS = 1 ∧ merged.timings.SS = 2 := by decide +kernel

/-- `TestMergeSpansInPlace_BinaryAnnotations`. -/
theorem C98_merge_tags :
    let merged := mergeSpans ((({} : Span).addTiming b!"sr" 0).addTag b!"tag" b!"a") (({} : Span).addTag b!"tag" b!"b")
    merged.tags.map (·.toList) = some [(b!"tag", b!"a")] := by decide +kernel

/-- `TestMergeSpansInPlace_BinaryAnnotations_Reverse`. -/
theorem C98_merge_tags_reverse :
    let merged := mergeSpans (({} : Span).addTag b!"tag" b!"a") ((({} : Span).addTiming b!"sr" 1).addTag b!"tag" b!"b")
    merged.tags.map (·.toList) = some [(b!"tag", b!"b")] := by decide +kernel

theorem correctNode_ids (s : Span) (p : Option Timestamp) (off : Duration) :
    (correctNode s p off).1.id = s.id ∧ (correctNode s p off).1.parent = s.parent := by
  unfold correctNode
  cases p <;> dsimp only <;> (repeat' split) <;> exact ⟨rfl, rfl⟩

theorem correct_three {a b c : Span} (ha : a.id = 3 ∧ a.parent = 2) (hb : b.id = 2 ∧ b.parent = 1) (hc : c.id = 1 ∧ c.parent = 1) (base : Duration)
    (fuel : Nat) (hf : 3 ≤ fuel) :
    let c' := correctNode c none base
    let b' := correctNode b (some c'.1.timestamp) c'.2
    let a' := correctNode a (some b'.1.timestamp) b'.2
    ∃ st, correctTree fuel { spans := [a, b, c] } 2 none base = some st ∧ st.spans = [a'.1, b'.1, c'.1] := by
  intro c' b' a'
  obtain ⟨fuel, rfl⟩ : ∃ n, fuel = n + 3 := ⟨fuel - 3, by omega⟩
  have hc' := correctNode_ids c none base
  have hb' := correctNode_ids b (some c'.1.timestamp) c'.2
  have ha' := correctNode_ids a (some b'.1.timestamp) b'.2
  have e1 : childrenOf [a, b, c'.1] 1 = [1] := by
    simp [childrenOf, List.range_succ, Span.isRoot, ha, hb, hc, hc', c']
  have e2 : childrenOf [a, b'.1, c'.1] 2 = [0] := by
    simp [childrenOf, List.range_succ, Span.isRoot, ha, hb, hb', hc, hc', c', b']
  have e3 : childrenOf [a'.1, b'.1, c'.1] 3 = [] := by
    simp [childrenOf, List.range_succ, Span.isRoot, ha, ha', hb, hb', hc, hc', c', b', a']
  refine ⟨{ spans := [a'.1, b'.1, c'.1], visits := [0, 1, 2] }, ?_, rfl⟩
  unfold correctTree
  simp only [List.getElem?_cons_succ, List.getElem?_cons_zero, Option.bind_none, List.set_cons_succ, List.set_cons_zero]
  rw [show (correctNode c none base).1.id = 1 by rw [hc'.1, hc.1], e1]
  simp only [List.foldlM_cons, List.foldlM_nil]
  unfold correctTree
  simp only [List.getElem?_cons_succ, List.getElem?_cons_zero, Option.bind_some, Option.map_some, List.set_cons_succ, List.set_cons_zero]
  rw [show (correctNode b (some (correctNode c none base).1.timestamp) (correctNode c none base).2).1.id = 2 by rw [hb'.1, hb.1], e2]
  simp only [List.foldlM_cons, List.foldlM_nil]
  unfold correctTree
  simp only [List.getElem?_cons_succ, List.getElem?_cons_zero, Option.bind_some, Option.map_some, List.set_cons_zero]
  rw [show (correctNode a (some (correctNode b (some (correctNode c none base).1.timestamp) (correctNode c none base).2).1.timestamp)
    (correctNode b (some (correctNode c none base).1.timestamp) (correctNode c none base).2).2).1.id = 3 by rw [ha'.1, ha.1], e3]
  rfl

/-- The spans of `TestCorrectTimings`, with all times later by `epoch`: client, shared (of the client), shared (of the server) with the given parent, server. -/
def timingSpans (epoch : Timestamp) (parent : Id) : List Span :=
  (threeSpans (epoch + 100000000) (epoch + 200000000) (epoch + 1110000000) (epoch + 1190000000)).modify 2 fun s => { s with parent }

/-- The trace has three spans. -/
theorem timing_trace (epoch : Timestamp) (parent : Id) (now : Time) {l : List (Time × Span)} (h : (l.map Prod.snd).Perm (timingSpans epoch parent)) :
    ∃ a b c : Span, (assemble now 1 l).spans = [a, b, c] ∧
      (∀ s ∈ (timingSpans epoch parent)[3]?, a.withTags = s.withTags) ∧
      (∀ s ∈ (timingSpans epoch parent)[0]?, c.withTags = s.withTags) ∧
      ∀ s ∈ (timingSpans epoch parent)[1]?, ∀ s' ∈ (timingSpans epoch parent)[2]?,
        b.withTags = merged s.withTags s' ∨ b.withTags = merged s'.withTags s := by
  obtain ⟨hsort, _, hheld⟩ := C34_trace_is_a_map now 1 l
  have hfound := C34_found_iff_received now 1 l
  obtain ⟨hi, _, _⟩ := assemble_inv_members now 1 l
  have hmem : ∀ id, (∃ s ∈ (assemble now 1 l).spans, s.id = id) ↔ id = 1 ∨ id = 2 ∨ id = 3 := by
    intro id
    have h1 : (∃ e ∈ l, e.2.id = id) ↔ ∃ s ∈ timingSpans epoch parent, s.id = id := by
      constructor
      · rintro ⟨e, he, rfl⟩
        exact ⟨e.2, h.mem_iff.mp (List.mem_map_of_mem he), rfl⟩
      · rintro ⟨s, hs, rfl⟩
        obtain ⟨e, he, rfl⟩ := List.mem_map.mp (h.mem_iff.mpr hs)
        exact ⟨e, he, rfl⟩
    have h2 : (∃ s ∈ timingSpans epoch parent, s.id = id) ↔ id = 1 ∨ id = 2 ∨ id = 3 := by
      simp only [timingSpans, threeSpans, List.modify_succ_cons, List.modify_zero_cons, List.mem_cons, List.not_mem_nil, or_false, exists_eq_or_imp,
        exists_eq_left]
      grind
    rw [← h2, ← h1, ← hfound]
    cases hg : getSpanRef (assemble now 1 l).spans id with
    | none =>
      have := (getSpanRef_eq_none hi.sorted).mp hg
      simp only [Option.isSome_none, Bool.false_eq_true, iff_false]
      rintro ⟨s, hs, e⟩
      exact this s hs e
    | some i =>
      obtain ⟨s, hs, e⟩ := (getSpanRef_eq_some hi.sorted).mp hg
      simp only [Option.isSome_some, iff_true]
      exact ⟨s, List.mem_of_getElem? hs, e⟩
  have hids : (assemble now 1 l).spans.map Span.id = [3, 2, 1] := by
    have hp : ((assemble now 1 l).spans.map Span.id).Pairwise (· > ·) := by rw [List.pairwise_map]; exact hsort
    have hq : ([3, 2, 1] : List Id).Pairwise (· > ·) := by decide
    have nd : ∀ {l : List Id}, l.Pairwise (· > ·) → l.Nodup := fun h => h.imp fun {a b} hab e => by
      subst e
      exact Int64.lt_irrefl hab
    refine List.Perm.eq_of_pairwise (le := (· > ·)) (fun a b _ _ h1 h2 => absurd h1 (Int64.lt_asymm h2)) hp hq ?_
    rw [List.perm_ext_iff_of_nodup (nd hp) (nd hq)]
    intro id
    rw [List.mem_map, hmem]
    simp only [List.mem_cons, List.not_mem_nil, or_false]
    grind
  obtain ⟨a, b, c, hs⟩ : ∃ a b c, (assemble now 1 l).spans = [a, b, c] := by
    cases h1 : (assemble now 1 l).spans with
    | nil => rw [h1] at hids; simp at hids
    | cons a r1 => cases r1 with
      | nil => rw [h1] at hids; simp at hids
      | cons b r2 => cases r2 with
        | nil => rw [h1] at hids; simp at hids
        | cons c r3 => cases r3 with
          | nil => exact ⟨a, b, c, rfl⟩
          | cons _ _ => rw [h1] at hids; simp at hids
  rw [hs] at hids hheld
  simp only [List.map_cons, List.map_nil, List.cons.injEq, and_true] at hids
  obtain ⟨ia, ib, ic⟩ := hids
  have fa := hheld a (by simp)
  have fb := hheld b (by simp)
  have fc := hheld c (by simp)
  unfold held at fa fb fc
  rw [ia] at fa
  rw [ib] at fb
  rw [ic] at fc
  have ga := h.filter (fun s => s.id == 3)
  have gb := h.filter (fun s => s.id == 2)
  have gc := h.filter (fun s => s.id == 1)
  refine ⟨a, b, c, hs, ?_, ?_, ?_⟩
  · intro s hs
    simp [timingSpans, threeSpans] at hs ga
    rw [ga] at fa
    subst hs
    simpa using fa.symm
  · intro s hs
    simp [timingSpans, threeSpans] at hs gc
    rw [gc] at fc
    subst hs
    simpa using fc.symm
  · intro s hs s' hs'
    simp [timingSpans, threeSpans] at hs hs' gb
    rw [List.perm_pair] at gb
    subst hs hs'
    rcases gb with gb | gb
    · rw [gb] at fb
      exact .inl (by simpa using fb.symm)
    · rw [gb] at fb
      exact .inr (by simpa using fb.symm)

theorem correctNode_start (s : Span) (p : Option Timestamp) (off : Duration) :
    (correctNode s p off).1.timestamp =
      match p with
      | none => (if HasAllTimings s then s.timings.CS else s.timestamp) + off
      | some q => if (if HasAllTimings s then s.timings.CS else s.timestamp) + off < year2020 then q
        else (if HasAllTimings s then s.timings.CS else s.timestamp) + off := by
  have hall : (s.timings.CR ≠ 0 ∧ s.timings.CS ≠ 0 ∧ s.timings.SR ≠ 0 ∧ s.timings.SS ≠ 0) ↔ HasAllTimings s := by
    unfold HasAllTimings; grind
  have hoff : (if off ≠ 0 then { s with timestamp := s.timestamp + off } else s) = { s with timestamp := s.timestamp + off } := by
    by_cases h : off = 0
    · subst h; simp
    · rw [if_pos h]
  unfold correctNode
  rw [hoff]
  simp only [hall, toMillis_lt_2020]
  by_cases h : HasAllTimings s
  · simp only [if_pos h]
    cases p with
    | none => rfl
    | some q => dsimp only; split <;> rfl
  · simp only [if_neg h]
    cases p with
    | none => rfl
    | some q => dsimp only; split <;> rfl

theorem toInt_later {epoch : Timestamp} (h0 : 0 ≤ epoch.toInt) (h1 : epoch.toInt < 2 ^ 61) (k : Int64) (hk0 : 0 ≤ k.toInt) (hk1 : k.toInt < 2 ^ 32) :
    (epoch + k).toInt = epoch.toInt + k.toInt := by
  rw [Int64.toInt_add, Int.bmod_eq_of_le (by omega) (by omega)]

/-- `TestCorrectTimings` with all times later by `epoch`, for every order of the spans, whether or not the server knows the parent of the shared span, and for
every offset that the test can choose: the starts after the correction. That of the server span is the expected one only if it is after the beginning of 2020. -/
theorem C98_timings (epoch base : Timestamp) (parent : Id) (hp : parent = 0 ∨ parent = 1) (h0 : 0 ≤ epoch.toInt) (h1 : epoch.toInt < 2 ^ 61)
    (now : Time) (l : List (Time × Span)) (hl : (l.map Prod.snd).Perm (timingSpans epoch parent))
    (fuel : Nat) (hf : 3 ≤ fuel) :
    ∃ i st, getSpanRef (assemble now 1 l).spans (assemble now 1 l).traceId = some i ∧
      correctTree fuel { spans := (assemble now 1 l).spans } i none base = some st ∧
      st.spans.map (fun s => (s.id, s.timestamp)) =
        [(3, if epoch + base + 110000000 < year2020 then epoch + base + 100000000 else epoch + base + 110000000),
         (2, epoch + base + 100000000), (1, epoch + base + 100000000)] := by
  obtain ⟨a, b, c, hs, ha, hc, hb⟩ := timing_trace epoch parent now hl
  have ha := ha _ rfl
  have hc := hc _ rfl
  have hb := hb _ rfl _ rfl
  have t1 := toInt_later h0 h1 100000000 (by decide) (by decide)
  have t2 := toInt_later h0 h1 200000000 (by decide) (by decide)
  have t3 := toInt_later h0 h1 1210000000 (by decide) (by decide)
  have t4 := toInt_later h0 h1 1290000000 (by decide) (by decide)
  have z1 : (100000000 : Int64).toInt = 100000000 := rfl
  have z2 : (200000000 : Int64).toInt = 200000000 := rfl
  have z3 : (1210000000 : Int64).toInt = 1210000000 := rfl
  have z4 : (1290000000 : Int64).toInt = 1290000000 := rfl
  have z0 : (0 : Int64).toInt = 0 := rfl
  have p1 : 0 < epoch + 100000000 := by rw [Int64.lt_iff_toInt_lt]; omega
  have p2 : 0 < epoch + 200000000 := by rw [Int64.lt_iff_toInt_lt]; omega
  have p3 : 0 < epoch + 1210000000 := by rw [Int64.lt_iff_toInt_lt]; omega
  have p4 : 0 < epoch + 1290000000 := by rw [Int64.lt_iff_toInt_lt]; omega
  have e3 : epoch + 1110000000 + 100000000 = epoch + 1210000000 := by rw [Int64.add_assoc]; rfl
  have e4 : epoch + 1190000000 + 100000000 = epoch + 1290000000 := by rw [Int64.add_assoc]; rfl
  have ne : ∀ {x : Int64}, 0 < x → x ≠ 0 := fun h e => by subst e; exact Int64.lt_irrefl h
  have aid : a.id = 3 ∧ a.parent = 2 := ⟨congrArg Span.id ha, congrArg Span.parent ha⟩
  have cid : c.id = 1 ∧ c.parent = 1 := ⟨congrArg Span.id hc, congrArg Span.parent hc⟩
  have ats : a.timestamp = epoch + 1210000000 := by
    rw [← e3]
    have := congrArg Span.timestamp ha
    simpa only [timingSpans, threeSpans, Span.withTags] using this
  have cts : c.timestamp = epoch + 100000000 := by
    have := congrArg Span.timestamp hc
    simpa only [timingSpans, threeSpans, Span.withTags] using this
  have atm : a.timings.CS = 0 := congrArg (fun s => s.timings.CS) ha
  have ctm : c.timings.SS = 0 := congrArg (fun s => s.timings.SS) hc
  have hbb : b.id = 2 ∧ b.parent = 1 ∧ b.timings = { CS := epoch + 100000000, CR := epoch + 200000000, SR := epoch + 1210000000, SS := epoch + 1290000000 } := by
    rcases hb with hb | hb
    · refine ⟨congrArg Span.id hb, congrArg Span.parent hb, (congrArg Span.timings hb).trans ?_⟩
      simp only [merged, IsServer, e3, e4, firstValid]
      simp only [p3, p4, true_or, if_true]
      rfl
    · refine ⟨congrArg Span.id hb, (congrArg Span.parent hb).trans ?_, (congrArg Span.timings hb).trans ?_⟩
      · rcases hp with rfl | rfl <;> rfl
      · have n0 : ¬ ((0 : Int64) < 0 ∨ (0 : Int64) < 0) := by decide
        simp only [merged, IsServer, e3, e4, firstValid]
        simp only [if_neg n0, if_pos p1, if_pos p2]
        rfl
  obtain ⟨bid, bpar, btm⟩ := hbb
  have na : ¬ HasAllTimings a := fun h => h.1 atm
  have nc : ¬ HasAllTimings c := fun h => h.2.2.1 ctm
  have nb : HasAllTimings b := by
    unfold HasAllTimings
    rw [btm]
    exact ⟨ne p1, ne p2, ne p4, ne p3⟩
  have hskew : skew b = -1100000000 := by
    unfold skew
    rw [if_pos nb, btm]
    dsimp only
    rw [← Int64.toInt_inj]
    have two : Int64.toInt 2 = 2 := rfl
    have neg : (-1100000000 : Int64).toInt = -1100000000 := rfl
    rw [Int64.toInt_sub, Int64.toInt_div_of_ne_right _ _ (by decide), Int64.toInt_div_of_ne_right _ _ (by decide), Int64.toInt_add (epoch + 200000000),
      Int64.toInt_add (epoch + 1210000000), two, t1, t2, t3, t4, z1, z2, z3, z4, neg, Int.bmod_eq_of_le (n := epoch.toInt + 200000000 + _) (by omega) (by omega),
      Int.bmod_eq_of_le (n := epoch.toInt + 1210000000 + _) (by omega) (by omega),
      Int.tdiv_eq_ediv_of_nonneg (by omega), Int.tdiv_eq_ediv_of_nonneg (by omega), Int.bmod_eq_of_le (by omega) (by omega)]
    omega
  have hnc : skew c = 0 := if_neg nc
  obtain ⟨st, hst, hsp⟩ := correct_three aid ⟨bid, bpar⟩ cid base fuel hf
  have hroot : getSpanRef (assemble now 1 l).spans (assemble now 1 l).traceId = some 2 := by
    obtain ⟨hi, _, ht⟩ := assemble_inv_members now 1 l
    rw [ht, getSpanRef_eq_some hi.sorted, hs]
    exact ⟨c, rfl, cid.1⟩
  refine ⟨2, st, hroot, by rw [hs]; exact hst, ?_⟩
  rw [hsp]
  have oc : (correctNode c none base).2 = base := by rw [correctNode_offset, hnc, Int64.add_zero]
  have sc : (correctNode c none base).1.timestamp = epoch + base + 100000000 := by
    rw [correctNode_start, if_neg nc, cts]
    show epoch + 100000000 + base = _
    grind
  have ob : (correctNode b (some (correctNode c none base).1.timestamp) (correctNode c none base).2).2 = base + -1100000000 := by
    rw [correctNode_offset, oc, hskew]
  have sb : (correctNode b (some (correctNode c none base).1.timestamp) (correctNode c none base).2).1.timestamp = epoch + base + 100000000 := by
    rw [correctNode_start, if_pos nb, sc, oc, btm]
    show (if epoch + 100000000 + base < year2020 then _ else epoch + 100000000 + base) = _
    rw [show epoch + 100000000 + base = epoch + base + 100000000 by grind]
    split <;> rfl
  have sa : (correctNode a (some (correctNode b (some (correctNode c none base).1.timestamp) (correctNode c none base).2).1.timestamp)
      (correctNode b (some (correctNode c none base).1.timestamp) (correctNode c none base).2).2).1.timestamp =
      if epoch + base + 110000000 < year2020 then epoch + base + 100000000 else epoch + base + 110000000 := by
    rw [correctNode_start, if_neg na, sb, ob, ats]
    show (if epoch + 1210000000 + (base + -1100000000) < year2020 then _ else epoch + 1210000000 + (base + -1100000000)) = _
    rw [show epoch + 1210000000 + (base + -1100000000) = epoch + base + 110000000 by grind]
  simp only [List.map_cons, List.map_nil]
  rw [sa, sb, sc]
  simp only [(correctNode_ids _ _ _).1, aid.1, bid, cid.1]

/-- `TestCorrectTimings` does not succeed: its times are at the beginning of 1970, and the span of the server gets the start of its parent. -/
theorem C98_timings_fail (base : Timestamp) (parent : Id) (hp : parent = 0 ∨ parent = 1) (hb0 : 0 ≤ base.toInt) (hb1 : base.toInt < 100000)
    (now : Time) (l : List (Time × Span)) (hl : (l.map Prod.snd).Perm (timingSpans 0 parent)) (fuel : Nat) (hf : 3 ≤ fuel) :
    ∃ i st, getSpanRef (assemble now 1 l).spans (assemble now 1 l).traceId = some i ∧
      correctTree fuel { spans := (assemble now 1 l).spans } i none base = some st ∧
      ∃ server ∈ st.spans, server.id = 3 ∧ server.timestamp = base + 100000000 ∧ server.timestamp ≠ base + 110000000 := by
  obtain ⟨i, st, hi, hst, hmap⟩ := C98_timings 0 base parent hp (by decide) (by decide) now l hl fuel hf
  refine ⟨i, st, hi, hst, ?_⟩
  have hlt : 0 + base + 110000000 < year2020 := by
    rw [Int64.zero_add, Int64.lt_iff_toInt_lt, Int64.toInt_add, show (110000000 : Int64).toInt = 110000000 from rfl,
      show year2020.toInt = 1577836800000000000 from rfl, Int.bmod_eq_of_le (by omega) (by omega)]
    omega
  rw [if_pos hlt, Int64.zero_add] at hmap
  have hm : (3, base + 100000000) ∈ st.spans.map (fun s => (s.id, s.timestamp)) := by rw [hmap]; simp
  obtain ⟨s, hs, e⟩ := List.mem_map.mp hm
  simp only [Prod.mk.injEq] at e
  refine ⟨s, hs, e.1, e.2, ?_⟩
  rw [e.2]
  intro h
  have := (Int64.add_right_inj base).mp h
  exact absurd this (by decide)

/-- What `TestCorrectTimings` expects holds for times after the beginning of 2020. (Missing: the times of the test.) -/
theorem C98_timings_partial (epoch base : Timestamp) (parent : Id) (hp : parent = 0 ∨ parent = 1) (h0 : year2020.toInt ≤ epoch.toInt)
    (h1 : epoch.toInt < 2 ^ 61) (hb0 : 0 ≤ base.toInt) (hb1 : base.toInt < 100000)
    (now : Time) (l : List (Time × Span)) (hl : (l.map Prod.snd).Perm (timingSpans epoch parent)) (fuel : Nat) (hf : 3 ≤ fuel) :
    ∃ i st, getSpanRef (assemble now 1 l).spans (assemble now 1 l).traceId = some i ∧
      correctTree fuel { spans := (assemble now 1 l).spans } i none base = some st ∧
      st.spans.map (fun s => (s.id, s.timestamp)) =
        [(3, epoch + base + 110000000), (2, epoch + base + 100000000), (1, epoch + base + 100000000)] := by
  have hy : year2020.toInt = 1577836800000000000 := rfl
  obtain ⟨i, st, hi, hst, hmap⟩ := C98_timings epoch base parent hp (by omega) h1 now l hl fuel hf
  refine ⟨i, st, hi, hst, ?_⟩
  rw [hmap, if_neg]
  rw [Int64.lt_iff_toInt_lt, Int64.toInt_add, Int64.toInt_add, show (110000000 : Int64).toInt = 110000000 from rfl,
    Int.bmod_eq_of_le (n := epoch.toInt + _) (by omega) (by omega), Int.bmod_eq_of_le (by omega) (by omega)]
  omega

/-- Histories for both: the spans of the test in reverse order with times of 1970, and in order with times of 2020. -/
theorem C98_witness :
    (([3, 2, 1, 0].filterMap fun i : Nat => (timingSpans 0 1)[i]?.map fun s => ((0 : Time), s)).map Prod.snd).Perm (timingSpans 0 1) ∧
    year2020.toInt ≤ (1600000000000000000 : Timestamp).toInt ∧ (1600000000000000000 : Timestamp).toInt < 2 ^ 61 ∧
    (((timingSpans 1600000000000000000 0).map fun s => ((0 : Time), s)).map Prod.snd).Perm (timingSpans 1600000000000000000 0) := by
  refine ⟨?_, by decide, by decide, by simp [List.map_map, Function.comp_def]⟩
  have : (([3, 2, 1, 0].filterMap fun i : Nat => (timingSpans 0 1)[i]?.map fun s => ((0 : Time), s)).map Prod.snd) = (timingSpans 0 1).reverse := rfl
  rw [this]
  exact List.reverse_perm _

end Verif
