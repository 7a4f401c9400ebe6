import Verif.Proofs.FirstBig

/-!
# Which requests are never answered (C22)

For a buffer with at least five bytes (those of the program have 8192).
-/

namespace Verif

open Spec (TokensFit TokenEnds Oversized Filling)

/-- The result of ParseJsonV2 for an outcome of the decoder. -/
def parsedV2 : SDecoded (GoSlice SpanV2) → Parsed
  | .ok m _ _ => .spans (m.elems.map SpanV2.toSpan)
  | .err _ => .err
  | .bad => .panic
  | .timeout => .timeout

/-- The result of ParseJsonV1, and the memory that goes back to the pool. -/
def parsedV1 (n : Nat) : SDecoded (GoSlice SpanV1) → Parsed × List SpanV1
  | .ok m _ _ => (.spans (m.elems.map SpanV1.toSpan), m.cells.take n)
  | .err m => (.err, m.cells.take n)
  | .bad => (.panic, [])
  | .timeout => (.timeout, [])

theorem parsedV2_run {newCap : Nat → Nat → Nat} {fuel size : Nat} {r : Reader} {buf : List UInt8} {out : SDecoded (GoSlice SpanV2)} (hb : out ≠ .bad) (ht : out ≠ .timeout)
    (h : DecodesAs size (Parser.newWithReader r buf)
      ((decoderSliceSpanV2 newCap fuel { cells := [], len := 0 }).run fuel (Parser.newWithReader r buf)) out) :
    parseJsonV2 newCap fuel r buf = parsedV2 out := by
  cases out with
  | ok m ready s =>
    obtain ⟨p', e, _⟩ := h
    simp only [parseJsonV2, e, parsedV2]
  | err m =>
    obtain ⟨p', e⟩ := h
    simp only [parseJsonV2, e, parsedV2]
  | bad => exact absurd rfl hb
  | timeout => exact absurd rfl ht

theorem parsedV1_run {newCap : Nat → Nat → Nat} {fuel size : Nat} {r : Reader} {buf : List UInt8} {pool : List SpanV1} {out : SDecoded (GoSlice SpanV1)} (hb : out ≠ .bad)
    (ht : out ≠ .timeout)
    (h : DecodesAs size (Parser.newWithReader r buf)
      ((decoderSliceSpanV1 newCap fuel { cells := pool, len := 0 }).run fuel (Parser.newWithReader r buf)) out) :
    parseJsonV1 newCap fuel r buf pool = parsedV1 pool.length out := by
  cases out with
  | ok m ready s =>
    obtain ⟨p', e, _⟩ := h
    simp only [parseJsonV1, e, parsedV1]
  | err m =>
    obtain ⟨p', e⟩ := h
    simp only [parseJsonV1, e, parsedV1]
  | bad => exact absurd rfl hb
  | timeout => exact absurd rfl ht

theorem parsedV2_append (out : SDecoded (GoSlice SpanV2)) (q : List UInt8) : parsedV2 (out.append q) = parsedV2 out := by
  cases out <;> rfl

theorem parsedV1_append (n : Nat) (out : SDecoded (GoSlice SpanV1)) (q : List UInt8) : parsedV1 n (out.append q) = parsedV1 n out := by
  cases out <;> rfl

theorem parsedV2_final {out : SDecoded (GoSlice SpanV2)} (hb : out ≠ .bad) (ht : out ≠ .timeout) : parsedV2 out ≠ .panic ∧ parsedV2 out ≠ .timeout := by
  cases out with
  | ok m r s => exact ⟨by simp [parsedV2], by simp [parsedV2]⟩
  | err m => exact ⟨by simp [parsedV2], by simp [parsedV2]⟩
  | bad => exact absurd rfl hb
  | timeout => exact absurd rfl ht

theorem parsedV1_final {n : Nat} {out : SDecoded (GoSlice SpanV1)} (hb : out ≠ .bad) (ht : out ≠ .timeout) :
    (parsedV1 n out).1 ≠ .panic ∧ (parsedV1 n out).1 ≠ .timeout := by
  cases out with
  | ok m r s => exact ⟨by simp [parsedV1], by simp [parsedV1]⟩
  | err m => exact ⟨by simp [parsedV1], by simp [parsedV1]⟩
  | bad => exact absurd rfl hb
  | timeout => exact absurd rfl ht

theorem append_final {σ : Type} {out : SDecoded σ} (hb : out ≠ .bad) (ht : out ≠ .timeout) (q : List UInt8) : out.append q ≠ .bad ∧ out.append q ≠ .timeout := by
  cases out with
  | ok m r s => exact ⟨by simp [SDecoded.append], by simp [SDecoded.append]⟩
  | err m => exact ⟨by simp [SDecoded.append], by simp [SDecoded.append]⟩
  | bad => exact absurd rfl hb
  | timeout => exact absurd rfl ht

/-- A body that begins with small tokens, and then comes one that does not fit into the buffer (and more bytes than fit). There are two cases:
either the outcome is decided before that token, that is, whatever comes behind its first byte, or parsing never returns. -/
theorem C22_exact_v2 (newCap : Nat → Nat → Nat) {size : Nat} (h5 : 5 ≤ size) {pre t : List UInt8} (hfit : TokensFit size pre)
    (hend : ∀ c ∈ t.head?, TokenEnds pre c) (hbig : Oversized size t) :
    (∃ out, out ≠ .panic ∧ out ≠ .timeout ∧ ∀ (q : List UInt8) (r : Reader) (buf : List UInt8), r.data = pre ++ t.take 1 ++ q → size ≤ buf.length →
      Returns (fun fuel => parseJsonV2 newCap fuel r buf) out) ∨
    ∀ (r : Reader) (buf : List UInt8), r.data = pre ++ t → buf.length = size → ∀ fuel, parseJsonV2 newCap fuel r buf = .timeout := by
  rcases decoder_meets h5 (fun fuel => decoderSliceSpanV2 newCap fuel { cells := [], len := 0 })
    (fun fuel => decoderSliceSpanV2_safe newCap fuel _ _) (fun n fuel hf => decoderSliceSpanV2_ends newCap hf _ n (Nat.le_refl _))
    (fun _ _ hf => decoderSliceSpanV2_le newCap hf _) hfit hend hbig with ⟨out, hb, ht, h⟩ | h
  · refine .inl ⟨parsedV2 out, (parsedV2_final hb ht).1, (parsedV2_final hb ht).2, fun q r buf hr hbuf => ?_⟩
    obtain ⟨enough, he⟩ := h q (Parser.newWithReader r buf) (newWithReader_ok r buf) hbuf (by rw [newWithReader_rest, hr])
    refine ⟨enough, fun fuel hf => ?_⟩
    obtain ⟨a1, a2⟩ := append_final hb ht (t.take 1 ++ q)
    exact (parsedV2_run a1 a2 (he fuel hf)).trans (parsedV2_append _ _)
  · refine .inr fun r buf hr hbuf fuel => ?_
    simp only [parseJsonV2, h (Parser.newWithReader r buf) (newWithReader_ok r buf) hbuf (by rw [newWithReader_rest, hr]) fuel]

theorem C22_exact_v1 (newCap : Nat → Nat → Nat) (pool : List SpanV1) {size : Nat} (h5 : 5 ≤ size) {pre t : List UInt8} (hfit : TokensFit size pre)
    (hend : ∀ c ∈ t.head?, TokenEnds pre c) (hbig : Oversized size t) :
    (∃ out, out.1 ≠ .panic ∧ out.1 ≠ .timeout ∧ ∀ (q : List UInt8) (r : Reader) (buf : List UInt8), r.data = pre ++ t.take 1 ++ q → size ≤ buf.length →
      Returns (fun fuel => parseJsonV1 newCap fuel r buf pool) out) ∨
    ∀ (r : Reader) (buf : List UInt8), r.data = pre ++ t → buf.length = size → ∀ fuel, (parseJsonV1 newCap fuel r buf pool).1 = .timeout := by
  rcases decoder_meets h5 (fun fuel => decoderSliceSpanV1 newCap fuel { cells := pool, len := 0 })
    (fun fuel => decoderSliceSpanV1_safe newCap fuel _ _) (fun n fuel hf => decoderSliceSpanV1_ends newCap hf _ n (Nat.le_refl _))
    (fun _ _ hf => decoderSliceSpanV1_le newCap hf _) hfit hend hbig with ⟨out, hb, ht, h⟩ | h
  · refine .inl ⟨parsedV1 pool.length out, (parsedV1_final hb ht).1, (parsedV1_final hb ht).2, fun q r buf hr hbuf => ?_⟩
    obtain ⟨enough, he⟩ := h q (Parser.newWithReader r buf) (newWithReader_ok r buf) hbuf (by rw [newWithReader_rest, hr])
    refine ⟨enough, fun fuel hf => ?_⟩
    obtain ⟨a1, a2⟩ := append_final hb ht (t.take 1 ++ q)
    exact (parsedV1_run a1 a2 (he fuel hf)).trans (parsedV1_append _ _ _)
  · refine .inr fun r buf hr hbuf fuel => ?_
    simp only [parseJsonV1, h (Parser.newWithReader r buf) (newWithReader_ok r buf) hbuf (by rw [newWithReader_rest, hr]) fuel]

/-- A body that ends with a token that does not fit, when the buffer is full. Either the outcome is decided before that token; or the request is
refused if the reader reports the end to an empty slice, never answered if it does not (and does not report it together with the last bytes, either),
and with every reader it is refused or never answered. -/
theorem C22_edge_v2 (newCap : Nat → Nat → Nat) {size : Nat} (h5 : 5 ≤ size) {pre t : List UInt8} (hfit : TokensFit size pre)
    (hend : ∀ c ∈ t.head?, TokenEnds pre c) (hbig : Filling size t) :
    (∃ out, out ≠ .panic ∧ out ≠ .timeout ∧ ∀ (q : List UInt8) (r : Reader) (buf : List UInt8), r.data = pre ++ t.take 1 ++ q → size ≤ buf.length →
      Returns (fun fuel => parseJsonV2 newCap fuel r buf) out) ∨
    ∀ (r : Reader) (buf : List UInt8), r.data = pre ++ t → buf.length = size →
      ((∀ fuel, parseJsonV2 newCap fuel r buf = .timeout) ∨ Returns (fun fuel => parseJsonV2 newCap fuel r buf) .err) ∧
      (r.idle = false → Returns (fun fuel => parseJsonV2 newCap fuel r buf) .err) ∧
      (r.idle = true → (∀ s ∈ r.script, s.signal = false) → ∀ fuel, parseJsonV2 newCap fuel r buf = .timeout) := by
  rcases decoder_edge h5 (fun fuel => decoderSliceSpanV2 newCap fuel { cells := [], len := 0 })
    (fun fuel => decoderSliceSpanV2_safe newCap fuel _ _) (fun n fuel hf => decoderSliceSpanV2_ends newCap hf _ n (Nat.le_refl _))
    (fun _ _ hf => decoderSliceSpanV2_le newCap hf _) hfit hend hbig with ⟨out, hb, ht, h⟩ | h
  · refine .inl ⟨parsedV2 out, (parsedV2_final hb ht).1, (parsedV2_final hb ht).2, fun q r buf hr hbuf => ?_⟩
    obtain ⟨enough, he⟩ := h q (Parser.newWithReader r buf) (newWithReader_ok r buf) hbuf (by rw [newWithReader_rest, hr])
    refine ⟨enough, fun fuel hf => ?_⟩
    obtain ⟨a1, a2⟩ := append_final hb ht (t.take 1 ++ q)
    exact (parsedV2_run a1 a2 (he fuel hf)).trans (parsedV2_append _ _)
  · refine .inr fun r buf hr hbuf => ?_
    obtain ⟨h1, h2, h3⟩ := h (Parser.newWithReader r buf) (newWithReader_ok r buf) hbuf (by rw [newWithReader_rest, hr])
    refine ⟨?_, fun hi => ?_, fun hi hs fuel => ?_⟩
    · rcases h1 with h1 | ⟨m, p', enough, h1⟩
      · exact .inl fun fuel => by simp only [parseJsonV2, h1 fuel]
      · exact .inr ⟨enough, fun fuel hf => by simp only [parseJsonV2, h1 fuel hf]⟩
    · obtain ⟨m, p', enough, h2⟩ := h2 hi
      exact ⟨enough, fun fuel hf => by simp only [parseJsonV2, h2 fuel hf]⟩
    · simp only [parseJsonV2, h3 ⟨rfl, hi, hs⟩ fuel]

theorem C22_edge_v1 (newCap : Nat → Nat → Nat) (pool : List SpanV1) {size : Nat} (h5 : 5 ≤ size) {pre t : List UInt8} (hfit : TokensFit size pre)
    (hend : ∀ c ∈ t.head?, TokenEnds pre c) (hbig : Filling size t) :
    (∃ out, out.1 ≠ .panic ∧ out.1 ≠ .timeout ∧ ∀ (q : List UInt8) (r : Reader) (buf : List UInt8), r.data = pre ++ t.take 1 ++ q → size ≤ buf.length →
      Returns (fun fuel => parseJsonV1 newCap fuel r buf pool) out) ∨
    ∀ (r : Reader) (buf : List UInt8), r.data = pre ++ t → buf.length = size →
      ((∀ fuel, (parseJsonV1 newCap fuel r buf pool).1 = .timeout) ∨ Returns (fun fuel => (parseJsonV1 newCap fuel r buf pool).1) .err) ∧
      (r.idle = false → Returns (fun fuel => (parseJsonV1 newCap fuel r buf pool).1) .err) ∧
      (r.idle = true → (∀ s ∈ r.script, s.signal = false) → ∀ fuel, (parseJsonV1 newCap fuel r buf pool).1 = .timeout) := by
  rcases decoder_edge h5 (fun fuel => decoderSliceSpanV1 newCap fuel { cells := pool, len := 0 })
    (fun fuel => decoderSliceSpanV1_safe newCap fuel _ _) (fun n fuel hf => decoderSliceSpanV1_ends newCap hf _ n (Nat.le_refl _))
    (fun _ _ hf => decoderSliceSpanV1_le newCap hf _) hfit hend hbig with ⟨out, hb, ht, h⟩ | h
  · refine .inl ⟨parsedV1 pool.length out, (parsedV1_final hb ht).1, (parsedV1_final hb ht).2, fun q r buf hr hbuf => ?_⟩
    obtain ⟨enough, he⟩ := h q (Parser.newWithReader r buf) (newWithReader_ok r buf) hbuf (by rw [newWithReader_rest, hr])
    refine ⟨enough, fun fuel hf => ?_⟩
    obtain ⟨a1, a2⟩ := append_final hb ht (t.take 1 ++ q)
    exact (parsedV1_run a1 a2 (he fuel hf)).trans (parsedV1_append _ _ _)
  · refine .inr fun r buf hr hbuf => ?_
    obtain ⟨h1, h2, h3⟩ := h (Parser.newWithReader r buf) (newWithReader_ok r buf) hbuf (by rw [newWithReader_rest, hr])
    refine ⟨?_, fun hi => ?_, fun hi hs fuel => ?_⟩
    · rcases h1 with h1 | ⟨m, p', enough, h1⟩
      · exact .inl fun fuel => by simp only [parseJsonV1, h1 fuel]
      · exact .inr ⟨enough, fun fuel hf => by simp only [parseJsonV1, h1 fuel hf]⟩
    · obtain ⟨m, p', enough, h2⟩ := h2 hi
      exact ⟨enough, fun fuel hf => by simp only [parseJsonV1, h2 fuel hf]⟩
    · simp only [parseJsonV1, h3 ⟨rfl, hi, hs⟩ fuel]

/-- There are no other bodies: all tokens are small (and then parsing returns one outcome, C21), or there is a first one that is not, and the body
goes on or ends. -/
theorem C22_every_body {size : Nat} (h2 : 2 ≤ size) (data : List UInt8) :
    TokensFit size data ∨
    ∃ pre t, data = pre ++ t ∧ TokensFit size pre ∧ (∀ c ∈ t.head?, TokenEnds pre c) ∧ (Oversized size t ∨ Filling size t) := by
  by_cases hfit : TokensFit size data
  · exact .inl hfit
  · exact .inr (first_long h2 hfit)

theorem returns_v2_of_run {newCap : Nat → Nat → Nat} {fuel : Nat} {r : Reader} {buf : List UInt8} {out : Parsed} (h : parseJsonV2 newCap fuel r buf = out)
    (ht : out ≠ .timeout) : Returns (fun fuel => parseJsonV2 newCap fuel r buf) out := by
  refine ⟨fuel, fun fuel' hf => ?_⟩
  have hrun : (decoderSliceSpanV2 newCap fuel { cells := [], len := 0 }).run fuel (Parser.newWithReader r buf) ≠ .timeout := by
    intro hh
    simp only [parseJsonV2, hh] at h
    exact ht h.symm
  have := (decoderSliceSpanV2_le newCap hf { cells := [], len := 0 }).run hf (Parser.newWithReader r buf) hrun
  rw [← h]
  simp only [parseJsonV2, this]

/-- Is there an error, are there spans? -/
def Parsed.kind : Parsed → Option Bool
  | .spans _ => some true
  | .err => some false
  | _ => none

theorem returns_err {newCap : Nat → Nat → Nat} (fuel : Nat) {r : Reader} {buf : List UInt8} (h : (parseJsonV2 newCap fuel r buf).kind = some false) :
    Returns (fun fuel => parseJsonV2 newCap fuel r buf) .err := by
  cases hp : parseJsonV2 newCap fuel r buf with
  | err => exact returns_v2_of_run hp (by simp)
  | spans l => rw [hp] at h; simp [Parsed.kind] at h
  | panic => rw [hp] at h; simp [Parsed.kind] at h
  | timeout => rw [hp] at h; simp [Parsed.kind] at h

theorem returns_spans {newCap : Nat → Nat → Nat} (fuel : Nat) {r : Reader} {buf : List UInt8} (h : (parseJsonV2 newCap fuel r buf).kind = some true) :
    ∃ spans, Returns (fun fuel => parseJsonV2 newCap fuel r buf) (.spans spans) := by
  cases hp : parseJsonV2 newCap fuel r buf with
  | spans l => exact ⟨l, returns_v2_of_run hp (by simp)⟩
  | err => rw [hp] at h; simp [Parsed.kind] at h
  | panic => rw [hp] at h; simp [Parsed.kind] at h
  | timeout => rw [hp] at h; simp [Parsed.kind] at h

/-- The three cases, with a buffer of eight bytes. A tag whose value is too long is never answered; not even if it contains escapes. A body with the
same value behind a mistake is refused. A body that ends where the buffer is full is refused or not answered depending on the reader. -/
theorem C22_exact_witness :
    let long := b!"\"abcdef\\\"ghijk\"}}]"
    let plain : List UInt8 → Reader := fun data => { data, script := [], failing := false, idle := false }
    let lazy : List UInt8 → Reader := fun data => { data, script := List.replicate 4 { want := 100, signal := false }, failing := false, idle := true }
    (TokensFit 8 b!"[{\"tags\":{\"a\":" ∧ TokenEnds b!"[{\"tags\":{\"a\":" c!"\"" ∧ Oversized 8 long ∧
      (∀ (r : Reader) (buf : List UInt8), r.data = b!"[{\"tags\":{\"a\":" ++ long → buf.length = 8 →
        ∀ fuel, parseJsonV2 (fun _ n => n) fuel r buf = .timeout)) ∧
    (TokensFit 8 b!"[{\"tags\" 5," ∧ TokenEnds b!"[{\"tags\" 5," c!"\"" ∧
      ∀ (r : Reader) (buf : List UInt8), r.data = b!"[{\"tags\" 5," ++ long → buf.length = 8 →
        Returns (fun fuel => parseJsonV2 (fun _ n => n) fuel r buf) .err) ∧
    (Filling 8 b!"\"abcdefgh" ∧
      Returns (fun fuel => parseJsonV2 (fun _ n => n) fuel (plain b!"[{\"abcdefgh") (List.replicate 8 0)) .err ∧
      ∀ fuel, parseJsonV2 (fun _ n => n) fuel (lazy b!"[{\"abcdefgh") (List.replicate 8 0) = .timeout) := by
  intro long plain lazy
  have hbig : Oversized 8 long := .inl ⟨⟨false, by decide +kernel⟩, by decide +kernel⟩
  have hf1 : TokensFit 8 b!"[{\"tags\":{\"a\":" := by unfold TokensFit; decide +kernel
  have hf2 : TokensFit 8 b!"[{\"tags\" 5," := by unfold TokensFit; decide +kernel
  have hf3 : TokensFit 8 b!"[{" := by unfold TokensFit; decide +kernel
  have he1 : TokenEnds b!"[{\"tags\":{\"a\":" c!"\"" := .inl (by decide +kernel)
  have he2 : TokenEnds b!"[{\"tags\" 5," c!"\"" := .inl (by decide +kernel)
  have he3 : TokenEnds b!"[{" c!"\"" := .inl (by decide +kernel)
  have hfill : Filling 8 b!"\"abcdefgh" := .inl ⟨⟨false, by decide +kernel⟩, by decide +kernel⟩
  have hhead : ∀ {pre : List UInt8} (t : List UInt8), TokenEnds pre c!"\"" → ∀ c ∈ (c!"\"" :: t).head?, TokenEnds pre c := by
    intro pre t h c hc
    simp only [List.head?_cons, Option.mem_def, Option.some.injEq] at hc
    rw [← hc]
    exact h
  refine ⟨⟨hf1, he1, hbig, ?_⟩, ⟨hf2, he2, ?_⟩, hfill, ?_, ?_⟩
  · rcases C22_exact_v2 (fun _ n => n) (by omega) hf1 (hhead _ he1) hbig with ⟨out, _, _, h⟩ | h
    · exfalso
      have h1 := h b!"\"}}]" (plain b!"[{\"tags\":{\"a\":\"\"}}]") (List.replicate 8 0) (by decide +kernel) (by decide +kernel)
      have h2 := h b!"]" (plain b!"[{\"tags\":{\"a\":\"]") (List.replicate 8 0) (by decide +kernel) (by decide +kernel)
      have h4 := h2.unique (returns_err 60 (by decide +kernel))
      subst h4
      obtain ⟨spans, h7⟩ := returns_spans (newCap := fun _ n => n) (r := plain b!"[{\"tags\":{\"a\":\"\"}}]") (buf := List.replicate 8 0) 60 (by decide +kernel)
      cases h1.unique h7
    · exact h
  · rcases C22_exact_v2 (fun _ n => n) (by omega) hf2 (hhead _ he2) hbig with ⟨out, _, _, h⟩ | h
    · intro r buf hr hbuf
      have h1 := h b!"\"" (plain b!"[{\"tags\" 5,\"\"") (List.replicate 8 0) (by decide +kernel) (by decide +kernel)
      have h3 := h1.unique (returns_err 60 (by decide +kernel))
      subst h3
      exact h b!"abcdef\\\"ghijk\"}}]" r buf (by rw [hr]; decide +kernel) (by omega)
    · exfalso
      have h1 := h (plain (b!"[{\"tags\" 5," ++ long)) (List.replicate 8 0) rfl (by decide +kernel) 60
      have h2 : (parseJsonV2 (fun _ n => n) 60 (plain (b!"[{\"tags\" 5," ++ long)) (List.replicate 8 0)).kind = some false := by decide +kernel
      rw [h1] at h2
      cases h2
  · exact returns_err 60 (by decide +kernel)
  · rcases C22_edge_v2 (fun _ n => n) (by omega) hf3 (hhead _ he3) hfill with ⟨out, _, _, h⟩ | h
    · exfalso
      have h1 := h b!"\":1}]" (plain b!"[{\"\":1}]") (List.replicate 8 0) (by decide +kernel) (by decide +kernel)
      have h2 := h b!"]" (plain b!"[{\"]") (List.replicate 8 0) (by decide +kernel) (by decide +kernel)
      have h4 := h2.unique (returns_err 60 (by decide +kernel))
      subst h4
      obtain ⟨spans, h7⟩ := returns_spans (newCap := fun _ n => n) (r := plain b!"[{\"\":1}]") (buf := List.replicate 8 0) 60 (by decide +kernel)
      cases h1.unique h7
    · exact (h (lazy b!"[{\"abcdefgh") (List.replicate 8 0) rfl (by decide +kernel)).2.2 rfl (by intro s hs; rw [List.eq_of_mem_replicate hs])

end Verif
