import Verif.Proofs.Diverge
import Verif.Props.JsonString

/-!
# Properties of the JSON parser (C20 to C23)

The fuel of the model is not part of the program, so the theorems speak about what happens with enough of it:
-/

namespace Verif

/-- A call returns this. -/
def Returns {α : Type} (f : Nat → α) (a : α) : Prop := ∃ enough, ∀ fuel, enough ≤ fuel → f fuel = a

theorem Returns.unique {α : Type} {f : Nat → α} {a b : α} (ha : Returns f a) (hb : Returns f b) : a = b := by
  obtain ⟨n, hn⟩ := ha
  obtain ⟨k, hk⟩ := hb
  rw [← hn (max n k) (Nat.le_max_left _ _), hk (max n k) (Nat.le_max_right _ _)]

/-- A decoder for a finite document comes to the same end however the document is delivered. -/
theorem decoder_returns {σ : Type} {size : Nat} (h0 : 0 < size) (d : Nat → Prog σ) (hsafe : ∀ fuel, (d fuel).Safe false)
    (hends : ∀ n fuel, 2 * n < fuel → (d fuel).Ends n 1) (hle : ∀ fuel fuel', fuel ≤ fuel' → (d fuel).Le (d fuel')) {data : List UInt8}
    (hfit : Spec.TokensFit size data) :
    ∃ out, out ≠ .bad ∧ out ≠ .timeout ∧ out = (d (2 * data.length + 1)).stream false data ∧
      ∀ p : Parser, p.Ok → size ≤ p.buffer.length → p.rest = data → ∀ fuel, 2 * data.length + p.work < fuel →
        DecodesAs size p ((d fuel).run fuel p) out := by
  have ht := (hends data.length _ (Nat.lt_succ_self _) false data (Nat.le_refl _)).1
  refine ⟨_, (hsafe _).stream data (by simp), ht, rfl, ?_⟩
  intro p hp hb hr fuel hf
  have := Prog.run_agrees h0 (d fuel) fuel p false hp hb (by omega) (by rw [hr]; exact hfit) (by simp)
  rw [hr, (hle (2 * data.length + 1) fuel (by omega)).stream _ _ ht] at this
  exact this

theorem newWithReader_ok (r : Reader) (buf : List UInt8) : (Parser.newWithReader r buf).Ok := ⟨Nat.le_refl _, Nat.zero_le _⟩

theorem newWithReader_rest (r : Reader) (buf : List UInt8) : (Parser.newWithReader r buf).rest = r.data := by
  simp [Parser.newWithReader, Parser.rest, Parser.window]

theorem newWithBytes_ok (buf : List UInt8) : (Parser.newWithBytes buf).Ok := ⟨Nat.zero_le _, Nat.le_refl _⟩

theorem newWithBytes_rest (buf : List UInt8) : (Parser.newWithBytes buf).rest = buf := by
  simp [Parser.newWithBytes, Parser.rest, Parser.window]

/-! ## C20: string values and the JSON standard -/

/-- The end of a literal of the standard is where the parser finds it. -/
theorem scanString_json {lit v : List UInt8} (h : Spec.JsonString lit v) (s : List UInt8) :
    scanString false (lit ++ c!"\"" :: s) = some (lit, s) := by
  have hex : ∀ {a b c d : UInt8} {r : Nat}, Spec.hex4 a b c d = some r → ∀ x ∈ [a, b, c, d], x ≠ c!"\\" ∧ x ≠ c!"\"" := by
    intro a b c d r h x hx
    have key : ∀ x : UInt8, (Spec.hexDigits.lookup x).isSome → x ≠ c!"\\" ∧ x ≠ c!"\"" := byte_forall (by decide +kernel)
    refine key x ?_
    unfold Spec.hex4 at h
    rcases ha : Spec.hexDigits.lookup a with _ | a' <;> rw [ha] at h
    · simp at h
    rcases hb : Spec.hexDigits.lookup b with _ | b' <;> rw [hb] at h
    · simp at h
    rcases hc : Spec.hexDigits.lookup c with _ | c' <;> rw [hc] at h
    · simp at h
    rcases hd : Spec.hexDigits.lookup d with _ | d' <;> rw [hd] at h
    · simp at h
    simp only [List.mem_cons, List.not_mem_nil, or_false] at hx
    rcases hx with rfl | rfl | rfl | rfl
    · rw [ha]; rfl
    · rw [hb]; rfl
    · rw [hc]; rfl
    · rw [hd]; rfl
  induction h with
  | nil => simp [scanString]
  | char hq hb _ _ ih => simp [scanString, hq, hb, ih]
  | short _ _ ih => simp [scanString, ih]
  | unicode h _ _ ih =>
    have h := hex h
    simp only [List.mem_cons, List.not_mem_nil, or_false, forall_eq_or_imp, forall_eq] at h
    obtain ⟨⟨h1, h2⟩, ⟨h3, h4⟩, ⟨h5, h6⟩, ⟨h7, h8⟩⟩ := h
    simp [scanString, h1, h2, h3, h4, h5, h6, h7, h8, ih]
  | pair hh hl _ _ _ ih =>
    have h := hex hh
    have g := hex hl
    simp only [List.mem_cons, List.not_mem_nil, or_false, forall_eq_or_imp, forall_eq] at h g
    obtain ⟨⟨h1, h2⟩, ⟨h3, h4⟩, ⟨h5, h6⟩, ⟨h7, h8⟩⟩ := h
    obtain ⟨⟨g1, g2⟩, ⟨g3, g4⟩, ⟨g5, g6⟩, ⟨g7, g8⟩⟩ := g
    simp [scanString, h1, h2, h3, h4, h5, h6, h7, h8, g1, g2, g3, g4, g5, g6, g7, g8, ih]

theorem utf8_ne (r : Nat) : ∃ c t, Spec.utf8 r = c :: t := by
  unfold Spec.utf8
  split
  · exact ⟨_, _, rfl⟩
  · split
    · exact ⟨_, _, rfl⟩
    · split
      · exact ⟨_, _, rfl⟩
      · exact ⟨_, _, rfl⟩

/-- The parser's reading of a literal is that of the standard exactly for the plain ones. -/
theorem unescape_iff_plain {lit v : List UInt8} (h : Spec.JsonString lit v) : Spec.unescape lit = some v ↔ Spec.PlainString lit v := by
  refine ⟨?_, unescape_plain⟩
  induction h with
  | nil => exact fun _ => .nil
  | char hq hb hc _ ih =>
    intro hu
    unfold Spec.unescape at hu
    rw [if_pos hb, Option.map_eq_some_iff] at hu
    obtain ⟨w, h1, h2⟩ := hu
    injection h2 with _ h2
    exact .char hq hb hc (ih (by rw [h1, h2]))
  | short h _ ih =>
    rename_i e c lit v _
    intro hu
    unfold Spec.unescape at hu
    rw [if_neg (by simp)] at hu
    have he : e ≠ c!"u" := by
      rintro rfl
      simp [Spec.shortEscapes] at h
    simp only at hu
    rw [if_pos he, Option.map_eq_some_iff] at hu
    obtain ⟨w, h1, h2⟩ := hu
    injection h2 with h2 h3
    subst h2
    have : e = c!"\"" ∨ e = c!"\\" ∨ e = c!"/" := by
      revert h
      have key : ∀ e : UInt8, (e, e) ∈ Spec.shortEscapes → e = c!"\"" ∨ e = c!"\\" ∨ e = c!"/" := byte_forall (by decide +kernel)
      exact key e
    exact .short this (ih (by rw [h1, h3]))
  | unicode h hs _ ih =>
    intro hu
    unfold Spec.unescape at hu
    rw [if_neg (by simp)] at hu
    simp only [ne_eq, not_true_eq_false, if_false, h, Spec.runeBytes, if_neg hs, Option.map_eq_some_iff] at hu
    obtain ⟨w, h1, h2⟩ := hu
    exact .unicode h hs (ih (by rw [h1, List.append_cancel_left h2]))
  | pair hh hl hhi hlo _ _ =>
    rename_i hi lo lit v _ _
    intro hu
    unfold Spec.unescape at hu
    rw [if_neg (by simp)] at hu
    have hs : Spec.Surrogate hi := ⟨hhi.1, by omega⟩
    simp only [ne_eq, not_true_eq_false, if_false, hh, Spec.runeBytes, if_pos hs, Option.map_eq_some_iff] at hu
    obtain ⟨w, _, h2⟩ := hu
    have hf : (0x10000 + (hi - 0xD800) * 0x400 + (lo - 0xDC00)) > 0xFFFF := by omega
    unfold Spec.utf8 at h2
    rw [if_neg (by omega), if_neg (by omega), if_pos (by omega), if_neg (by omega), if_neg (by omega), if_neg (by omega)] at h2
    have h3 := congrArg (fun l => l.head?.map UInt8.toNat) h2
    simp only [List.cons_append, List.head?_cons, Option.map_some, Option.some.injEq, UInt8.toNat_ofNat'] at h3
    omega

/-- What `ReadString` (and so every decoder of a string) returns for a literal of the JSON standard, however it is delivered. -/
def ReadsLiteral (lit v : List UInt8) : Prop :=
  ∀ (s : List UInt8) (r : Reader) (buf : List UInt8), r.data = c!"\"" :: lit ++ c!"\"" :: s →
    Spec.TokensFit buf.length r.data → 0 < buf.length →
    ∃ enough, ∀ fuel, enough ≤ fuel → ∃ p, (stringValueDecoder []).run fuel (Parser.newWithReader r buf) = .ok v p ∧ p.rest = s

theorem readsLiteral {lit v : List UInt8} (hj : Spec.JsonString lit v) {w : List UInt8} (h : Spec.unescape lit = some w) : ReadsLiteral lit w := by
  intro s r buf hr hfit h0
  refine ⟨(Parser.newWithReader r buf).work + 1, fun fuel hf => ?_⟩
  have := Prog.run_agrees h0 (stringValueDecoder []) fuel (Parser.newWithReader r buf) false (newWithReader_ok r buf) (Nat.le_refl _) (by omega)
    (by rw [newWithReader_rest]; exact hfit) (by simp)
  have hst : (stringValueDecoder []).stream false (Parser.newWithReader r buf).rest = .ok w false s := by
    rw [newWithReader_rest, hr]
    have hsp : isCharSpace c!"\"" = false := by decide
    simp [stringValueDecoder, readString, Prog.stream, Op.stream, Op.needsByte, Op.readyAfter, List.dropWhile_cons, hsp,
      scanString_json hj s, h]
  rw [hst] at this
  obtain ⟨p', e1, _, e3, _⟩ := this
  exact ⟨p', e1, e3⟩

/-- Plain literals are read as the standard says. (Missing: literals with an escape for a control character, or a surrogate pair.) -/
theorem C20_string_partial {lit v : List UInt8} (h : Spec.PlainString lit v) : ReadsLiteral lit v :=
  readsLiteral (plain_json h) (unescape_plain h)

/-- A literal is always read as some text. -/
theorem unescape_json {lit v : List UInt8} (h : Spec.JsonString lit v) : ∃ w, Spec.unescape lit = some w := by
  induction h with
  | nil => exact ⟨_, rfl⟩
  | char hq hb hc _ ih =>
    obtain ⟨w, hw⟩ := ih
    exact ⟨_, by unfold Spec.unescape; rw [if_pos hb, hw]; rfl⟩
  | short h _ ih =>
    rename_i e c lit v _
    obtain ⟨w, hw⟩ := ih
    have he : e ≠ c!"u" := by
      rintro rfl
      simp [Spec.shortEscapes] at h
    exact ⟨e :: w, by unfold Spec.unescape; rw [if_neg (by simp)]; simp only; rw [if_pos he, hw]; rfl⟩
  | unicode h hs _ ih =>
    obtain ⟨w, hw⟩ := ih
    exact ⟨_, by unfold Spec.unescape; rw [if_neg (by simp)]; simp only [ne_eq, not_true_eq_false, if_false, h, hw]; rfl⟩
  | pair hh hl _ _ _ ih =>
    obtain ⟨w, hw⟩ := ih
    rename_i hi lo _ _ _ _ _
    refine ⟨Spec.runeBytes hi ++ (Spec.runeBytes lo ++ w), ?_⟩
    unfold Spec.unescape
    rw [if_neg (by simp)]
    simp only [ne_eq, not_true_eq_false, if_false, hh]
    unfold Spec.unescape
    rw [if_neg (by simp)]
    simp only [ne_eq, not_true_eq_false, if_false, hl, hw]
    rfl

/-- A reader that delivers the literal. -/
theorem readsLiteral_unique {lit v w : List UInt8} (hv : ReadsLiteral lit v) (hw : ReadsLiteral lit w) : v = w := by
  -- any reader and any sufficiently large buffer will do
  have fits : ∀ (data : List UInt8) (st : Spec.LexState) (k : Nat), st.size + data.length + 2 ≤ k → Spec.FitsFrom k st data := by
    intro data
    induction data with
    | nil => intro _ _ _; trivial
    | cons c data ih =>
      intro st k hk
      have hb : (Spec.LexState.start c).size ≤ 1 := by
        unfold Spec.LexState.start
        repeat' split
        all_goals simp [Spec.LexState.size]
      have hn : (st.next c).size ≤ st.size + 1 := by
        unfold Spec.LexState.next
        repeat' split
        all_goals simp only [Spec.LexState.size] at hb ⊢
        all_goals omega
      simp only [List.length_cons] at hk
      exact ⟨by omega, ih _ _ (by omega)⟩
  let data : List UInt8 := c!"\"" :: lit ++ c!"\"" :: []
  let r : Reader := { data := data, script := [], failing := false, idle := false }
  let buf : List UInt8 := List.replicate (data.length + 2) 0
  have hf : Spec.TokensFit buf.length r.data := fits _ _ _ (by simp [buf, r, Spec.LexState.size])
  obtain ⟨n, hn⟩ := hv [] r buf rfl hf (by simp [buf])
  obtain ⟨k, hk⟩ := hw [] r buf rfl hf (by simp [buf])
  obtain ⟨p, e, _⟩ := hn (max n k) (Nat.le_max_left _ _)
  obtain ⟨p', e', _⟩ := hk (max n k) (Nat.le_max_right _ _)
  rw [e] at e'
  injection e'

/-- Exactly the plain literals are read as the standard says. -/
theorem C20_exactly_plain {lit v : List UInt8} (h : Spec.JsonString lit v) : ReadsLiteral lit v ↔ Spec.PlainString lit v := by
  refine ⟨fun hr => ?_, C20_string_partial⟩
  obtain ⟨w, hw⟩ := unescape_json h
  have := readsLiteral_unique hr (readsLiteral h hw)
  subst this
  exact (unescape_iff_plain h).mp hw

/-- The property as stated does not hold: the literal `"\n"`, by the standard a line break, is read as the letter `n`; and the literal
`"\ud83d\ude00"`, by the standard the character U+1F600, is read as two replacement characters. -/
theorem C20_fails :
    (Spec.JsonString b!"\\n" [0x0A] ∧ ReadsLiteral b!"\\n" b!"n") ∧
    (Spec.JsonString b!"\\ud83d\\ude00" [0xF0, 0x9F, 0x98, 0x80] ∧
      ReadsLiteral b!"\\ud83d\\ude00" [0xEF, 0xBF, 0xBD, 0xEF, 0xBF, 0xBD]) := by
  have h1 : Spec.JsonString b!"\\n" [0x0A] := .short (e := c!"n") (by decide) .nil
  have h2 : Spec.JsonString b!"\\ud83d\\ude00" [0xF0, 0x9F, 0x98, 0x80] :=
    .pair (h1 := c!"d") (h2 := c!"8") (h3 := c!"3") (h4 := c!"d") (l1 := c!"d") (l2 := c!"e") (l3 := c!"0") (l4 := c!"0")
      (hi := 0xD83D) (lo := 0xDE00) (by decide) (by decide) (by decide) (by decide) .nil
  exact ⟨⟨h1, readsLiteral h1 (by decide +kernel)⟩, ⟨h2, readsLiteral h2 (by decide +kernel)⟩⟩

/-- A plain literal with all its kinds of characters: `a\"€`. -/
theorem C20_witness : Spec.PlainString b!"a\\\"\\u20AC" [0x61, 0x22, 0xE2, 0x82, 0xAC] :=
  .char (by decide) (by decide) (by decide) (.short (.inl rfl)
    (.unicode (h1 := c!"2") (h2 := c!"0") (h3 := c!"A") (h4 := c!"C") (r := 0x20AC) (by decide) (by decide) .nil))

/-! ## C21: the outcome does not depend on the delivery -/

theorem newWithReader_work (r : Reader) (buf : List UInt8) :
    (Parser.newWithReader r buf).work = 2 * r.data.length + r.script.length + 1 := by
  simp [Parser.newWithReader, Parser.work, Parser.available]

/-- ParseJsonV2: for a document without tokens that fill the buffer there is one outcome, not a panic, and the call returns with it: whatever
pieces the reader delivers, whether it ends in the end of the file or in a failure, and whatever the pooled buffer contains. -/
theorem C21_v2 (newCap : Nat → Nat → Nat) {size : Nat} (h0 : 0 < size) {data : List UInt8} (hfit : Spec.TokensFit size data) :
    ∃ out, out ≠ .panic ∧ out ≠ .timeout ∧
      ∀ (r : Reader) (buf : List UInt8), r.data = data → size ≤ buf.length → Returns (fun fuel => parseJsonV2 newCap fuel r buf) out := by
  obtain ⟨out, h1, h2, _, h3⟩ := decoder_returns h0 (fun fuel => decoderSliceSpanV2 newCap fuel { cells := [], len := 0 })
    (fun fuel => decoderSliceSpanV2_safe newCap fuel _ _) (fun n fuel hf => decoderSliceSpanV2_ends newCap hf _ n (Nat.le_refl _))
    (fun _ _ hf => decoderSliceSpanV2_le newCap hf _) hfit
  cases out with
  | ok m ready s =>
    refine ⟨.spans (m.elems.map SpanV2.toSpan), by simp, by simp, fun r buf hr hb => ⟨2 * data.length + (Parser.newWithReader r buf).work + 1, fun fuel hf => ?_⟩⟩
    obtain ⟨p', e, _⟩ := h3 (Parser.newWithReader r buf) (newWithReader_ok r buf) hb (by rw [newWithReader_rest, hr]) fuel (by omega)
    simp only [parseJsonV2, e]
  | err m =>
    refine ⟨.err, by simp, by simp, fun r buf hr hb => ⟨2 * data.length + (Parser.newWithReader r buf).work + 1, fun fuel hf => ?_⟩⟩
    obtain ⟨p', e⟩ := h3 (Parser.newWithReader r buf) (newWithReader_ok r buf) hb (by rw [newWithReader_rest, hr]) fuel (by omega)
    simp only [parseJsonV2, e]
  | bad => exact absurd rfl h1
  | timeout => exact absurd rfl h2

/-- ParseJsonV1: the same, and the memory that goes back to the pool is the same as well. -/
theorem C21_v1 (newCap : Nat → Nat → Nat) (pool : List SpanV1) {size : Nat} (h0 : 0 < size) {data : List UInt8} (hfit : Spec.TokensFit size data) :
    ∃ out, out.1 ≠ .panic ∧ out.1 ≠ .timeout ∧
      ∀ (r : Reader) (buf : List UInt8), r.data = data → size ≤ buf.length → Returns (fun fuel => parseJsonV1 newCap fuel r buf pool) out := by
  obtain ⟨out, h1, h2, _, h3⟩ := decoder_returns h0 (fun fuel => decoderSliceSpanV1 newCap fuel { cells := pool, len := 0 })
    (fun fuel => decoderSliceSpanV1_safe newCap fuel _ _) (fun n fuel hf => decoderSliceSpanV1_ends newCap hf _ n (Nat.le_refl _))
    (fun _ _ hf => decoderSliceSpanV1_le newCap hf _) hfit
  cases out with
  | ok m ready s =>
    refine ⟨(.spans (m.elems.map SpanV1.toSpan), m.cells.take pool.length), by simp, by simp, fun r buf hr hb => ⟨2 * data.length + (Parser.newWithReader r buf).work + 1, fun fuel hf => ?_⟩⟩
    obtain ⟨p', e, _⟩ := h3 (Parser.newWithReader r buf) (newWithReader_ok r buf) hb (by rw [newWithReader_rest, hr]) fuel (by omega)
    simp only [parseJsonV1, e]
  | err m =>
    refine ⟨(.err, m.cells.take pool.length), by simp, by simp, fun r buf hr hb => ⟨2 * data.length + (Parser.newWithReader r buf).work + 1, fun fuel hf => ?_⟩⟩
    obtain ⟨p', e⟩ := h3 (Parser.newWithReader r buf) (newWithReader_ok r buf) hb (by rw [newWithReader_rest, hr]) fuel (by omega)
    simp only [parseJsonV1, e]
  | bad => exact absurd rfl h1
  | timeout => exact absurd rfl h2

/-- The same result, with the same bytes still to be read after a success. -/
def SameOutcome {σ : Type} : Decoded σ → Decoded σ → Prop
  | .ok m p, .ok m' p' => m = m' ∧ p.rest = p'.rest
  | .err m _, .err m' _ => m = m'
  | .timeout, .timeout => True
  | _, _ => False

/-- Any program that uses the parser: on two parsers with the same bytes still to be read, the outcome is the same. -/
theorem C21_any {σ : Type} {size : Nat} (h0 : 0 < size) (prog : Prog σ) (hsafe : prog.Safe false) (p p' : Parser) (h : p.Ok) (h' : p'.Ok)
    (hb : size ≤ p.buffer.length) (hb' : size ≤ p'.buffer.length) (hr : p.rest = p'.rest) (hfit : Spec.TokensFit size p.rest) :
    ∃ enough, ∀ fuel, enough ≤ fuel → SameOutcome (prog.run fuel p) (prog.run fuel p') := by
  refine ⟨p.work + p'.work + 1, fun fuel hf => ?_⟩
  have a := Prog.run_agrees h0 prog fuel p false h hb (by omega) hfit (by simp)
  have a' := Prog.run_agrees h0 prog fuel p' false h' hb' (by omega) (by rw [← hr]; exact hfit) (by simp)
  rw [← hr] at a'
  have hbad := hsafe.stream p.rest (by simp)
  rcases hs : prog.stream false p.rest with ⟨m, rd, s⟩ | m | _ | _ <;> rw [hs] at a a'
  · obtain ⟨q, e, _, e2, _⟩ := a
    obtain ⟨q', e', _, e2', _⟩ := a'
    rw [e, e']
    exact ⟨rfl, by rw [e2, e2']⟩
  · obtain ⟨q, e⟩ := a
    obtain ⟨q', e'⟩ := a'
    rw [e, e']
    rfl
  · exact absurd hs hbad
  · have a : prog.run fuel p = .timeout := a
    have a' : prog.run fuel p' = .timeout := a'
    rw [a, a']
    trivial

/-- Something about the spans of a request that was parsed. -/
def Parsed.view {α : Type} (f : Span → α) : Parsed → Option (List α)
  | .spans l => some (l.map f)
  | _ => none

/-- A document, and two ways to deliver it: at once to a large buffer, and byte by byte to a buffer that is too small for the document. -/
theorem C21_witness :
    let data := b!"[{\"traceId\":\"1f\",\"id\":\"2\",\"name\":\"get\",\"timestamp\":1700}]"
    let once : Reader := { data, script := [], failing := false, idle := false }
    let slow : Reader := { data, script := List.replicate 70 { want := 1, signal := true }, failing := false, idle := true }
    Spec.TokensFit 16 data ∧
    ((parseJsonV2 (fun _ n => n) 500 once (List.replicate 100 7)).view fun s => (s.trace, s.id, s.name, s.timestamp)) =
      some [(0x1f, 2, b!"get", 1700000)] ∧
    ((parseJsonV2 (fun _ n => n) 500 slow (List.replicate 16 0)).view fun s => (s.trace, s.id, s.name, s.timestamp)) =
      some [(0x1f, 2, b!"get", 1700000)] := by
  refine ⟨by decide +kernel, ?_, ?_⟩
  · decide +kernel
  · decide +kernel

/-! ## C22: termination -/

/-- Parsing returns if no string and no number in the body fills the buffer. (Missing: bodies with such a token.) -/
theorem C22_returns_partial (newCap : Nat → Nat → Nat) (r : Reader) (buf : List UInt8) (pool : List SpanV1) (h0 : 0 < buf.length)
    (hfit : Spec.TokensFit buf.length r.data) :
    (∃ out, out ≠ .timeout ∧ Returns (fun fuel => parseJsonV2 newCap fuel r buf) out) ∧
    ∃ out, out.1 ≠ .timeout ∧ Returns (fun fuel => parseJsonV1 newCap fuel r buf pool) out := by
  obtain ⟨out, _, h1, h2⟩ := C21_v2 newCap h0 hfit
  obtain ⟨out', _, h1', h2'⟩ := C21_v1 newCap pool h0 hfit
  exact ⟨⟨out, h1, h2 r buf rfl (Nat.le_refl _)⟩, ⟨out', h1', h2' r buf rfl (Nat.le_refl _)⟩⟩

/-- A body with a name of a field that fills the buffer: parsing never returns, whatever follows, however it is delivered. -/
theorem C22_diverges (newCap : Nat → Nat → Nat) (r : Reader) (buf : List UInt8) (pool : List SpanV1) {key s : List UInt8}
    (hk : buf.length ≤ key.length) (hq : ∀ c ∈ key, c ≠ c!"\"" ∧ c ≠ c!"\\") (hs : s ≠ [])
    (hr : r.data = b!"[{\"" ++ key ++ s) (fuel : Nat) :
    parseJsonV2 newCap fuel r buf = .timeout ∧ (parseJsonV1 newCap fuel r buf pool).1 = .timeout := by
  have hrs : ∀ {σ : Type} (fields : List (Str × ValueDecoder σ)) (m : σ),
      (makeStructDecoder fuel fields m).Diverges buf.length true (c!"{" :: c!"\"" :: (key ++ s)) := by
    intro σ fields m
    refine diverges_consume (by rfl) (by decide) ?_
    cases fuel with
    | zero => exact diverges_timeout
    | succ fuel =>
      unfold structLoop
      refine diverges_nextType (by rfl) (by decide) ?_
      rw [if_neg (by decide)]
      refine diverges_skipWhitespace (by rfl) ?_
      refine diverges_readString ?_ ?_
      · have : s.length ≠ 0 := by simpa using hs
        rw [List.length_append]
        omega
      · rw [List.take_append_of_le_length hk]
        intro c hc
        exact hq c (List.mem_of_mem_take hc)
  have hsl : ∀ {σ : Type} (zero : σ) (d : ValueDecoder σ) (cells : List σ),
      (∀ m, (d m).Diverges buf.length true (c!"{" :: c!"\"" :: (key ++ s))) →
      (makeSliceDecoder newCap fuel zero d { cells := cells, len := 0 }).Diverges buf.length false r.data := by
    intro σ zero d cells hd
    rw [hr]
    refine diverges_consume (by rfl) (by decide) ?_
    cases fuel with
    | zero => exact diverges_timeout
    | succ fuel =>
      unfold sliceLoop
      refine diverges_nextType (by rfl) (by decide) ?_
      rw [if_neg (by decide)]
      exact diverges_andThen (hd _)
  constructor
  · have := hsl (σ := SpanV2) {} (spanV2ValueDecoder fuel) [] (fun m => hrs _ _) fuel (Parser.newWithReader r buf) (newWithReader_ok r buf) rfl
      (newWithReader_rest r buf) (by simp)
    simp only [parseJsonV2, decoderSliceSpanV2, this]
  · have := hsl (σ := SpanV1) {} (spanV1ValueDecoder newCap fuel) pool (fun m => hrs _ _) fuel (Parser.newWithReader r buf) (newWithReader_ok r buf) rfl
      (newWithReader_rest r buf) (by simp)
    simp only [parseJsonV1, decoderSliceSpanV1, this]

/-- The property as stated does not hold: with the buffers of the program (8192 bytes), a body with a name of 8192 letters keeps the request busy
for ever. -/
theorem C22_fails : ∃ body : List UInt8, ∀ (newCap : Nat → Nat → Nat) (r : Reader) (buf : List UInt8) (pool : List SpanV1),
    r.data = body → buf.length = 8192 →
      ∀ fuel, parseJsonV2 newCap fuel r buf = .timeout ∧ (parseJsonV1 newCap fuel r buf pool).1 = .timeout := by
  refine ⟨b!"[{\"" ++ List.replicate 8192 c!"a" ++ b!"\":1}]", fun newCap r buf pool hr hb fuel => ?_⟩
  refine C22_diverges newCap r buf pool (key := List.replicate 8192 c!"a") ?_ ?_ (by simp) hr fuel
  · rw [hb, List.length_replicate]
    exact Nat.le_refl _
  · intro c hc
    rw [List.mem_replicate] at hc
    rw [hc.2]
    decide

/-! ## C23: no panic -/

/-- Programs that call nothing but public methods of the parser, and read arrays and objects with consumers of this kind. -/
inductive UsesPublic : {σ : Type} → Prog σ → Prop
  | done {σ : Type} (m : σ) : UsesPublic (.done m)
  | fail {σ : Type} (m : σ) : UsesPublic (.fail m)
  | nextType {σ : Type} (m : σ) {k : JType → Prog σ} : (∀ t, UsesPublic (k t)) → UsesPublic (nextType m k)
  | consume {σ : Type} (t : Punct) (m : σ) {k : Prog σ} : UsesPublic k → UsesPublic (consume t m k)
  | readString {σ : Type} (m : σ) {k : Str → Prog σ} : (∀ t, UsesPublic (k t)) → UsesPublic (readString m k)
  | readNumber {σ : Type} (m : σ) {k : Str → Prog σ} : (∀ t, UsesPublic (k t)) → UsesPublic (readNumber m k)
  /-- codec/hyperjson/parser.go:310-316 `ReadBoolean` -/
  | readBoolean {σ : Type} (m : σ) {k : Str → Prog σ} : (∀ t, UsesPublic (k t)) →
      UsesPublic (.op .skipWhitespace m fun _ => Verif.readBoolean m k)
  /-- codec/hyperjson/parser.go:298-304 `ReadNull` -/
  | readNull {σ : Type} (m : σ) {k : Str → Prog σ} : (∀ t, UsesPublic (k t)) →
      UsesPublic (.op .skipWhitespace m fun _ => Verif.readNull m k)
  | readLiteral {σ : Type} (m : σ) {k : Str → Prog σ} : (∀ t, UsesPublic (k t)) → UsesPublic (readLiteral m k)
  | skip (fuel : Nat) {σ : Type} (m : σ) {k : Prog σ} : UsesPublic k → UsesPublic ((skipValue fuel).andThen (fun _ => m) fun _ => k)
  | readArray {σ : Type} (fuel : Nat) {consumer : σ → Prog σ} (m : σ) : (∀ m, UsesPublic (consumer m)) → UsesPublic (readArray fuel consumer m)
  | readObject {σ : Type} (fuel : Nat) {consumer : Str → σ → Prog σ} (m : σ) : (∀ key m, UsesPublic (consumer key m)) →
      UsesPublic (readObject fuel consumer m)
  | andThen {τ σ : Type} {p : Prog τ} (f : τ → σ) {k : τ → Prog σ} : UsesPublic p → (∀ m, UsesPublic (k m)) → UsesPublic (p.andThen f k)

theorem readArrayLoop_safe {σ : Type} {consumer : σ → Prog σ} (h : ∀ m, (consumer m).Safe false) (fuel : Nat) (m : σ) (r : Bool) :
    (readArrayLoop consumer fuel m).Safe r := by
  induction fuel generalizing m r with
  | zero => trivial
  | succ fuel ih =>
    unfold readArrayLoop
    refine nextType_safe (fun t => ?_) r
    split
    · exact ⟨fun _ => rfl, fun _ => trivial⟩
    · exact (h m).mono.andThen _ fun _ => ih _ _

theorem readObjectLoop_safe {σ : Type} {consumer : Str → σ → Prog σ} (h : ∀ key m, (consumer key m).Safe false) (fuel : Nat) (m : σ) (r : Bool) :
    (readObjectLoop consumer fuel m).Safe r := by
  induction fuel generalizing m r with
  | zero => trivial
  | succ fuel ih =>
    unfold readObjectLoop
    refine nextType_safe (fun t => ?_) r
    split
    · exact ⟨fun _ => rfl, fun _ => trivial⟩
    · exact ⟨fun _ => rfl, fun key => (h key m).andThen _ fun _ => ih _ _⟩

theorem UsesPublic.safe {σ : Type} {prog : Prog σ} (h : UsesPublic prog) : prog.Safe false := by
  induction h with
  | done m => trivial
  | fail m => trivial
  | nextType m _ ih => exact nextType_safe (fun t => (ih t).mono) _
  | consume t m _ ih => exact consume_safe t ih _
  | readString m _ ih => exact readString_safe ih _
  | readNumber m _ ih => exact readNumber_safe ih _
  | readBoolean m _ ih => exact ⟨by simp [Op.needsByte], fun _ => readBoolean_safe ih⟩
  | readNull m _ ih => exact ⟨by simp [Op.needsByte], fun _ => ⟨fun _ => rfl, ih⟩⟩
  | readLiteral m _ ih => exact readLiteral_safe ih _
  | skip fuel m _ ih => exact (skipValue_safe fuel _).andThen _ fun _ => ih
  | readArray fuel m _ ih => exact consume_safe _ (readArrayLoop_safe ih _ _ _) _
  | readObject fuel m _ ih => exact consume_safe _ (readObjectLoop_safe ih _ _ _) _
  | andThen f _ _ ih1 ih2 => exact ih1.andThen _ ih2

/-- The states of a parser, from its creation on any bytes or reader and any buffer, through calls of any such programs, also after errors. -/
inductive ParserReaches : Parser → Prop
  | reader (r : Reader) (buf : List UInt8) : ParserReaches (Parser.newWithReader r buf)
  | bytes (buf : List UInt8) : ParserReaches (Parser.newWithBytes buf)
  | ok {σ : Type} {p p' : Parser} {prog : Prog σ} {fuel : Nat} {m : σ} : ParserReaches p → UsesPublic prog → prog.run fuel p = .ok m p' →
      ParserReaches p'
  | err {σ : Type} {p p' : Parser} {prog : Prog σ} {fuel : Nat} {m : σ} : ParserReaches p → UsesPublic prog → prog.run fuel p = .err m p' →
      ParserReaches p'

/-- No sequence of calls panics. -/
theorem C23_calls {p : Parser} (h : ParserReaches p) {σ : Type} {prog : Prog σ} (hp : UsesPublic prog) (fuel : Nat) :
    prog.run fuel p ≠ .panic := by
  have hok : p.Ok := by
    clear hp
    induction h with
    | reader r buf => exact newWithReader_ok r buf
    | bytes buf => exact newWithBytes_ok buf
    | ok _ hp hr ih => exact (hp.safe.run _ _ ih (by simp)).2.1 _ _ hr
    | err _ hp hr ih => exact (hp.safe.run _ _ ih (by simp)).2.2 _ _ hr
  exact (hp.safe.run fuel p hok (by simp)).1

/-- Nor does parsing a request: whatever the body, the pieces, the moment of a failure, the buffer (of any size), and the pooled slice. -/
theorem C23_requests (newCap : Nat → Nat → Nat) (fuel : Nat) (r : Reader) (buf : List UInt8) (pool : List SpanV1) :
    parseJsonV2 newCap fuel r buf ≠ .panic ∧ (parseJsonV1 newCap fuel r buf pool).1 ≠ .panic := by
  constructor
  · have := ((decoderSliceSpanV2_safe newCap fuel { cells := [], len := 0 } false).run fuel _ (newWithReader_ok r buf) (by simp)).1
    unfold parseJsonV2
    split
    · simp
    · simp
    · rename_i h; exact absurd h this
    · simp
  · have := ((decoderSliceSpanV1_safe newCap fuel { cells := pool, len := 0 } false).run fuel _ (newWithReader_ok r buf) (by simp)).1
    unfold parseJsonV1
    split
    · simp
    · simp
    · rename_i h; exact absurd h this
    · simp

/-- The operations do panic if they are called where there is no byte: the internal `readString` on an empty buffer. -/
theorem C23_witness : (Op.readString.run 10 (Parser.newWithBytes [])) = .panic ∧
    UsesPublic (readString ([] : Str) fun t => .done t) ∧
    ∃ p, (readString ([] : Str) fun t => .done t).run 10 (Parser.newWithBytes []) = .err [] p :=
  ⟨rfl, .readString _ fun t => .done t, _, rfl⟩

end Verif
