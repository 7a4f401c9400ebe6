import Verif.Proofs.Slice
import Verif.Proofs.Truncate

/-!
# C146: documents in memory
-/

namespace Verif

/-- The outcome of a decoder over a parser without more input. -/
def DecodesAsB {σ : Type} (p : Parser) (r : Decoded σ) : SDecoded σ → Prop
  | .ok m _ s => ∃ p', r = .ok m p' ∧ p'.rest = s ∧ p.buffer.length ≤ p'.buffer.length ∧ (c!"\\" ∉ p.rest → p.buffer <+: p'.buffer)
  | .err m => ∃ p', r = .err m p' ∧ p.buffer.length ≤ p'.buffer.length ∧ (c!"\\" ∉ p.rest → p.buffer <+: p'.buffer)
  | .bad => True
  | .timeout => r = .timeout

theorem Prog.run_bytes {σ : Type} (prog : Prog σ) (fuel : Nat) (p : Parser) (ready : Bool) (h : p.Ok) (hend : p.eof = true)
    (hf : p.work < fuel) (hr : ready = true → p.tail < p.head) : DecodesAsB p (prog.run fuel p) (prog.stream ready p.rest) := by
  induction prog generalizing p ready with
  | done m => exact ⟨p, rfl, rfl, Nat.le_refl _, fun _ => List.prefix_refl _⟩
  | fail m => exact ⟨p, rfl, Nat.le_refl _, fun _ => List.prefix_refl _⟩
  | timeout => rfl
  | op o m k ih =>
    unfold Prog.stream
    by_cases hn : (o.needsByte && !ready) = true
    · rw [if_pos hn]
      trivial
    · rw [if_neg hn]
      have hne : o.needsByte = true → p.tail < p.head := by
        intro hb
        rw [hb] at hn
        exact hr (by simpa using hn)
      have ha := o.run_bytes fuel p h hend hf hne
      rcases hst : o.stream p.rest with ⟨a, s⟩ | _ | _
      · rw [hst] at ha
        obtain ⟨p', e1, e2, e3, e4, e5, e6, e7, e8⟩ := ha
        have hrun : (Prog.op o m k).run fuel p = (k a).run fuel p' := by
          simp only [Prog.run, e1]
        have := ih a p' o.readyAfter e2 e3 (by omega) (fun hh => Op.run_ready e1 hh hne)
        rw [e4] at this
        have hmem : c!"\\" ∉ p.rest → c!"\\" ∉ p'.rest := fun hh hm => hh (e7.subset (by rw [← e4]; exact hm))
        simp only
        rw [hrun]
        rcases hd : (k a).stream o.readyAfter s with ⟨m', r', s'⟩ | m' | _ | _ <;> rw [hd] at this
        · obtain ⟨q, q1, q2, q3, q4⟩ := this
          exact ⟨q, q1, q2, by omega, fun hh => by have := q4 (hmem hh); rwa [e8 hh] at this⟩
        · obtain ⟨q, q1, q3, q4⟩ := this
          exact ⟨q, q1, by omega, fun hh => by have := q4 (hmem hh); rwa [e8 hh] at this⟩
        · trivial
        · exact this
      · rw [hst] at ha
        obtain ⟨p', e1, _, e3, e4⟩ := ha
        exact ⟨p', by simp only [Prog.run, e1], e3, e4⟩
      · trivial

theorem newWithBytes_bytes {σ : Type} (prog : Prog σ) (data : Str) {fuel : Nat} (hf : (Parser.newWithBytes data).work < fuel) :
    DecodesAsB (Parser.newWithBytes data) (prog.run fuel (Parser.newWithBytes data)) (prog.stream false data) := by
  have := prog.run_bytes fuel (Parser.newWithBytes data) false (newWithBytes_ok data) rfl hf (by simp)
  rwa [newWithBytes_rest] at this

/-- A document in memory, with strings and numbers of any length, gives what it gives from a reader whose buffer is larger than each of them:
the same memory of the decoder, success or an error, and on success the same bytes left. -/
theorem C146_same_partial {σ : Type} (prog : Prog σ) (hsafe : prog.Safe false) (r : Reader) (buf : List UInt8) (h0 : 0 < buf.length)
    (hfit : Spec.TokensFit buf.length r.data) :
    ∃ enough, ∀ fuel, enough ≤ fuel →
      SameOutcome (prog.run fuel (Parser.newWithBytes r.data)) (prog.run fuel (Parser.newWithReader r buf)) := by
  refine ⟨(Parser.newWithBytes r.data).work + (Parser.newWithReader r buf).work + 1, fun fuel hf => ?_⟩
  have a := newWithBytes_bytes prog r.data (fuel := fuel) (by omega)
  have a' := Prog.run_agrees h0 prog fuel (Parser.newWithReader r buf) false (newWithReader_ok r buf) (Nat.le_refl _) (by omega)
    (by rw [newWithReader_rest]; exact hfit) (by simp)
  rw [newWithReader_rest] at a'
  have hbad := hsafe.stream r.data (by simp)
  rcases hs : prog.stream false r.data with ⟨m, rd, s⟩ | m | _ | _ <;> rw [hs] at a a'
  · obtain ⟨q, e, e2, _⟩ := a
    obtain ⟨q', e', _, e2', _⟩ := a'
    rw [e, e']
    exact ⟨rfl, by rw [e2, e2']⟩
  · obtain ⟨q, e, _⟩ := a
    obtain ⟨q', e'⟩ := a'
    rw [e, e']
    rfl
  · exact absurd hs hbad
  · have a : prog.run fuel _ = .timeout := a
    have a' : prog.run fuel _ = .timeout := a'
    rw [a, a']
    trivial

/-- The decoder returns, without or with an error, and leaves this memory. -/
def ReturnsOn {σ : Type} (d : Nat → Prog σ) (p : Parser) (m : σ) : Prop :=
  ∃ enough, (∀ fuel, enough ≤ fuel → ∃ p', (d fuel).run fuel p = .ok m p') ∨ (∀ fuel, enough ≤ fuel → ∃ p', (d fuel).run fuel p = .err m p')

theorem Decodes.returns {σ : Type} {d : Nat → Prog σ} (h : Decodes d) (data : Str) : ∃ m, ReturnsOn d (Parser.newWithBytes data) m := by
  have hs := h.settles data
  have key : ∀ fuel, (Parser.newWithBytes data).work + 2 * data.length + 1 ≤ fuel → _ := fun fuel hf =>
    hs.later fuel (by omega) ▸ newWithBytes_bytes (d fuel) data (fuel := fuel) (by omega)
  rcases ho : (d (2 * data.length + 1)).stream false data with ⟨m, rd, s⟩ | m | _ | _
  · refine ⟨m, (Parser.newWithBytes data).work + 2 * data.length + 1, Or.inl fun fuel hf => ?_⟩
    have := key fuel hf
    rw [ho] at this
    obtain ⟨q, e, _⟩ := this
    exact ⟨q, e⟩
  · refine ⟨m, (Parser.newWithBytes data).work + 2 * data.length + 1, Or.inr fun fuel hf => ?_⟩
    have := key fuel hf
    rw [ho] at this
    obtain ⟨q, e, _⟩ := this
    exact ⟨q, e⟩
  · exact absurd ho hs.noBad
  · exact absurd ho hs.noTimeout

/-- Decoding spans from memory always returns: no document makes it run forever (compare `C22`) or panic. -/
theorem C146_returns_partial (newCap : Nat → Nat → Nat) (pool : List SpanV1) (data : Str) :
    (∃ m, ReturnsOn (fun fuel => decoderSliceSpanV2 newCap fuel { cells := [], len := 0 }) (Parser.newWithBytes data) m) ∧
    (∃ m, ReturnsOn (fun fuel => decoderSliceSpanV1 newCap fuel { cells := pool, len := 0 }) (Parser.newWithBytes data) m) :=
  ⟨(decodesV2 newCap).returns data, (decodesV1 newCap pool).returns data⟩

/-- The memory of the caller after a decoder has returned. (If `require` allocates another buffer, it starts with the bytes of the first.) -/
def Decoded.bytes {σ : Type} (n : Nat) : Decoded σ → Option Str
  | .ok _ p => some (p.buffer.take n)
  | .err _ p => some (p.buffer.take n)
  | _ => none

/-- A document without a backslash is left as it was. -/
theorem C146_unchanged_partial {σ : Type} (prog : Prog σ) (hsafe : prog.Safe false) (data : Str) (hb : c!"\\" ∉ data) :
    ∃ enough, ∀ fuel, enough ≤ fuel → prog.run fuel (Parser.newWithBytes data) ≠ .panic ∧
      ∀ after, (prog.run fuel (Parser.newWithBytes data)).bytes data.length = some after → after = data := by
  refine ⟨(Parser.newWithBytes data).work + 1, fun fuel hf => ?_⟩
  have a := newWithBytes_bytes prog data (fuel := fuel) (by omega)
  have hbad := hsafe.stream data (by simp)
  rcases hs : prog.stream false data with ⟨m, rd, s⟩ | m | _ | _ <;> rw [hs] at a
  · obtain ⟨q, e, _, _, e2⟩ := a
    obtain ⟨t, ht⟩ := e2 (by rw [newWithBytes_rest]; exact hb)
    rw [e]
    refine ⟨by simp, fun after ha => ?_⟩
    simp only [Decoded.bytes, Option.some.injEq] at ha
    rw [← ha, ← ht]
    simp [Parser.newWithBytes]
  · obtain ⟨q, e, _, e2⟩ := a
    obtain ⟨t, ht⟩ := e2 (by rw [newWithBytes_rest]; exact hb)
    rw [e]
    refine ⟨by simp, fun after ha => ?_⟩
    simp only [Decoded.bytes, Option.some.injEq] at ha
    rw [← ha, ← ht]
    simp [Parser.newWithBytes]
  · exact absurd hs hbad
  · have a : prog.run fuel _ = .timeout := a
    rw [a]
    exact ⟨by simp, fun after ha => by cases ha⟩

/-- The names of the decoded spans. -/
def Decoded.names : Decoded (GoSlice SpanV2) → Option (List Str)
  | .ok m _ => some ((m.cells.take m.len).map (·.name))
  | _ => none

/-- A document in memory with an escape. -/
def escapedDocument : Str := b!"[{\"name\":\"\\u0041\"}]"

/-- The other direction: decoding changes the document, and decoding the same memory again gives another name of the span. -/
theorem C146_fails :
    ((decoderSliceSpanV2 (fun _ n => n) 100 { cells := [], len := 0 }).run 100 (Parser.newWithBytes escapedDocument)).names = some [b!"A"] ∧
    ((decoderSliceSpanV2 (fun _ n => n) 100 { cells := [], len := 0 }).run 100 (Parser.newWithBytes escapedDocument)).bytes escapedDocument.length =
      some b!"[{\"name\":\"Au0041\"}]" ∧
    ((decoderSliceSpanV2 (fun _ n => n) 100 { cells := [], len := 0 }).run 100 (Parser.newWithBytes b!"[{\"name\":\"Au0041\"}]")).names =
      some [b!"Au0041"] := by
  refine ⟨?_, ?_, ?_⟩ <;> decide +kernel

/-- The hypotheses can be met. -/
theorem C146_witness :
    Prog.Safe false (decoderSliceSpanV2 (fun _ n => n) 100 { cells := [], len := 0 }) ∧ c!"\\" ∉ (b!"[{\"name\":\"one\"}]" : Str) ∧
    Spec.TokensFit 16 b!"[{\"name\":\"one\"}]" ∧
    ((decoderSliceSpanV2 (fun _ n => n) 100 { cells := [], len := 0 }).run 100 (Parser.newWithBytes b!"[{\"name\":\"one\"}]")).names = some [b!"one"] :=
  ⟨(decodesV2 _).safe _, by decide, by decide, by decide +kernel⟩

end Verif
