import Verif.Proofs.Truncate
import Verif.Props.Endless

/-!
# What is behind the bytes that a decoder needs may be of any size
-/

namespace Verif

open Spec (TokensFit FitsFrom LexState)

theorem stringEnd_extend {esc : Bool} {s : List UInt8} (h : (scanString esc s).isSome) (q : List UInt8) : stringEnd esc (s ++ q) = stringEnd esc s := by
  induction s generalizing esc with
  | nil => simp [scanString] at h
  | cons c s ih =>
    cases esc with
    | true =>
      simp only [scanString, Option.isSome_map] at h
      simp only [List.cons_append, stringEnd, ih h]
    | false =>
      simp only [scanString] at h
      simp only [List.cons_append, stringEnd]
      by_cases hb : c = c!"\\"
      · rw [if_pos hb, Option.isSome_map] at h
        rw [if_pos hb, if_pos hb, ih h]
      · rw [if_neg hb] at h
        rw [if_neg hb, if_neg hb]
        by_cases hq : c = c!"\""
        · rw [if_pos hq, if_pos hq]
        · rw [if_neg hq, Option.isSome_map] at h
          rw [if_neg hq, if_neg hq, ih h]

theorem Op.fits_extend {size : Nat} (o : Op) {s s' : List UInt8} {a : o.Res} (h : o.stream s = .ok a s') (hf : o.Fits size s) (q : List UInt8) : o.Fits size (s ++ q) := by
  cases o with
  | readString =>
    cases s with
    | nil => simp [Op.stream] at h
    | cons c s =>
      intro t ht
      rw [List.cons_append] at ht
      injection ht with e1 e2
      subst e1 e2
      simp only [Op.stream, ne_eq, not_true_eq_false, if_false] at h
      cases hs : scanString false s with
      | none => rw [hs] at h; cases h
      | some r => rw [stringEnd_extend (by rw [hs]; rfl)]; exact hf _ rfl
  | readNumber =>
    cases s with
    | nil => simp [Op.stream] at h
    | cons c s =>
      intro c' t ht hc
      rw [List.cons_append] at ht
      injection ht with e1 e2
      subst e1 e2
      have hne : s.dropWhile numberChar ≠ [] := by
        intro he
        simp [Op.stream, hc, he] at h
      rw [takeWhile_append_ne hne]
      exact hf _ _ rfl hc
  | _ => trivial

theorem Prog.fits_extend {σ : Type} {size : Nat} {prog : Prog σ} {r r' : Bool} {s s' : List UInt8} {m : σ} (h : prog.stream r s = .ok m r' s') (hf : prog.Fits size s) (q : List UInt8) :
    prog.Fits size (s ++ q) := by
  induction prog generalizing r s with
  | op o m' k ih =>
    simp only [Prog.stream] at h
    split at h
    · cases h
    · unfold Prog.Fits at hf ⊢
      cases ho : o.stream s with
      | ok a s1 =>
        rw [ho] at h hf
        refine ⟨o.fits_extend ho hf.1 q, ?_⟩
        rw [o.stream_extend ho q]
        exact ih a h hf.2
      | err => rw [ho] at h; cases h
      | bad => rw [ho] at h; cases h
  | _ => trivial

/-- If a decoder needs some bytes and they fit, then it does the same whatever follows, though this may not fit. -/
theorem Settles.anything {σ : Type} {d : Nat → Prog σ} {p q : Str} {m : σ} {b : Bool} (hs : Settles d p (.ok m b [])) {size : Nat} (h0 : 0 < size)
    (hfit : TokensFit size p) {ps : Parser} (hp : ps.Ok) (hb : size ≤ ps.buffer.length) (hr : ps.rest = p ++ q) {fuel : Nat} (hf : 2 * p.length + ps.work < fuel) :
    DecodesAs size ps ((d fuel).run fuel ps) (.ok m b q) := by
  have h1 := hs.later fuel (by omega)
  have h2 := Prog.run_agrees_read h0 (d fuel) fuel ps false hp hb (by omega) (by rw [hr]; exact Prog.fits_extend h1 ((d fuel).fits_tokens h0 hfit) q) (by simp)
  rw [hr, Prog.stream_extend h1 q, List.nil_append] at h2
  exact h2

theorem outcomeV2_anything {newCap : Nat → Nat → Nat} {size : Nat} (h0 : 0 < size) {p : Str} (hfit : TokensFit size p) {m : GoSlice SpanV2} {b : Bool}
    (hs : Settles (fun fuel => decoderSliceSpanV2 newCap fuel { cells := [], len := 0 }) p (.ok m b [])) (q : Str) (r : Reader) (buf : List UInt8) (hr : r.data = p ++ q)
    (hb : size ≤ buf.length) : Returns (fun fuel => parseJsonV2 newCap fuel r buf) (.spans (m.elems.map SpanV2.toSpan)) := by
  refine ⟨2 * p.length + (Parser.newWithReader r buf).work + 1, fun fuel hf => ?_⟩
  obtain ⟨p', e, _⟩ := hs.anything h0 hfit (newWithReader_ok r buf) hb (by rw [newWithReader_rest, hr]) (fuel := fuel) (by omega)
  simp only [parseJsonV2, e]

theorem outcomeV1_anything {newCap : Nat → Nat → Nat} {pool : List SpanV1} {size : Nat} (h0 : 0 < size) {p : Str} (hfit : TokensFit size p) {m : GoSlice SpanV1} {b : Bool}
    (hs : Settles (fun fuel => decoderSliceSpanV1 newCap fuel { cells := pool, len := 0 }) p (.ok m b [])) (q : Str) (r : Reader) (buf : List UInt8) (hr : r.data = p ++ q)
    (hb : size ≤ buf.length) : Returns (fun fuel => parseJsonV1 newCap fuel r buf pool) (.spans (m.elems.map SpanV1.toSpan), m.cells.take pool.length) := by
  refine ⟨2 * p.length + (Parser.newWithReader r buf).work + 1, fun fuel hf => ?_⟩
  obtain ⟨p', e, _⟩ := hs.anything h0 hfit (newWithReader_ok r buf) hb (by rw [newWithReader_rest, hr]) (fuel := fuel) (by omega)
  simp only [parseJsonV1, e]

theorem fitsFrom_snoc {size : Nat} {l : List UInt8} {st : LexState} {c : UInt8} (h : FitsFrom size st l) (hc : ((st.after l).next c).size < size) : FitsFrom size st (l ++ [c]) := by
  induction l generalizing st with
  | nil => exact ⟨hc, trivial⟩
  | cons a l ih => exact ⟨h.1, ih h.2 hc⟩

/-- The first byte of the next token fits. -/
theorem fits_first {size : Nat} (h2 : 2 ≤ size) {pre : List UInt8} {c : UInt8} (h : TokensFit size pre) (hend : Spec.TokenEnds pre c) : TokensFit size (pre ++ [c]) := by
  have start : (LexState.start c).size < size := by
    unfold LexState.start
    (repeat' split) <;> simp only [LexState.size] <;> omega
  refine fitsFrom_snoc h ?_
  rcases hend with h | ⟨⟨n, h⟩, hc⟩
  · rw [h]; exact start
  · rw [h]
    simp only [LexState.next, if_neg hc]
    exact start

/-- A body that is accepted has a first part of small tokens which is accepted with anything behind it. -/
theorem accepted_v2 {newCap : Nat → Nat → Nat} {r : Reader} {buf : List UInt8} (h5 : 5 ≤ buf.length) {spans : List Span}
    (h : Returns (fun fuel => parseJsonV2 newCap fuel r buf) (.spans spans)) :
    ∃ a b, r.data = a ++ b ∧ TokensFit buf.length a ∧ ∃ r' : Reader, r'.data = a ∧ Returns (fun fuel => parseJsonV2 newCap fuel r' buf) (.spans spans) := by
  rcases C22_every_body (size := buf.length) (by omega) r.data with hf | ⟨pre, t, e, hf, hend, hbig⟩
  · exact ⟨r.data, [], by simp, hf, r, rfl, h⟩
  · have decided : ∃ out, out ≠ .panic ∧ out ≠ .timeout ∧ ∀ (q : List UInt8) (r : Reader) (buf' : List UInt8), r.data = pre ++ t.take 1 ++ q → buf.length ≤ buf'.length →
        Returns (fun fuel => parseJsonV2 newCap fuel r buf') out := by
      rcases hbig with hbig | hbig
      · rcases C22_exact_v2 newCap h5 hf hend hbig with h1 | h1
        · exact h1
        · obtain ⟨n, hn⟩ := h
          have := hn n (Nat.le_refl _)
          simp only [h1 r buf e rfl n] at this
          cases this
      · rcases C22_edge_v2 newCap h5 hf hend hbig with h1 | h1
        · exact h1
        · rcases (h1 r buf e rfl).1 with h2 | h2
          · obtain ⟨n, hn⟩ := h
            have := hn n (Nat.le_refl _)
            simp only [h2 n] at this
            cases this
          · cases Returns.unique h h2
    obtain ⟨out, _, _, hout⟩ := decided
    have : out = .spans spans := Returns.unique (hout (t.drop 1) r buf (by rw [e, List.append_assoc, List.take_append_drop]) (Nat.le_refl _)) h
    subst this
    refine ⟨pre ++ t.take 1, t.drop 1, by rw [e, List.append_assoc, List.take_append_drop], ?_, { r with data := pre ++ t.take 1 }, rfl, hout [] _ _ (by simp) (Nat.le_refl _)⟩
    cases t with
    | nil => simpa using hf
    | cons c t => exact fits_first (by omega) hf (hend c rfl)

theorem accepted_v1 {newCap : Nat → Nat → Nat} {pool : List SpanV1} {r : Reader} {buf : List UInt8} (h5 : 5 ≤ buf.length) {spans : List Span} {pool' : List SpanV1}
    (h : Returns (fun fuel => parseJsonV1 newCap fuel r buf pool) (.spans spans, pool')) :
    ∃ a b, r.data = a ++ b ∧ TokensFit buf.length a ∧ ∃ r' : Reader, r'.data = a ∧ Returns (fun fuel => parseJsonV1 newCap fuel r' buf pool) (.spans spans, pool') := by
  rcases C22_every_body (size := buf.length) (by omega) r.data with hf | ⟨pre, t, e, hf, hend, hbig⟩
  · exact ⟨r.data, [], by simp, hf, r, rfl, h⟩
  · have decided : ∃ out, out.1 ≠ .panic ∧ out.1 ≠ .timeout ∧ ∀ (q : List UInt8) (r : Reader) (buf' : List UInt8), r.data = pre ++ t.take 1 ++ q → buf.length ≤ buf'.length →
        Returns (fun fuel => parseJsonV1 newCap fuel r buf' pool) out := by
      rcases hbig with hbig | hbig
      · rcases C22_exact_v1 newCap pool h5 hf hend hbig with h1 | h1
        · exact h1
        · obtain ⟨n, hn⟩ := h
          have := congrArg Prod.fst (hn n (Nat.le_refl _))
          simp only [h1 r buf e rfl n] at this
          cases this
      · rcases C22_edge_v1 newCap pool h5 hf hend hbig with h1 | h1
        · exact h1
        · rcases (h1 r buf e rfl).1 with h2 | h2
          · obtain ⟨n, hn⟩ := h
            have := congrArg Prod.fst (hn n (Nat.le_refl _))
            simp only [h2 n] at this
            cases this
          · obtain ⟨n, hn⟩ := h
            have h' : Returns (fun fuel => (parseJsonV1 newCap fuel r buf pool).1) (.spans spans) := ⟨n, fun fuel hf => congrArg Prod.fst (hn fuel hf)⟩
            cases Returns.unique h' h2
    obtain ⟨out, _, _, hout⟩ := decided
    have : out = (.spans spans, pool') := Returns.unique (hout (t.drop 1) r buf (by rw [e, List.append_assoc, List.take_append_drop]) (Nat.le_refl _)) h
    subst this
    refine ⟨pre ++ t.take 1, t.drop 1, by rw [e, List.append_assoc, List.take_append_drop], ?_, { r with data := pre ++ t.take 1 }, rfl, hout [] _ _ (by simp) (Nat.le_refl _)⟩
    cases t with
    | nil => simpa using hf
    | cons c t => exact fits_first (by omega) hf (hend c rfl)

end Verif
