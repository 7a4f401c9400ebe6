import Verif.Props.Endless
import Verif.Proofs.Needed

/-!
# Accepted bodies: what is read of them has only small tokens

If a body with a token that does not fit into the buffer is accepted, then this was decided before the token (C22); without the rest, all tokens are small.
-/

namespace Verif

open Spec

/-- A reader that delivers everything at once. -/
def plainReader (data : Str) : Reader := { data, script := [], failing := false, idle := false }

theorem prefix_split {size : Nat} (h5 : 5 ≤ size) (data : Str) :
    TokensFit size data ∨ ∃ pre t, data = pre ++ t ∧ TokensFit size pre ∧ (∀ c ∈ t.head?, TokenEnds pre c) ∧ (Oversized size t ∨ Filling size t) ∧
      (pre ++ t.take 1).length ≤ data.length ∧ TokensFit size (pre ++ t.take 1) ∧ ∃ q, data = pre ++ t.take 1 ++ q := by
  rcases C22_every_body (by omega : 2 ≤ size) data with h | ⟨pre, t, rfl, h1, h2, h3⟩
  · exact .inl h
  · refine .inr ⟨pre, t, rfl, h1, h2, h3, by simp only [List.length_append, List.length_take]; omega, ?_, t.drop 1, by rw [List.append_assoc, List.take_append_drop]⟩
    cases t with
    | nil => simpa using h1
    | cons c t => exact fits_first (by omega) h1 (h2 c rfl)

theorem accepted_prefix_v2 {newCap : Nat → Nat → Nat} {r : Reader} {buf : List UInt8} (h5 : 5 ≤ buf.length) {spans : List Span}
    (h : Returns (fun fuel => parseJsonV2 newCap fuel r buf) (.spans spans)) :
    ∃ data : Str, data.length ≤ r.data.length ∧ TokensFit buf.length data ∧ ∃ r' : Reader, r'.data = data ∧ Returns (fun fuel => parseJsonV2 newCap fuel r' buf) (.spans spans) := by
  rcases prefix_split h5 r.data with hfit | ⟨pre, t, e, h1, h2, h3, hle, hfit, q, hq⟩
  · exact ⟨r.data, Nat.le_refl _, hfit, r, rfl, h⟩
  · refine ⟨pre ++ t.take 1, hle, hfit, plainReader (pre ++ t.take 1), rfl, ?_⟩
    have never : ¬ ∀ fuel, parseJsonV2 newCap fuel r buf = .timeout := fun hn => by
      obtain ⟨N, hN⟩ := h
      have := (hN N (Nat.le_refl _)).symm.trans (hn N)
      cases this
    have decided : (∃ out, out ≠ .panic ∧ out ≠ .timeout ∧ ∀ (q : List UInt8) (r : Reader) (buf' : List UInt8), r.data = pre ++ t.take 1 ++ q → buf.length ≤ buf'.length →
        Returns (fun fuel => parseJsonV2 newCap fuel r buf') out) → Returns (fun fuel => parseJsonV2 newCap fuel (plainReader (pre ++ t.take 1)) buf) (.spans spans) := by
      rintro ⟨out, _, _, ho⟩
      have e1 := (ho q r buf hq (Nat.le_refl _)).unique h
      subst e1
      exact ho [] _ buf (by simp [plainReader]) (Nat.le_refl _)
    rcases h3 with h3 | h3
    · rcases C22_exact_v2 newCap h5 h1 h2 h3 with ho | hn
      · exact decided ho
      · exact absurd (hn r buf e rfl) never
    · rcases C22_edge_v2 newCap h5 h1 h2 h3 with ho | hn
      · exact decided ho
      · rcases (hn r buf e rfl).1 with hn | hn
        · exact absurd hn never
        · have := hn.unique h
          cases this

theorem accepted_prefix_v1 {newCap : Nat → Nat → Nat} {r : Reader} {buf : List UInt8} (h5 : 5 ≤ buf.length) {pool pool' : List SpanV1} {spans : List Span}
    (h : Returns (fun fuel => parseJsonV1 newCap fuel r buf pool) (.spans spans, pool')) :
    ∃ data : Str, data.length ≤ r.data.length ∧ TokensFit buf.length data ∧ ∃ r' : Reader, r'.data = data ∧ Returns (fun fuel => parseJsonV1 newCap fuel r' buf pool) (.spans spans, pool') := by
  rcases prefix_split h5 r.data with hfit | ⟨pre, t, e, h1, h2, h3, hle, hfit, q, hq⟩
  · exact ⟨r.data, Nat.le_refl _, hfit, r, rfl, h⟩
  · refine ⟨pre ++ t.take 1, hle, hfit, plainReader (pre ++ t.take 1), rfl, ?_⟩
    have h' : Returns (fun fuel => (parseJsonV1 newCap fuel r buf pool).1) (.spans spans) := by
      obtain ⟨N, hN⟩ := h
      exact ⟨N, fun fuel hf => congrArg Prod.fst (hN fuel hf)⟩
    have never : ¬ ∀ fuel, (parseJsonV1 newCap fuel r buf pool).1 = .timeout := fun hn => by
      obtain ⟨N, hN⟩ := h'
      have := (hN N (Nat.le_refl _)).symm.trans (hn N)
      cases this
    have decided : (∃ out, out.1 ≠ .panic ∧ out.1 ≠ .timeout ∧ ∀ (q : List UInt8) (r : Reader) (buf' : List UInt8), r.data = pre ++ t.take 1 ++ q → buf.length ≤ buf'.length →
        Returns (fun fuel => parseJsonV1 newCap fuel r buf' pool) out) → Returns (fun fuel => parseJsonV1 newCap fuel (plainReader (pre ++ t.take 1)) buf pool) (.spans spans, pool') := by
      rintro ⟨out, _, _, ho⟩
      have e1 := (ho q r buf hq (Nat.le_refl _)).unique h
      subst e1
      exact ho [] _ buf (by simp [plainReader]) (Nat.le_refl _)
    rcases h3 with h3 | h3
    · rcases C22_exact_v1 newCap pool h5 h1 h2 h3 with ho | hn
      · exact decided ho
      · exact absurd (hn r buf e rfl) never
    · rcases C22_edge_v1 newCap pool h5 h1 h2 h3 with ho | hn
      · exact decided ho
      · rcases (hn r buf e rfl).1 with hn | hn
        · exact absurd hn never
        · have := hn.unique h'
          cases this

end Verif
