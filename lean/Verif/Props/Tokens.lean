import Verif.Proofs.Tokens
import Verif.Proofs.JsonTokens
import Verif.Props.Truncate

/-!
# The layout of a document (C88)
-/

namespace Verif

open Spec

/-! ## C88: only the tokens of a document matter -/

/-- Version 2: documents with the same tokens have the same outcome, however they are delivered. -/
theorem C88_v2 (newCap : Nat → Nat → Nat) {data data' : Str} (h : SameTokens data data') :
    ∃ out, out ≠ .timeout ∧ out ≠ .panic ∧ ∀ x, x = data ∨ x = data' → ∀ (r : Reader) (buf : List UInt8), r.data = x → TokensFit buf.length x → 0 < buf.length →
      Returns (fun fuel => parseJsonV2 newCap fuel r buf) out := by
  have hs := (decodesV2 newCap).settles data
  have hs' := (decodesV2 newCap).settles data'
  have hd := hs.same hs' h
  generalize (decoderSliceSpanV2 newCap (2 * data.length + 1) { cells := [], len := 0 }).stream false data = out at hs hd
  generalize (decoderSliceSpanV2 newCap (2 * data'.length + 1) { cells := [], len := 0 }).stream false data' = out' at hs' hd
  have e : outcomeV2 out = outcomeV2 out' := by
    cases out <;> cases out' <;> first | exact hd.elim | rfl | skip
    · obtain ⟨rfl, _⟩ := hd; rfl
  refine ⟨outcomeV2 out, ?_, ?_, ?_⟩
  · have := hs.noTimeout
    cases out <;> simp [outcomeV2] at this ⊢
  · have := hs.noBad
    cases out <;> simp [outcomeV2] at this ⊢
  · rintro x (rfl | rfl) r buf hr hfit h0
    · exact outcomeV2_returns h0 hfit hs r buf hr (Nat.le_refl _)
    · rw [e]; exact outcomeV2_returns h0 hfit hs' r buf hr (Nat.le_refl _)

/-- Version 1: the same; also the memory that goes back to the pool is the same. -/
theorem C88_v1 (newCap : Nat → Nat → Nat) (pool : List SpanV1) {data data' : Str} (h : SameTokens data data') :
    ∃ out, out.1 ≠ .timeout ∧ out.1 ≠ .panic ∧ ∀ x, x = data ∨ x = data' → ∀ (r : Reader) (buf : List UInt8), r.data = x → TokensFit buf.length x → 0 < buf.length →
      Returns (fun fuel => parseJsonV1 newCap fuel r buf pool) out := by
  have hs := (decodesV1 newCap pool).settles data
  have hs' := (decodesV1 newCap pool).settles data'
  have hd := hs.same hs' h
  generalize (decoderSliceSpanV1 newCap (2 * data.length + 1) { cells := pool, len := 0 }).stream false data = out at hs hd
  generalize (decoderSliceSpanV1 newCap (2 * data'.length + 1) { cells := pool, len := 0 }).stream false data' = out' at hs' hd
  have e : outcomeV1 pool out = outcomeV1 pool out' := by
    cases out <;> cases out' <;> first | exact hd.elim | rfl | skip
    · obtain ⟨rfl, _⟩ := hd; rfl
    · obtain rfl := hd; rfl
  refine ⟨outcomeV1 pool out, ?_, ?_, ?_⟩
  · have := hs.noTimeout
    cases out <;> simp [outcomeV1] at this ⊢
  · have := hs.noBad
    cases out <;> simp [outcomeV1] at this ⊢
  · rintro x (rfl | rfl) r buf hr hfit h0
    · exact outcomeV1_returns h0 hfit hs r buf hr (Nat.le_refl _)
    · rw [e]; exact outcomeV1_returns h0 hfit hs' r buf hr (Nat.le_refl _)

/-- Jaeger: documents with the same tokens of JSON have the same outcome. -/
theorem C88_jaeger {floatFails : Str → Bool} {data data' : Str} (h : SameJson data data') :
    (∃ spans, ParsesJaeger floatFails data spans ∧ ParsesJaeger floatFails data' spans) ∨ (RejectsJaeger floatFails data ∧ RejectsJaeger floatFails data') := by
  have e := goDecodeJaeger_same (floatFails := floatFails) h
  cases hd : goDecodeJaeger floatFails data with
  | some l => exact .inl ⟨_, parsesJaeger hd, parsesJaeger (e.symm.trans hd)⟩
  | none => exact .inr ⟨rejectsJaeger hd, rejectsJaeger (e.symm.trans hd)⟩

/-- A document, printed in two ways; and one without commas and colons, which is the same for versions 1 and 2. -/
theorem C88_witness :
    SameJson b!"[{\"id\":\"1\",\"timestamp\":12}]" b!"[ {\n\t\"id\" : \"1\",\n\t\"timestamp\" : 12\n}\n]" ∧
    SameTokens b!"[{\"id\":\"1\",\"timestamp\":12}]" b!"[ {\n\t\"id\" : \"1\",\n\t\"timestamp\" : 12\n}\n]" ∧
    SameTokens b!"[{\"id\":\"1\",\"timestamp\":12}]" b!"[{\"id\"\"1\"\"timestamp\"12}]" := by
  have hn : JsonNumber b!"12" := ⟨[], b!"12", [], [], rfl, .inl rfl, ⟨by decide, .inr (by decide)⟩, .inl rfl, .inl rfl⟩
  have hl : LooseNumber b!"12" := ⟨_, _, rfl, by decide, by decide⟩
  have q1 : Quoted b!"id" := .char (by decide) (by decide) (.char (by decide) (by decide) .nil)
  have q2 : Quoted b!"1" := .char (by decide) (by decide) .nil
  have q3 : Quoted b!"timestamp" := by repeat first | exact .nil | refine .char (by decide) (by decide) ?_
  have l1 : LiteralText b!"id" := .char (by decide) (by decide) (by decide) (.char (by decide) (by decide) (by decide) .nil)
  have l2 : LiteralText b!"1" := .char (by decide) (by decide) (by decide) .nil
  have l3 : LiteralText b!"timestamp" := by repeat first | exact .nil | refine .char (by decide) (by decide) (by decide) ?_
  have e1 : ∀ s : Str, EndsNumber (c!"}" :: s) := fun s => ⟨_, _, rfl, by decide⟩
  have e2 : ∀ s : Str, EndsNumber (c!"\n" :: s) := fun s => ⟨_, _, rfl, by decide⟩
  have f1 : ∀ s : Str, StopsNumber (c!"}" :: s) := by
    intro s c s' e
    injection e with e _
    subst e
    decide
  have f2 : ∀ s : Str, StopsNumber (c!"\n" :: s) := by
    intro s c s' e
    injection e with e _
    subst e
    decide
  refine ⟨?_, ?_, ?_⟩
  · refine .mark (by decide) (.space (w := []) (w' := b!" ") (by decide) (by decide) (.mark (by decide) (.space (w := []) (w' := b!"\n\t") (by decide) (by decide) ?_)))
    refine .string l1 (.space (w := []) (w' := b!" ") (by decide) (by decide) (.mark (by decide) (.space (w := []) (w' := b!" ") (by decide) (by decide) (.string l2 (.mark (by decide) ?_)))))
    refine .space (w := []) (w' := b!"\n\t") (by decide) (by decide) (.string l3 (.space (w := []) (w' := b!" ") (by decide) (by decide) (.mark (by decide) ?_)))
    refine .space (w := []) (w' := b!" ") (by decide) (by decide) (.number hn (f1 _) (f2 _) (.space (w := []) (w' := b!"\n") (by decide) (by decide) (.mark (by decide) ?_)))
    exact .space (w := []) (w' := b!"\n") (by decide) (by decide) (.same _)
  · refine .punct (by decide) (.space (w := []) (w' := b!" ") (by decide) (by decide) (.punct (by decide) (.space (w := []) (w' := b!"\n\t") (by decide) (by decide) ?_)))
    refine .string q1 (.space (w := b!":") (w' := b!" : ") (by decide) (by decide) (.string q2 (.space (w := b!",") (w' := b!",\n\t") (by decide) (by decide) ?_)))
    refine .string q3 (.space (w := b!":") (w' := b!" : ") (by decide) (by decide) ?_)
    refine .number hl (e1 _) (e2 _) (.space (w := []) (w' := b!"\n") (by decide) (by decide) (.punct (by decide) ?_))
    exact .space (w := []) (w' := b!"\n") (by decide) (by decide) (.same _)
  · refine .punct (by decide) (.punct (by decide) ?_)
    refine .string q1 (.space (w := b!":") (w' := []) (by decide) (by decide) (.string q2 (.space (w := b!",") (w' := []) (by decide) (by decide) ?_)))
    refine .string q3 (.space (w := b!":") (w' := []) (by decide) (by decide) ?_)
    exact .number hl (e1 _) (e1 _) (.same _)

end Verif
