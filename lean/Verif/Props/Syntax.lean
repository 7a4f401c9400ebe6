import Verif.Proofs.Loose
import Verif.Props.Truncate

/-!
# Requests that are not JSON (C79)
-/

namespace Verif

open Spec

/-! ## C79: only JSON is accepted -/

/-- The Jaeger endpoint accepts only bodies that begin with a JSON text, an object or `null`. -/
theorem C79_jaeger {floatFails : Str → Bool} {data : Str}
    (h : ∀ w t q, data = w ++ (t ++ q) → Blank w → JsonText 10000 t → t.head? ≠ some c!"{" ∧ t ≠ b!"null") : RejectsJaeger floatFails data := by
  refine rejectsJaeger ?_
  cases hd : goDecodeJaeger floatFails data with
  | none => rfl
  | some l =>
    obtain ⟨w, t, q, e, ha⟩ := jaeger_accepted hd
    have := h w t q e ha.blank ha.text
    rcases ha.shape with hs | hs
    · exact absurd hs this.1
    · exact absurd hs this.2

/-- Version 2 accepts only bodies that begin with an array of objects of the loose grammar. (Missing: that it is JSON, see `C79_fails`.) -/
theorem C79_v2_partial {data : Str} (h : ∀ w u q, data = w ++ c!"[" :: (u ++ c!"]" :: q) → LooseSpace w → ¬ LooseObjects u) : RejectsV2 data := by
  intro newCap r buf hr hfit h0
  have hs := (decodesV2 newCap).settles data
  have hret := outcomeV2_returns h0 hfit hs r buf hr (Nat.le_refl _)
  cases ho : (decoderSliceSpanV2 newCap (2 * data.length + 1) { cells := [], len := 0 }).stream false data with
  | ok m b q =>
    obtain ⟨w, u, e, hw, hu⟩ := looseObjects_slice (fun a => looseObject_struct (loose_fieldsV2 _) _ _) _ _ _ _ _ _ _ ho
    exact absurd hu (h w u q e hw)
  | err m => rw [ho] at hret; exact hret
  | bad => exact absurd ho hs.noBad
  | timeout => exact absurd ho hs.noTimeout

/-- Version 1: the same. -/
theorem C79_v1_partial {data : Str} (h : ∀ w u q, data = w ++ c!"[" :: (u ++ c!"]" :: q) → LooseSpace w → ¬ LooseObjects u) : RejectsV1 data := by
  intro newCap r buf pool hr hfit h0
  have hs := (decodesV1 newCap pool).settles data
  obtain ⟨E, hE⟩ := outcomeV1_returns h0 hfit hs r buf hr (Nat.le_refl _)
  cases ho : (decoderSliceSpanV1 newCap (2 * data.length + 1) { cells := pool, len := 0 }).stream false data with
  | ok m b q =>
    obtain ⟨w, u, e, hw, hu⟩ := looseObjects_slice (fun a => looseObject_struct (loose_fieldsV1 _ _) _ _) _ _ _ _ _ _ _ ho
    exact absurd hu (h w u q e hw)
  | err m =>
    rw [ho, outcomeV1] at hE
    exact ⟨E, fun fuel hf => congrArg Prod.fst (hE fuel hf)⟩
  | bad => exact absurd ho hs.noBad
  | timeout => exact absurd ho hs.noTimeout

/-! ### Texts that are not JSON -/

/-- No beginning of these bytes is white space and a JSON text. -/
def NotJson (data : Str) : Prop := ∀ n w t q, data = w ++ (t ++ q) → Blank w → ¬ JsonText n t

theorem notJson {c : UInt8} {s : Str} (hc : c = c!"[" ∨ c = c!"{") (h : ∀ n, scanValue (s.length + 1) n (c :: s) = none) : NotJson (c :: s) := by
  intro n w t q e hw ht
  have hw' : w = [] := by
    cases w with
    | nil => rfl
    | cons a w =>
      injection e with e1 e2
      have := hw a (by simp)
      rw [← e1] at this
      rcases hc with rfl | rfl <;> exact absurd this (by decide)
  subst hw'
  rw [List.nil_append] at e
  obtain ⟨v, _, _, _, hv⟩ := scanValue_text ht
  have hl : t.length ≤ s.length + 1 := by
    have := congrArg List.length e
    simp only [List.length_cons, List.length_append] at this
    omega
  have := hv (s.length + 1) q hl (by
    rintro ⟨d, t', e', hd⟩
    rw [e'] at e
    injection e with e1 _
    rw [← e1] at hd
    rcases hc with rfl | rfl <;> exact absurd hd (by decide))
  rw [← e, h n] at this
  cases this

/-- Versions 1 and 2 accept what is not JSON: a member without a colon, and elements without a comma. -/
theorem C79_fails : NotJson b!"[{\"id\" \"1\"}{}]" ∧ (∃ spans, spans.map Span.id = [1, 0] ∧ ParsesV2 b!"[{\"id\" \"1\"}{}]" spans) ∧
    ∀ newCap, ∃ spans pool', spans.map Span.id = [1, 0] ∧ ParsesV1 newCap b!"[{\"id\" \"1\"}{}]" [] spans pool' := by
  refine ⟨?_, ?_, ?_⟩
  · refine notJson (.inl rfl) fun n => ?_
    match n with
    | 0 => rfl
    | 1 => rfl
    | n + 2 => rfl
  · refine ⟨[SpanV2.toSpan { id := 1 }, SpanV2.toSpan {}], rfl, fun newCap r buf hr hfit h0 => ?_⟩
    have hs := (decodesV2 newCap).settles_of (fuel := 8) (data := b!"[{\"id\" \"1\"}{}]")
      (out := .ok (pushAll newCap {} ([{ id := 1 }, {}].map fun v _ => v) 0 { cells := [], len := 0 }) false []) rfl (by simp)
    have := outcomeV2_returns h0 hfit hs r buf hr (Nat.le_refl _)
    have hfresh : Fresh ({} : SpanV2) (fun _ => True) 0 { cells := [], len := 0 } := ⟨rfl, Nat.zero_le _, fun _ _ => trivial⟩
    obtain ⟨_, us, e1, e2⟩ := pushAll_spec (newCap := newCap) (zero := ({} : SpanV2)) (good := fun _ => True) trivial ([{ id := 1 }, {}].map fun v _ => v) hfresh
    rw [outcomeV2, e1, pairwise_const _ e2] at this
    exact this
  · intro newCap
    let fs : List (SpanV1 → SpanV1) := [fun a => { a.reset with id := 1 }, fun a => a.reset]
    have hfresh : Fresh ({} : SpanV1) (fun _ => True) 0 { cells := [], len := 0 } := ⟨rfl, Nat.zero_le _, fun _ _ => trivial⟩
    obtain ⟨_, us, e1, e2⟩ := pushAll_spec (newCap := newCap) (zero := ({} : SpanV1)) (good := fun _ => True) trivial fs hfresh
    refine ⟨us.map SpanV1.toSpan, (pushAll newCap {} fs 0 { cells := [], len := 0 }).cells.take 0, ?_, fun r buf hr hfit h0 => ?_⟩
    rotate_left
    · have hs := (decodesV1 newCap []).settles_of (fuel := 8) (data := b!"[{\"id\" \"1\"}{}]") (out := .ok (pushAll newCap {} fs 0 { cells := [], len := 0 }) false []) rfl (by simp)
      have := outcomeV1_returns h0 hfit hs r buf hr (Nat.le_refl _)
      rw [outcomeV1, e1] at this
      exact this
    · unfold fs at e2
      cases e2 with
      | cons h1 h2 =>
        cases h2 with
        | cons h2 h3 =>
          cases h3
          obtain ⟨a, _, rfl⟩ := h1
          obtain ⟨b, _, rfl⟩ := h2
          rfl

/-- Bodies that are rejected: a JSON document that is not an array, and one in which a brace is missing. For Jaeger also what versions 1 and 2 accept. -/
theorem C79_witness : RejectsV2 b!"{\"id\":\"1\"}" ∧ RejectsV1 b!"{\"id\":\"1\"}" ∧ RejectsV2 b!"[{\"id\":\"1\"]" ∧ RejectsJaeger (fun _ => false) b!"{\"data\" []}" := by
  have h1 : ∀ w u q, b!"{\"id\":\"1\"}" = w ++ c!"[" :: (u ++ c!"]" :: q) → LooseSpace w → ¬ LooseObjects u := by
    intro w u q e _ _
    have : c!"[" ∈ b!"{\"id\":\"1\"}" := by rw [e]; simp
    exact absurd this (by decide)
  refine ⟨C79_v2_partial h1, C79_v1_partial h1, C79_v2_partial ?_, C79_jaeger ?_⟩
  · intro w u q e hw hu
    cases w with
    | cons a w =>
      injection e with e1 _
      have := hw a (by simp)
      rw [← e1] at this
      exact absurd this (by decide)
    | nil =>
      injection e with _ e
      cases hu with
      | nil hw =>
        cases u with
        | nil => injection e with e1 _; exact absurd e1 (by decide)
        | cons a u =>
          injection e with e1 _
          have := hw a (by simp)
          rw [← e1] at this
          exact absurd this (by decide)
      | cons _ _ _ =>
        have : c!"}" ∈ b!"{\"id\":\"1\"]" := by rw [e]; simp
        exact absurd this (by decide)
  · intro w t q e hw ht
    exact absurd ht (notJson (.inr rfl) (fun n => by
      match n with
      | 0 => rfl
      | n + 1 => rfl) 10000 w t q e hw)

end Verif
