import Verif.Proofs.JaegerObject
import Verif.Props.Jaeger

/-!
# Exactly which jaeger requests are accepted, and what they stand for (C113)
-/

namespace Verif

open Spec

theorem text_not_numeric {n : Nat} {j : Json} {t : Str} (h : JsonTextOf n j t) (hj : IsNull j ∨ ∃ ms, j = .object ms) : ¬ Numeric t := by
  rintro ⟨c, t', e, hc⟩
  have key : ∀ c : UInt8, c = c!"-" ∨ (c!"0" ≤ c ∧ c ≤ c!"9") → c ≠ c!"{" ∧ c ≠ c!"n" := byte_forall (by decide +kernel)
  have := key c hc
  rcases hj with hj | ⟨ms, rfl⟩
  · cases hj
    cases h with
    | word => exact this.2 (List.cons.inj e).1.symm
  · cases h with
    | emptyObject => exact this.1 (List.cons.inj e).1.symm
    | object => exact this.1 (List.cons.inj e).1.symm

theorem scans_unique {n : Nat} {v v' : Raw} {t : Str} (h : ScansValue n v t) (h' : ScansValue n v' t) : v = v' := by
  have h1 := h.2.2.2 t.length [] (Nat.le_refl _) fun _ c hc => by cases hc
  have h2 := h'.2.2.2 t.length [] (Nat.le_refl _) fun _ c hc => by cases hc
  rw [h1] at h2
  cases h2
  rfl

/-- A request is accepted exactly if it begins with the text of a value that stands for data (after white space), whatever comes after it; and these are the data that it stands for. -/
theorem C113_exact (floatFails : Str → Bool) (data : Str) (l : List JaegerData) :
    goDecodeJaeger floatFails data = some l ↔ ∃ w j t q, data = w ++ (t ++ q) ∧ Blank w ∧ JsonTextOf 10000 j t ∧ JaegerRequest (GoNumber floatFails) j l := by
  have hr := readsAs_request floatFails
  constructor
  · intro h
    simp only [goDecodeJaeger, Option.bind_eq_bind, Option.bind_eq_some_iff] at h
    obtain ⟨⟨v, q⟩, h1, d, h2, h3⟩ := h
    obtain ⟨t, e1, hs⟩ := (scan_sound _).1 _ _ _ _ h1
    obtain ⟨j, hj⟩ := jsonText_value hs.1
    cases scans_unique hs (scanValue_textOf hj)
    obtain ⟨c, t', g3, g4⟩ := hs.2.2.1
    obtain ⟨w, e2, hw, _⟩ := skipSpace_split (s := data) (c := c) (rest := t' ++ q) (by rw [e1, g3]; rfl)
    refine ⟨w, j, t, q, by rw [e2, g3]; rfl, hw, hj, ?_⟩
    cases h3
    exact hr.sound [j] d (by simpa using textOf_fine hj) (by rw [storeAll_single]; exact h2)
  · rintro ⟨w, j, t, q, rfl, hw, hj, hl⟩
    obtain ⟨d, hd, rfl⟩ := hr.complete [j] l (by simpa using textOf_fine hj) hl
    rw [storeAll_single] at hd
    obtain ⟨nms, ho, _⟩ := hl
    have hs := scanValue_textOf hj
    obtain ⟨c, t', g3, g4⟩ := hs.2.2.1
    have e : skipSpace (w ++ (t ++ q)) = t ++ q := by
      rw [g3, List.cons_append]
      exact skipSpace_append hw g4 _
    have h1 : scanValue ((w ++ (t ++ q)).length + 1) maxNestingDepth (skipSpace (w ++ (t ++ q))) = some (rawOf j, q) := by
      rw [e]
      exact hs.2.2.2 _ q (by simp only [List.length_append]; omega) fun hn => absurd hn (text_not_numeric hj (ho.1 j (by simp)))
    simp only [goDecodeJaeger, Option.bind_eq_bind, h1, hd, Option.bind_some]

/-- What a request with this body is answered with, however it is delivered. -/
theorem C113_answer (floatFails : Str → Bool) (data : Str) :
    (∀ l, (∃ w j t q, data = w ++ (t ++ q) ∧ Blank w ∧ JsonTextOf 10000 j t ∧ JaegerRequest (GoNumber floatFails) j l) → ∃ spans, SpansOf l spans ∧ ParsesJaeger floatFails data spans) ∧
    ((¬ ∃ l w j t q, data = w ++ (t ++ q) ∧ Blank w ∧ JsonTextOf 10000 j t ∧ JaegerRequest (GoNumber floatFails) j l) → RejectsJaeger floatFails data) := by
  refine ⟨fun l h => ⟨_, jaegerSpans_of l, parsesJaeger ((C113_exact floatFails data l).mpr h)⟩, fun h => rejectsJaeger ?_⟩
  cases hd : goDecodeJaeger floatFails data with
  | none => rfl
  | some l => exact absurd ⟨l, (C113_exact floatFails data l).mp hd⟩ h

/-- A request stands for at most one thing. -/
theorem C113_unique {floatFails : Str → Bool} {data : Str} {l l' : List JaegerData}
    (h : ∃ w j t q, data = w ++ (t ++ q) ∧ Blank w ∧ JsonTextOf 10000 j t ∧ JaegerRequest (GoNumber floatFails) j l)
    (h' : ∃ w j t q, data = w ++ (t ++ q) ∧ Blank w ∧ JsonTextOf 10000 j t ∧ JaegerRequest (GoNumber floatFails) j l') : l = l' := by
  have h1 := (C113_exact floatFails data l).mpr h
  rw [(C113_exact floatFails data l').mpr h'] at h1
  exact (Option.some.inj h1).symm

/-- The spans that a request stands for. -/
def StandsForSpans (data : Str) (spans : List (List JaegerSpan)) : Prop :=
  ∃ l, l.map (·.spans) = spans ∧ ∃ w j t q, data = w ++ (t ++ q) ∧ Blank w ∧ JsonTextOf 10000 j t ∧ JaegerRequest (GoNumber fun _ => false) j l

theorem standsFor {data : Str} {spans : List (List JaegerSpan)} (h : (goDecodeJaeger (fun _ => false) data).map (fun l => l.map (·.spans)) = some spans) : StandsForSpans data spans := by
  obtain ⟨l, hl, e⟩ := Option.map_eq_some_iff.mp h
  exact ⟨l, e, (C113_exact _ _ _).mp hl⟩

/-- Requests that do not follow the format and are accepted: a time that is given twice, where `null` does not count; the spans given twice, where the first span has the fields of both; `null`; and
names in another case and a text with half a character. An id that is `null` is rejected. -/
theorem C113_examples :
    StandsForSpans b!"{\"data\":[{\"spans\":[{\"startTime\":5,\"startTime\":null}]}]}" [[{ timestamp := 5 }]] ∧
    StandsForSpans b!"{\"data\":[{\"spans\":[{\"spanID\":\"1\"}],\"spans\":[{\"traceID\":\"2\"},{}]}]}" [[{ traceId := 2, spanId := 1 }, {}]] ∧
    StandsForSpans b!" null" [] ∧
    StandsForSpans b!"{\"DATA\":[{\"SPAN\\u017f\":[{\"operationName\":\"a\\ud800\"}]}]} x" [[{ operationName := b!"a" ++ utf8 0xFFFD }]] ∧
    RejectsJaeger (fun _ => false) b!"{\"data\":[{\"spans\":[{\"spanID\":null}]}]}" := by
  refine ⟨standsFor ?_, standsFor ?_, standsFor ?_, standsFor ?_, rejectsJaeger ?_⟩
  · decide +kernel
  · decide +kernel
  · decide +kernel
  · decide +kernel
  · have : (goDecodeJaeger (fun _ => false) b!"{\"data\":[{\"spans\":[{\"spanID\":null}]}]}").isNone = true := by decide +kernel
    exact Option.isNone_iff_eq_none.mp this

end Verif
