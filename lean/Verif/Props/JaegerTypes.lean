import Verif.Proofs.JaegerTypes

/-!
# Jaeger documents with values of the wrong type (C77)
-/

namespace Verif

open Spec

theorem scanNumber_head {c : UInt8} {s item rest : Str} (h : scanNumber (c :: s) = some (item, rest)) : item.head? = some c := by
  unfold scanNumber at h
  simp only [Option.bind_eq_bind] at h
  by_cases hc : c = c!"-"
  · rw [if_pos hc] at h
    simp only at h
    obtain ⟨x, _, h⟩ := Option.bind_eq_some_iff.mp h
    obtain ⟨y, _, h⟩ := Option.bind_eq_some_iff.mp h
    obtain ⟨z, _, h⟩ := Option.bind_eq_some_iff.mp h
    cases h
    rfl
  · rw [if_neg hc] at h
    simp only at h
    obtain ⟨x, hx, h⟩ := Option.bind_eq_some_iff.mp h
    obtain ⟨y, _, h⟩ := Option.bind_eq_some_iff.mp h
    obtain ⟨z, _, h⟩ := Option.bind_eq_some_iff.mp h
    unfold scanInteger at hx
    simp only at hx
    split at hx
    · cases hx; cases h; rfl
    · split at hx
      · cases hx; cases h; rfl
      · cases hx

/-- A document in which some value does not have the type that the format defines for its place is rejected as a whole, whatever comes after it: no span of it is
forwarded. -/
theorem C77_wrong_type {floatFails : Str → Bool} {j v : Json} {w t s : Str} (hw : Blank w) (ht : Writes JsonNumber j t) {path : List JsonStep} {ty : JaegerType}
    (hp : (path, ty) ∈ jaegerPlaces) (hat : JsonAt path j v) (hty : ¬ HasType (GoNumber floatFails) ty v) : RejectsJaeger floatFails (w ++ t ++ s) := by
  apply rejectsJaeger
  by_cases hj : ∃ n, j = .number n
  · obtain ⟨n, rfl⟩ := hj
    cases ht with
    | number hn =>
      obtain ⟨c, t', rfl, hc⟩ := number_head hn
      obtain ⟨hsp, g1, g2, g3, g4, g5, g6, _⟩ := digit_head hc
      unfold goDecodeJaeger
      rw [List.append_assoc, skipSpace_blank hw, List.cons_append, skipSpace_cons hsp, scanValue]
      simp only [g1, g2, g3, g4, g5, g6, if_false]
      cases h : scanNumber (c :: (t' ++ s)) with
      | none => rfl
      | some r =>
        have := scanNumber_head h
        simp only [Option.map_some, Option.bind_eq_bind, Option.bind_some, storeObject, storeStruct]
        rw [if_neg]
        · rfl
        · intro e
          rw [e] at this
          injection this with this
          subst this
          exact absurd rfl g6
  · exact goDecodeJaeger_fails hw ht (fun n hn => absurd ⟨n, hn⟩ hj) hp hat hty

/-- A span with a name that is a number. -/
theorem C77_witness : ∃ (j v : Json), Writes JsonNumber j b!"{\"data\":[{\"spans\":[{\"spanID\":\"1f\",\"operationName\":7}]}]}" ∧
    JsonAt [.name b!"data", .element, .name b!"spans", .element, .name b!"operationName"] j v ∧ ¬ HasType (GoNumber fun _ => false) .text v := by
  have h7 : JsonNumber b!"7" := ⟨[], b!"7", [], [], by decide, by decide, by decide, .inl rfl, .inl rfl⟩
  have hw := writes_object1 (key := b!"data") ⟨_, text_json (by decide)⟩ (writes_array1 (writes_object1 (key := b!"spans") ⟨_, text_json (by decide)⟩
    (writes_array1 (writes_object2 (k1 := b!"spanID") (k2 := b!"operationName") ⟨_, text_json (by decide)⟩ (Writes.string (N := JsonNumber) ⟨b!"1f", text_json (by decide)⟩)
      ⟨_, text_json (by decide)⟩ (Writes.number h7)))))
  refine ⟨_, _, hw, .member (List.mem_cons_self ..) (text_utf8 (by decide)) (.element (List.mem_cons_self ..) (.member (List.mem_cons_self ..) (text_utf8 (by decide))
    (.element (List.mem_cons_self ..) (.member (List.mem_cons_of_mem _ (List.mem_cons_self ..)) (text_utf8 (by decide)) (.here _))))), ?_⟩
  rintro (h | ⟨_, h⟩) <;> cases h

end Verif
