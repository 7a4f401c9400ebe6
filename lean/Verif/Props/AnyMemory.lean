import Verif.Proofs.AnyMemory
import Verif.Props.Server

/-!
# Documents that are answered the same whatever other requests left behind (C28, C91)
-/

namespace Verif

open Spec

theorem Spec.WholeBinaryAnnotationOf.binary {S : Str → Str → Prop} {j : Json} {a : BinaryAnnotationV1} (h : WholeBinaryAnnotationOf S j a) : BinaryAnnotationOf S j a := by
  cases h with
  | object hn hd m1 h1 m2 h2 m3 hn3 hd3 m4 h4 =>
    exact .object hn hd (.inl ⟨_, m1, h1⟩) (.inl ⟨_, m2, h2⟩) (.inl ⟨_, m3, .object hn3 hd3 (.inl ⟨_, m4, h4⟩)⟩)

theorem pairwise_mono {α β : Type} {R Q : α → β → Prop} (h : ∀ a b, R a b → Q a b) {l : List α} {l' : List β} (hl : Pairwise₂ R l l') : Pairwise₂ Q l l' := by
  induction hl with
  | nil => exact .nil
  | cons hr _ ih => exact .cons (h _ _ hr) ih

/-- Spans whose binary annotations say everything are spans. -/
theorem Spec.SpanV1With.spanV1Of {S : Str → Str → Prop} {j : Json} {v : SpanV1} (h : WholeSpanV1Of S j v) : SpanV1Of S j v := by
  cases h with
  | object hn hd h1 h2 h3 h4 h5 h6 h7 h8 =>
    refine .object hn hd h1 h2 h3 h4 h5 h6 h7 ?_
    rcases h8 with ⟨j, hj, hb⟩ | h8
    · refine .inl ⟨j, hj, ?_⟩
      cases hb with
      | array hb =>
        exact .array (pairwise_mono (fun _ _ h => h.binary) hb)
    · exact .inr h8

/-- Whatever earlier requests left in the pooled memory: a document whose binary annotations all have a key, a value and an endpoint with the name of a service is answered with
exactly its spans. (Missing: documents with other binary annotations, see `C28_leaks`.) -/
theorem C28_whole_partial (newCap : Nat → Nat → Nat) (pool : List SpanV1) {l : List Json} {vs : List SpanV1} {w t s : Str}
    (hw : Blank w) (ht : Writes PlainNumber (.array l) t) (hd : Pairwise₂ (WholeSpanV1Of PlainString) l vs) :
    ∃ spans, Pairwise₂ MeansV1 vs spans ∧ ∃ pool', ParsesV1 newCap (w ++ (t ++ s)) pool spans pool' := by
  obtain ⟨pool', _, h⟩ := parsesV1_any readable_plain newCap pool hw ht hd (s := s)
  exact ⟨_, pairwise_map _ toSpanV1_means vs, pool', h⟩

/-- Whatever the other requests are, and however they overlap: a request of version 1 with such a document is answered with exactly its spans. (Missing: documents with other
binary annotations, see `C91_fails`.) -/
theorem C91_whole_partial {newCap : Nat → Nat → Nat} {decodeJaeger : Reader → Option (List JaegerData)} {s : Server} (h : Server.Reachable newCap decodeJaeger s)
    {req : Request} {out : Parsed} (he : (req, out) ∈ s.done) (hr : req.route = .v1) (hc : stringContains b!"application/json" req.contentType = true)
    {body : Reader} (hbody : req.Delivers body) {l : List Json} {vs : List SpanV1} {w t rest : Str} (hdata : body.data = w ++ (t ++ rest)) (hfit : TokensFit 8192 body.data)
    (hw : Blank w) (ht : Writes PlainNumber (.array l) t) (hd : Pairwise₂ (WholeSpanV1Of PlainString) l vs) :
    ∃ spans, Pairwise₂ MeansV1 vs spans ∧ out = .spans spans := by
  obtain ⟨buf, pool, hb, -, hret⟩ := (server_inv h).done _ he
  obtain ⟨pool', _, hp⟩ := parsesV1_any readable_plain newCap pool hw ht hd (s := rest)
  have hlen := hb (by rw [hr]; simp)
  refine ⟨_, pairwise_map _ toSpanV1_means vs, ?_⟩
  obtain ⟨E, hE⟩ := hp body buf hdata (by rw [hlen, ← hdata]; exact hfit) (by rw [hlen]; decide)
  refine hret.unique ⟨E, fun fuel hf => ?_⟩
  have := hE fuel hf
  simp only at this
  simp only [← serveRequest_handle]
  unfold serveRequest
  unfold Request.Delivers at hbody
  simp only [hr, hc, if_true]
  by_cases hg : req.contentEncoding = b!"gzip"
  · rw [if_pos hg] at hbody ⊢
    simp only [hbody, this]
  · rw [if_neg hg] at hbody ⊢
    rw [← hbody, this]

/-! ## What has to be said -/

/-- Without any one of the four, memory of earlier requests is seen: after the same first request, a key, a value, or the name of a service of it is in the span of a second one. -/
theorem C28_needed :
    let body1 := b!"[{\"binaryAnnotations\":[{},{\"key\":\"k\",\"value\":\"x\",\"endpoint\":{\"serviceName\":\"s\"}}],\"binaryAnnotations\":[{}]}]"
    let noKey := b!"[{\"binaryAnnotations\":[{},{\"value\":\"y\",\"endpoint\":{\"serviceName\":\"t\"}}]}]"
    let noValue := b!"[{\"binaryAnnotations\":[{},{\"key\":\"q\",\"endpoint\":{\"serviceName\":\"t\"}}]}]"
    let noEndpoint := b!"[{\"binaryAnnotations\":[{},{\"key\":\"q\",\"value\":\"y\"}]}]"
    let noService := b!"[{\"binaryAnnotations\":[{},{\"key\":\"q\",\"value\":\"y\",\"endpoint\":{}}]}]"
    let newCap : Nat → Nat → Nat := fun _ n => n
    let new : List SpanV1 := List.replicate 64 {}
    ∃ (pool : List SpanV1) (s : Span), ParsesV1 newCap body1 new [s] pool ∧
      (∃ s1 p1, ParsesV1 newCap noKey pool [s1] p1 ∧ s1.tag b!"k" = some b!"y") ∧
      (∃ s2 p2, ParsesV1 newCap noValue pool [s2] p2 ∧ s2.tag b!"q" = some b!"x") ∧
      (∃ s3 p3, ParsesV1 newCap noEndpoint pool [s3] p3 ∧ s3.service = b!"s") ∧
      (∃ s4 p4, ParsesV1 newCap noService pool [s4] p4 ∧ s4.service = b!"s") := by
  let old : BinaryAnnotationV1 := { key := b!"k", value := b!"x", endpoint := { serviceName := b!"s" } }
  let a1 : BinaryAnnotationV1 := { key := b!"k", value := b!"y", endpoint := { serviceName := b!"t" } }
  let a2 : BinaryAnnotationV1 := { key := b!"q", value := b!"x", endpoint := { serviceName := b!"t" } }
  let a3 : BinaryAnnotationV1 := { key := b!"q", value := b!"y", endpoint := { serviceName := b!"s" } }
  let span (a : BinaryAnnotationV1) (len : Nat) : SpanV1 := { binaryAnnotations := { cells := [{}, a], len } }
  refine ⟨span old 1 :: List.replicate 63 {}, (span old 1).toSpan, ?_, ⟨(span a1 2).toSpan, span a1 2 :: List.replicate 63 {}, ?_, ?_⟩,
    ⟨(span a2 2).toSpan, span a2 2 :: List.replicate 63 {}, ?_, ?_⟩, ⟨(span a3 2).toSpan, span a3 2 :: List.replicate 63 {}, ?_, ?_⟩,
    ⟨(span a3 2).toSpan, span a3 2 :: List.replicate 63 {}, ?_, ?_⟩⟩
  · exact parsesV1_of_stream (fuel := 20) (m := { cells := span old 1 :: List.replicate 63 {}, len := 1 }) (b := false) (s := []) rfl
  · exact parsesV1_of_stream (fuel := 20) (m := { cells := span a1 2 :: List.replicate 63 {}, len := 1 }) (b := false) (s := []) rfl
  · decide +kernel
  · exact parsesV1_of_stream (fuel := 20) (m := { cells := span a2 2 :: List.replicate 63 {}, len := 1 }) (b := false) (s := []) rfl
  · decide +kernel
  · exact parsesV1_of_stream (fuel := 20) (m := { cells := span a3 2 :: List.replicate 63 {}, len := 1 }) (b := false) (s := []) rfl
  · decide +kernel
  · exact parsesV1_of_stream (fuel := 20) (m := { cells := span a3 2 :: List.replicate 63 {}, len := 1 }) (b := false) (s := []) rfl
  · decide +kernel

/-- A document whose only binary annotation says everything. -/
theorem C28_whole_witness :
    ∃ (l : List Json) (v : SpanV1) (t : Str),
      b!"[{\"binaryAnnotations\":[{\"key\":\"n\",\"value\":12,\"endpoint\":{\"serviceName\":\"web\"}}]}]" = [] ++ (t ++ []) ∧ Writes PlainNumber (.array l) t ∧
      Pairwise₂ (WholeSpanV1Of PlainString) l [v] ∧ v.binaryAnnotations.elems = [{ key := b!"n", value := b!"12", endpoint := { serviceName := b!"web" } }] := by
  let ems : List (Str × Json) := [(b!"serviceName", .string b!"web")]
  let bin : List (Str × Json) := [(b!"key", .string b!"n"), (b!"value", .number b!"12"), (b!"endpoint", .object ems)]
  let ms : List (Str × Json) := [(b!"binaryAnnotations", .array [.object bin])]
  have we : WritesMembers PlainNumber ems _ := writes_last (by decide) (writes_text (by decide))
  have wb : WritesMembers PlainNumber bin _ := writes_comma (by decide) (writes_text (by decide)) <|
    writes_comma (by decide) (.number (digits_plain (by decide) (by decide))) <| writes_last (by decide) (.object we)
  have wm : WritesMembers PlainNumber ms _ := writes_last (by decide) (.array (.last (w := []) (w' := []) (by decide) (.object wb) (by decide)))
  let b : BinaryAnnotationV1 := { key := b!"n", value := b!"12", endpoint := { serviceName := b!"web" } }
  have hb : WholeBinaryAnnotationOf PlainString (.object bin) b :=
    .object (nms := bin) (enms := ems) (key := .string b!"n") (value := .number b!"12") (service := .string b!"web") (ems := ems)
      (.cons ⟨text_plain (by decide), rfl⟩ <| .cons ⟨text_plain (by decide), rfl⟩ <| .cons ⟨text_plain (by decide), rfl⟩ .nil) (by decide)
      (by simp [bin]) (stringOf_text (by decide)) (by simp [bin]) (.number _) (by simp [bin]) (.cons ⟨text_plain (by decide), rfl⟩ .nil) (by decide)
      (by simp [ems]) (stringOf_text (by decide))
  refine ⟨[.object ms], { binaryAnnotations := { cells := [b], len := 1 } }, _, ?_, .array (.last (w := []) (w' := []) (by decide) (.object wm) (by decide)), .cons ?_ .nil, rfl⟩
  · rfl
  · refine .object (nms := ms) (.cons ⟨text_plain (by decide), rfl⟩ .nil) (by decide) ?_ ?_ ?_ ?_ ?_ ?_ ?_ (.inl ⟨_, List.mem_cons_self .., .array (.cons hb .nil)⟩)
    all_goals exact .inr ⟨by decide, rfl⟩

end Verif
