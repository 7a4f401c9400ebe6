import Verif.Proofs.Document

/-!
# Decoding spans of documents
-/

namespace Verif

open Spec

section
variable {S : Str → Str → Prop} (hS : Readable S)
include hS

/-! ## Endpoints -/

theorem reads_endpoint {j : Json} {e : Endpoint} (h : EndpointOf S j e) : ReadsJson endpointValueDecoder j {} e := by
  cases h with
  | object hn hd h1 =>
    rename_i ms nms
    let upd : Str → Endpoint → Endpoint := fun k m => { serviceName := if k = b!"serviceName" then e.serviceName else m.serviceName }
    have f1 := fold_field (upd := upd) Endpoint.serviceName b!"serviceName" e.serviceName (fun _ _ => rfl) nms {}
    have hs : Steps (fun _ => [(b!"serviceName", stringValueDecoder.field Endpoint.serviceName fun v e => { e with serviceName := v })]) nms {}
        (nms.foldl (fun m n => upd n.1 m) {}) := by
      refine steps_fold upd nms {} fun pre name j post he => ?_
      have hj : (name, j) ∈ nms := by rw [he]; simp
      generalize pre.foldl (fun m n => upd n.1 m) {} = m
      by_cases k1 : name = b!"serviceName"
      · subst k1
        exact .inl ⟨_, fun _ => rfl, (reads_string hS (Member.of_mem h1 hd hj) m.serviceName).field⟩
      · refine .inr ⟨fun fuel => ?_, ?_⟩
        · simp only [List.lookup, beq_false_of_ne k1]
        · simp only [upd, k1, if_false]
    have e1 : nms.foldl (fun m n => upd n.1 m) {} = e := by
      have : (nms.foldl (fun m n => upd n.1 m) ({} : Endpoint)).serviceName = e.serviceName := f1.trans (Member.value h1)
      cases e
      exact congrArg Endpoint.mk this
    rw [e1] at hs
    exact struct_reads hS hn hs

/-! ## Version 2 -/

theorem reads_spanV2 {j : Json} {v : SpanV2} (h : SpanV2Of S j v) (m : SpanV2) : ReadsJson spanV2ValueDecoder j m v := by
  cases h with
  | object hn hd h1 h2 h3 h4 h5 h6 h7 h8 h9 =>
    rename_i ms nms
    let upd : Str → SpanV2 → SpanV2 := fun k m => {
      id := if k = b!"id" then v.id else m.id,
      traceId := if k = b!"traceId" then v.traceId else m.traceId,
      parentId := if k = b!"parentId" then v.parentId else m.parentId,
      timestamp := if k = b!"timestamp" then v.timestamp else m.timestamp,
      duration := if k = b!"duration" then v.duration else m.duration,
      name := if k = b!"name" then v.name else m.name,
      tags := if k = b!"tags" then v.tags else m.tags,
      kind := if k = b!"kind" then v.kind else m.kind,
      endpoint := if k = b!"localEndpoint" then v.endpoint else m.endpoint }
    have hs : Steps spanV2Fields nms {} (nms.foldl (fun m n => upd n.1 m) {}) := by
      refine steps_fold upd nms {} fun pre name j post he => ?_
      have hj : (name, j) ∈ nms := by rw [he]; simp
      have hend : name = b!"localEndpoint" → (pre.foldl (fun m n => upd n.1 m) {}).endpoint = {} := by
        rintro rfl
        rw [fold_field (upd := upd) SpanV2.endpoint b!"localEndpoint" v.endpoint (fun _ _ => rfl) pre {}, if_neg (not_mem_prefix hd he)]
      generalize pre.foldl (fun m n => upd n.1 m) {} = m at hend ⊢
      by_cases k1 : name = b!"id"
      · subst k1
        exact .inl ⟨_, fun _ => rfl, (reads_id hS (Member.of_mem h1 hd hj) m.id).field⟩
      by_cases k2 : name = b!"traceId"
      · subst k2
        exact .inl ⟨_, fun _ => rfl, (reads_id hS (Member.of_mem h2 hd hj) m.traceId).field⟩
      by_cases k3 : name = b!"parentId"
      · subst k3
        exact .inl ⟨_, fun _ => rfl, (reads_id hS (Member.of_mem h3 hd hj) m.parentId).field⟩
      by_cases k4 : name = b!"timestamp"
      · subst k4
        exact .inl ⟨_, fun _ => rfl, (reads_micros (Member.of_mem h4 hd hj) m.timestamp).field⟩
      by_cases k5 : name = b!"duration"
      · subst k5
        exact .inl ⟨_, fun _ => rfl, (reads_micros (Member.of_mem h5 hd hj) m.duration).field⟩
      by_cases k6 : name = b!"name"
      · subst k6
        exact .inl ⟨_, fun _ => rfl, (reads_string hS (Member.of_mem h6 hd hj) m.name).field⟩
      by_cases k7 : name = b!"tags"
      · subst k7
        exact .inl ⟨_, fun _ => rfl, (reads_tags hS (Member.of_mem h7 hd hj) m.tags).field⟩
      by_cases k8 : name = b!"kind"
      · subst k8
        exact .inl ⟨_, fun _ => rfl, (reads_string hS (Member.of_mem h8 hd hj) m.kind).field⟩
      by_cases k9 : name = b!"localEndpoint"
      · subst k9
        have := reads_endpoint hS (Member.of_mem h9 hd hj)
        rw [← hend rfl] at this
        exact .inl ⟨_, fun _ => rfl, this.field⟩
      refine .inr ⟨fun fuel => ?_, ?_⟩
      · simp only [spanV2Fields, List.lookup, beq_false_of_ne k1, beq_false_of_ne k2, beq_false_of_ne k3, beq_false_of_ne k4, beq_false_of_ne k5,
          beq_false_of_ne k6, beq_false_of_ne k7, beq_false_of_ne k8, beq_false_of_ne k9]
      · simp only [upd, k1, k2, k3, k4, k5, k6, k7, k8, k9, if_false]
    have f1 := (fold_field (upd := upd) SpanV2.id b!"id" v.id (fun _ _ => rfl) nms {}).trans (Member.value h1)
    have f2 := (fold_field (upd := upd) SpanV2.traceId b!"traceId" v.traceId (fun _ _ => rfl) nms {}).trans (Member.value h2)
    have f3 := (fold_field (upd := upd) SpanV2.parentId b!"parentId" v.parentId (fun _ _ => rfl) nms {}).trans (Member.value h3)
    have f4 := (fold_field (upd := upd) SpanV2.timestamp b!"timestamp" v.timestamp (fun _ _ => rfl) nms {}).trans (Member.value h4)
    have f5 := (fold_field (upd := upd) SpanV2.duration b!"duration" v.duration (fun _ _ => rfl) nms {}).trans (Member.value h5)
    have f6 := (fold_field (upd := upd) SpanV2.name b!"name" v.name (fun _ _ => rfl) nms {}).trans (Member.value h6)
    have f7 := (fold_field (upd := upd) SpanV2.tags b!"tags" v.tags (fun _ _ => rfl) nms {}).trans (Member.value h7)
    have f8 := (fold_field (upd := upd) SpanV2.kind b!"kind" v.kind (fun _ _ => rfl) nms {}).trans (Member.value h8)
    have f9 := (fold_field (upd := upd) SpanV2.endpoint b!"localEndpoint" v.endpoint (fun _ _ => rfl) nms {}).trans (Member.value h9)
    have e : nms.foldl (fun m n => upd n.1 m) {} = v := by
      generalize nms.foldl (fun m n => upd n.1 m) {} = x at *
      cases x
      cases v
      simp only at f1 f2 f3 f4 f5 f6 f7 f8 f9
      subst f1 f2 f3 f4 f5 f6 f7 f8 f9
      rfl
    rw [e] at hs
    exact struct_reads hS hn hs

/-! ## Version 1 -/

theorem reads_annotation {j : Json} {v : AnnotationV1} (h : AnnotationOf S j v) :
    ReadsJson (fun fuel => makeStructDecoder fuel (annotationV1Fields fuel)) j {} v := by
  cases h with
  | object hn hd h1 h2 h3 =>
    rename_i ms nms
    let upd : Str → AnnotationV1 → AnnotationV1 := fun k m => {
      timestamp := if k = b!"timestamp" then v.timestamp else m.timestamp,
      value := if k = b!"value" then v.value else m.value,
      endpoint := if k = b!"endpoint" then v.endpoint else m.endpoint }
    have hs : Steps annotationV1Fields nms {} (nms.foldl (fun m n => upd n.1 m) {}) := by
      refine steps_fold upd nms {} fun pre name j post he => ?_
      have hj : (name, j) ∈ nms := by rw [he]; simp
      have hend : name = b!"endpoint" → (pre.foldl (fun m n => upd n.1 m) {}).endpoint = {} := by
        rintro rfl
        rw [fold_field (upd := upd) AnnotationV1.endpoint b!"endpoint" v.endpoint (fun _ _ => rfl) pre {}, if_neg (not_mem_prefix hd he)]
      generalize pre.foldl (fun m n => upd n.1 m) {} = m at hend ⊢
      by_cases k1 : name = b!"timestamp"
      · subst k1
        exact .inl ⟨_, fun _ => rfl, (reads_micros (Member.of_mem h1 hd hj) m.timestamp).field⟩
      by_cases k2 : name = b!"value"
      · subst k2
        exact .inl ⟨_, fun _ => rfl, (reads_string hS (Member.of_mem h2 hd hj) m.value).field⟩
      by_cases k3 : name = b!"endpoint"
      · subst k3
        have := reads_endpoint hS (Member.of_mem h3 hd hj)
        rw [← hend rfl] at this
        exact .inl ⟨_, fun _ => rfl, this.field⟩
      refine .inr ⟨fun fuel => ?_, ?_⟩
      · simp only [annotationV1Fields, List.lookup, beq_false_of_ne k1, beq_false_of_ne k2, beq_false_of_ne k3]
      · simp only [upd, k1, k2, k3, if_false]
    have f1 := (fold_field (upd := upd) AnnotationV1.timestamp b!"timestamp" v.timestamp (fun _ _ => rfl) nms {}).trans (Member.value h1)
    have f2 := (fold_field (upd := upd) AnnotationV1.value b!"value" v.value (fun _ _ => rfl) nms {}).trans (Member.value h2)
    have f3 := (fold_field (upd := upd) AnnotationV1.endpoint b!"endpoint" v.endpoint (fun _ _ => rfl) nms {}).trans (Member.value h3)
    have e : nms.foldl (fun m n => upd n.1 m) {} = v := by
      generalize nms.foldl (fun m n => upd n.1 m) {} = x at *
      cases x
      cases v
      simp only at f1 f2 f3
      subst f1 f2 f3
      rfl
    rw [e] at hs
    exact struct_reads hS hn hs

theorem reads_binaryAnnotation {j : Json} {v : BinaryAnnotationV1} (h : BinaryAnnotationOf S j v) :
    ReadsJson (fun fuel => makeStructDecoder fuel (binaryAnnotationV1Fields fuel)) j {} v := by
  cases h with
  | object hn hd h1 h2 h3 =>
    rename_i ms nms
    let upd : Str → BinaryAnnotationV1 → BinaryAnnotationV1 := fun k m => {
      key := if k = b!"key" then v.key else m.key,
      value := if k = b!"value" then v.value else m.value,
      endpoint := if k = b!"endpoint" then v.endpoint else m.endpoint }
    have hs : Steps binaryAnnotationV1Fields nms {} (nms.foldl (fun m n => upd n.1 m) {}) := by
      refine steps_fold upd nms {} fun pre name j post he => ?_
      have hj : (name, j) ∈ nms := by rw [he]; simp
      have hend : name = b!"endpoint" → (pre.foldl (fun m n => upd n.1 m) {}).endpoint = {} := by
        rintro rfl
        rw [fold_field (upd := upd) BinaryAnnotationV1.endpoint b!"endpoint" v.endpoint (fun _ _ => rfl) pre {}, if_neg (not_mem_prefix hd he)]
      generalize pre.foldl (fun m n => upd n.1 m) {} = m at hend ⊢
      by_cases k1 : name = b!"key"
      · subst k1
        exact .inl ⟨_, fun _ => rfl, (reads_string hS (Member.of_mem h1 hd hj) m.key).field⟩
      by_cases k2 : name = b!"value"
      · subst k2
        exact .inl ⟨_, fun _ => rfl, (reads_scalar hS (Member.of_mem h2 hd hj) m.value).field⟩
      by_cases k3 : name = b!"endpoint"
      · subst k3
        have := reads_endpoint hS (Member.of_mem h3 hd hj)
        rw [← hend rfl] at this
        exact .inl ⟨_, fun _ => rfl, this.field⟩
      refine .inr ⟨fun fuel => ?_, ?_⟩
      · simp only [binaryAnnotationV1Fields, List.lookup, beq_false_of_ne k1, beq_false_of_ne k2, beq_false_of_ne k3]
      · simp only [upd, k1, k2, k3, if_false]
    have f1 := (fold_field (upd := upd) BinaryAnnotationV1.key b!"key" v.key (fun _ _ => rfl) nms {}).trans (Member.value h1)
    have f2 := (fold_field (upd := upd) BinaryAnnotationV1.value b!"value" v.value (fun _ _ => rfl) nms {}).trans (Member.value h2)
    have f3 := (fold_field (upd := upd) BinaryAnnotationV1.endpoint b!"endpoint" v.endpoint (fun _ _ => rfl) nms {}).trans (Member.value h3)
    have e : nms.foldl (fun m n => upd n.1 m) {} = v := by
      generalize nms.foldl (fun m n => upd n.1 m) {} = x at *
      cases x
      cases v
      simp only at f1 f2 f3
      subst f1 f2 f3
      rfl
    rw [e] at hs
    exact struct_reads hS hn hs

theorem pairwise_annotations {l : List Json} {as : List AnnotationV1} (h : Pairwise₂ (AnnotationOf S) l as) :
    Pairwise₂ (fun j v => ReadsJson (fun fuel => makeStructDecoder fuel (annotationV1Fields fuel)) j {} v) l as := by
  induction h with
  | nil => exact .nil
  | cons h _ ih => exact .cons (reads_annotation hS h) ih

theorem reads_annotations {j : Json} {v : List AnnotationV1} (h : AnnotationsOf S j v) :
    ReadsJson (fun fuel => makeArrayDecoder fuel {} (makeStructDecoder fuel (annotationV1Fields fuel))) j (List.replicate 4 {}) v := by
  cases h with
  | array h => exact array_reads (pairwise_annotations hS h)

theorem pairwise_binaryAnnotations {l : List Json} {as : List BinaryAnnotationV1} (h : Pairwise₂ (BinaryAnnotationOf S) l as) :
    Pairwise₂ (fun j f => ∀ a, a = ({} : BinaryAnnotationV1) →
      ReadsJson (fun fuel => makeStructDecoder fuel (binaryAnnotationV1Fields fuel)) j a (f a)) l (as.map fun v _ => v) := by
  induction h with
  | nil => exact .nil
  | cons h _ ih =>
    refine .cons ?_ ih
    rintro a rfl
    exact reads_binaryAnnotation hS h

theorem reads_binaryAnnotations (newCap : Nat → Nat → Nat) {j : Json} {v : List BinaryAnnotationV1} (h : BinaryAnnotationsOf S j v)
    {s : GoSlice BinaryAnnotationV1} (hs : Fresh {} (· = {}) 0 s) :
    ReadsJson (fun fuel => makeSliceDecoder newCap fuel {} (makeStructDecoder fuel (binaryAnnotationV1Fields fuel))) j s
      (pushAll newCap {} (v.map fun v _ => v) 0 s) := by
  cases h with
  | array h => exact slice_reads (good := (· = {})) rfl (pairwise_binaryAnnotations hS h) hs

/-- What is left in a pooled span behind its binary annotations. -/
def Clean (s : SpanV1) : Prop :=
  s.binaryAnnotations.len ≤ s.binaryAnnotations.cells.length ∧
    ∀ i, s.binaryAnnotations.len ≤ i → s.binaryAnnotations.cells.getD i {} = {}

omit hS in
theorem reset_fresh {s : SpanV1} (h : Clean s) : Fresh {} (· = {}) 0 s.reset.binaryAnnotations := by
  refine ⟨rfl, Nat.zero_le _, fun i _ => ?_⟩
  obtain ⟨h1, h2⟩ := h
  have he : s.binaryAnnotations.elems.length = s.binaryAnnotations.len := by simp [GoSlice.elems]; omega
  simp only [SpanV1.reset, List.getD_eq_getElem?_getD, he]
  by_cases hi : i < s.binaryAnnotations.len
  · rw [List.getElem?_append_left (by simpa using hi), List.getElem?_replicate, if_pos hi]
    rfl
  · rw [List.getElem?_append_right (by simpa using hi), List.getElem?_drop, List.length_replicate]
    have := h2 i (by omega)
    rw [List.getD_eq_getElem?_getD] at this
    rw [show s.binaryAnnotations.len + (i - s.binaryAnnotations.len) = i by omega]
    exact this

/-- What decoding a span into a clean pooled one gives. -/
def decodedV1 (newCap : Nat → Nat → Nat) (present : Bool) (v : SpanV1) (a : SpanV1) : SpanV1 :=
  { v with binaryAnnotations :=
      if present then pushAll newCap {} (v.binaryAnnotations.elems.map fun v _ => v) 0 a.reset.binaryAnnotations else a.reset.binaryAnnotations }

theorem reads_spanWith (newCap : Nat → Nat → Nat) {B : Json → List BinaryAnnotationV1 → Prop} {good : SpanV1 → Prop}
    (hB : ∀ (j : Json) (v : List BinaryAnnotationV1) (a : SpanV1), B j v → good a →
      ReadsJson (fun fuel => makeSliceDecoder newCap fuel {} (makeStructDecoder fuel (binaryAnnotationV1Fields fuel))) j a.reset.binaryAnnotations
        (pushAll newCap {} (v.map fun v _ => v) 0 a.reset.binaryAnnotations))
    {j : Json} {v : SpanV1} (h : SpanV1With B S j v) :
    ∃ present, (present = false → v.binaryAnnotations.elems = []) ∧
      ∀ a, good a → ReadsJson (spanV1ValueDecoder newCap) j a (decodedV1 newCap present v a) := by
  cases h with
  | object hn hd h1 h2 h3 h4 h5 h6 h7 h8 =>
    rename_i ms nms
    refine ⟨decide (b!"binaryAnnotations" ∈ nms.map (·.1)), fun hp => ?_, fun a ha => ?_⟩
    · rcases h8 with ⟨j, hj, _⟩ | ⟨_, e⟩
      · exact absurd (List.mem_map_of_mem (f := (·.1)) hj) (by simpa using hp)
      · exact e
    let b := pushAll newCap {} (v.binaryAnnotations.elems.map fun v _ => v) 0 a.reset.binaryAnnotations
    let upd : Str → SpanV1 → SpanV1 := fun k m => {
      id := if k = b!"id" then v.id else m.id,
      traceId := if k = b!"traceId" then v.traceId else m.traceId,
      parentId := if k = b!"parentId" then v.parentId else m.parentId,
      timestamp := if k = b!"timestamp" then v.timestamp else m.timestamp,
      duration := if k = b!"duration" then v.duration else m.duration,
      name := if k = b!"name" then v.name else m.name,
      annotations := if k = b!"annotations" then v.annotations else m.annotations,
      binaryAnnotations := if k = b!"binaryAnnotations" then b else m.binaryAnnotations }
    have hs : Steps (spanV1Fields newCap) nms a.reset (nms.foldl (fun m n => upd n.1 m) a.reset) := by
      refine steps_fold upd nms a.reset fun pre name j post he => ?_
      have hj : (name, j) ∈ nms := by rw [he]; simp
      have hann : name = b!"annotations" → (pre.foldl (fun m n => upd n.1 m) a.reset).annotations = List.replicate 4 {} := by
        rintro rfl
        rw [fold_field (upd := upd) SpanV1.annotations b!"annotations" v.annotations (fun _ _ => rfl) pre _, if_neg (not_mem_prefix hd he)]
        rfl
      have hbin : name = b!"binaryAnnotations" → (pre.foldl (fun m n => upd n.1 m) a.reset).binaryAnnotations = a.reset.binaryAnnotations := by
        rintro rfl
        rw [fold_field (upd := upd) SpanV1.binaryAnnotations b!"binaryAnnotations" b (fun _ _ => rfl) pre _, if_neg (not_mem_prefix hd he)]
      generalize pre.foldl (fun m n => upd n.1 m) a.reset = m at hann hbin ⊢
      by_cases k1 : name = b!"id"
      · subst k1
        exact .inl ⟨_, fun _ => rfl, (reads_id hS (Member.of_mem h1 hd hj) m.id).field⟩
      by_cases k2 : name = b!"traceId"
      · subst k2
        exact .inl ⟨_, fun _ => rfl, (reads_id hS (Member.of_mem h2 hd hj) m.traceId).field⟩
      by_cases k3 : name = b!"parentId"
      · subst k3
        exact .inl ⟨_, fun _ => rfl, (reads_id hS (Member.of_mem h3 hd hj) m.parentId).field⟩
      by_cases k4 : name = b!"timestamp"
      · subst k4
        exact .inl ⟨_, fun _ => rfl, (reads_micros (Member.of_mem h4 hd hj) m.timestamp).field⟩
      by_cases k5 : name = b!"duration"
      · subst k5
        exact .inl ⟨_, fun _ => rfl, (reads_micros (Member.of_mem h5 hd hj) m.duration).field⟩
      by_cases k6 : name = b!"name"
      · subst k6
        exact .inl ⟨_, fun _ => rfl, (reads_string hS (Member.of_mem h6 hd hj) m.name).field⟩
      by_cases k7 : name = b!"annotations"
      · subst k7
        have := reads_annotations hS (Member.of_mem h7 hd hj)
        rw [← hann rfl] at this
        exact .inl ⟨_, fun _ => rfl, this.field⟩
      by_cases k8 : name = b!"binaryAnnotations"
      · subst k8
        have := hB _ _ a (Member.of_mem h8 hd hj) ha
        have this : ReadsJson (fun fuel => makeSliceDecoder newCap fuel {} (makeStructDecoder fuel (binaryAnnotationV1Fields fuel))) j
            m.binaryAnnotations b := by rw [hbin rfl]; exact this
        exact .inl ⟨_, fun _ => rfl, this.field⟩
      refine .inr ⟨fun fuel => ?_, ?_⟩
      · simp only [spanV1Fields, List.lookup, beq_false_of_ne k1, beq_false_of_ne k2, beq_false_of_ne k3, beq_false_of_ne k4, beq_false_of_ne k5,
          beq_false_of_ne k6, beq_false_of_ne k7, beq_false_of_ne k8]
      · simp only [upd, k1, k2, k3, k4, k5, k6, k7, k8, if_false]
    have f1 := (fold_field (upd := upd) SpanV1.id b!"id" v.id (fun _ _ => rfl) nms a.reset).trans (Member.value h1)
    have f2 := (fold_field (upd := upd) SpanV1.traceId b!"traceId" v.traceId (fun _ _ => rfl) nms a.reset).trans (Member.value h2)
    have f3 := (fold_field (upd := upd) SpanV1.parentId b!"parentId" v.parentId (fun _ _ => rfl) nms a.reset).trans (Member.value h3)
    have f4 := (fold_field (upd := upd) SpanV1.timestamp b!"timestamp" v.timestamp (fun _ _ => rfl) nms a.reset).trans (Member.value h4)
    have f5 := (fold_field (upd := upd) SpanV1.duration b!"duration" v.duration (fun _ _ => rfl) nms a.reset).trans (Member.value h5)
    have f6 := (fold_field (upd := upd) SpanV1.name b!"name" v.name (fun _ _ => rfl) nms a.reset).trans (Member.value h6)
    have f7 := (fold_field (upd := upd) SpanV1.annotations b!"annotations" v.annotations (fun _ _ => rfl) nms a.reset).trans (Member.value h7)
    have f8 := fold_field (upd := upd) SpanV1.binaryAnnotations b!"binaryAnnotations" b (fun _ _ => rfl) nms a.reset
    have e : nms.foldl (fun m n => upd n.1 m) a.reset = decodedV1 newCap (decide (b!"binaryAnnotations" ∈ nms.map (·.1))) v a := by
      unfold decodedV1
      simp only [decide_eq_true_eq]
      rw [← f8]
      generalize nms.foldl (fun m n => upd n.1 m) a.reset = x at *
      cases x
      cases v
      simp only at f1 f2 f3 f4 f5 f6 f7
      subst f1 f2 f3 f4 f5 f6 f7
      rfl
    rw [e] at hs
    exact struct_reads hS hn hs

theorem reads_spanV1 (newCap : Nat → Nat → Nat) {j : Json} {v : SpanV1} (h : SpanV1Of S j v) :
    ∃ present, (present = false → v.binaryAnnotations.elems = []) ∧
      ∀ a, Clean a → ReadsJson (spanV1ValueDecoder newCap) j a (decodedV1 newCap present v a) :=
  reads_spanWith hS newCap (fun _ _ _ hb ha => reads_binaryAnnotations hS newCap hb (reset_fresh ha)) h

end

end Verif
