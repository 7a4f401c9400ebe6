import Verif.Props.Document

/-!
# Decoding documents of version 1 into any memory

A binary annotation that says everything overwrites all of the memory it is decoded into, whatever was there.
-/

namespace Verif

open Spec

section
variable {S : Str → Str → Prop} (hS : Readable S)
include hS

omit hS in
theorem value_of_mem {nms : List (Str × Json)} (hd : (nms.map (·.1)).Nodup) {name : Str} {j j' : Json} (h : (name, j) ∈ nms) (h' : (name, j') ∈ nms) : j = j' := by
  have hm : Member nms name (fun j a => a = j) j j := .inl ⟨j, h, rfl⟩
  exact Member.of_mem hm hd h'

theorem reads_wholeEndpoint {ems enms : List (Str × Json)} (hn : Named S ems enms) (hd : (enms.map (·.1)).Nodup) {j : Json} {service : Str}
    (hm : (b!"serviceName", j) ∈ enms) (hs : StringOf S j service) (e : Endpoint) :
    ReadsJson endpointValueDecoder (.object ems) e { serviceName := service } := by
  let upd : Str → Endpoint → Endpoint := fun k m => { serviceName := if k = b!"serviceName" then service else m.serviceName }
  have f1 := fold_field (upd := upd) Endpoint.serviceName b!"serviceName" service (fun _ _ => rfl) enms e
  have hst : Steps (fun _ => [(b!"serviceName", stringValueDecoder.field Endpoint.serviceName fun v e => { e with serviceName := v })]) enms e
      (enms.foldl (fun m n => upd n.1 m) e) := by
    refine steps_fold upd enms e fun pre name j' post he => ?_
    have hj : (name, j') ∈ enms := by rw [he]; simp
    generalize pre.foldl (fun m n => upd n.1 m) e = m
    by_cases k1 : name = b!"serviceName"
    · subst k1
      cases value_of_mem hd hm hj
      exact .inl ⟨_, fun _ => rfl, (reads_string hS hs m.serviceName).field⟩
    · refine .inr ⟨fun fuel => ?_, ?_⟩
      · simp only [List.lookup, beq_false_of_ne k1]
      · simp only [upd, k1, if_false]
  have e1 : enms.foldl (fun m n => upd n.1 m) e = { serviceName := service } := by
    rw [if_pos (List.mem_map_of_mem (f := (·.1)) hm)] at f1
    exact congrArg Endpoint.mk f1
  rw [e1] at hst
  exact struct_reads hS hn hst

theorem reads_wholeBinaryAnnotation {j : Json} {v : BinaryAnnotationV1} (h : WholeBinaryAnnotationOf S j v) (a : BinaryAnnotationV1) :
    ReadsJson (fun fuel => makeStructDecoder fuel (binaryAnnotationV1Fields fuel)) j a v := by
  cases h with
  | object hn hd m1 h1 m2 h2 m3 hn3 hd3 m4 h4 =>
    rename_i ms nms ems enms key value service
    let upd : Str → BinaryAnnotationV1 → BinaryAnnotationV1 := fun k m => {
      key := if k = b!"key" then v.key else m.key,
      value := if k = b!"value" then v.value else m.value,
      endpoint := if k = b!"endpoint" then v.endpoint else m.endpoint }
    have hs : Steps binaryAnnotationV1Fields nms a (nms.foldl (fun m n => upd n.1 m) a) := by
      refine steps_fold upd nms a fun pre name j post he => ?_
      have hj : (name, j) ∈ nms := by rw [he]; simp
      generalize pre.foldl (fun m n => upd n.1 m) a = m
      by_cases k1 : name = b!"key"
      · subst k1
        cases value_of_mem hd m1 hj
        exact .inl ⟨_, fun _ => rfl, (reads_string hS h1 m.key).field⟩
      by_cases k2 : name = b!"value"
      · subst k2
        cases value_of_mem hd m2 hj
        exact .inl ⟨_, fun _ => rfl, (reads_scalar hS h2 m.value).field⟩
      by_cases k3 : name = b!"endpoint"
      · subst k3
        cases value_of_mem hd m3 hj
        have : ReadsJson endpointValueDecoder (.object ems) m.endpoint v.endpoint := reads_wholeEndpoint hS hn3 hd3 m4 h4 m.endpoint
        exact .inl ⟨_, fun _ => rfl, this.field⟩
      refine .inr ⟨fun fuel => ?_, ?_⟩
      · simp only [binaryAnnotationV1Fields, List.lookup, beq_false_of_ne k1, beq_false_of_ne k2, beq_false_of_ne k3]
      · simp only [upd, k1, k2, k3, if_false]
    have f1 := fold_field (upd := upd) BinaryAnnotationV1.key b!"key" v.key (fun _ _ => rfl) nms a
    have f2 := fold_field (upd := upd) BinaryAnnotationV1.value b!"value" v.value (fun _ _ => rfl) nms a
    have f3 := fold_field (upd := upd) BinaryAnnotationV1.endpoint b!"endpoint" v.endpoint (fun _ _ => rfl) nms a
    rw [if_pos (List.mem_map_of_mem (f := (·.1)) m1)] at f1
    rw [if_pos (List.mem_map_of_mem (f := (·.1)) m2)] at f2
    rw [if_pos (List.mem_map_of_mem (f := (·.1)) m3)] at f3
    have e : nms.foldl (fun m n => upd n.1 m) a = v := by
      generalize nms.foldl (fun m n => upd n.1 m) a = x at *
      cases x
      cases v
      simp only at f1 f2 f3
      subst f1 f2 f3
      rfl
    rw [e] at hs
    exact struct_reads hS hn hs

theorem pairwise_wholeBinaryAnnotations {l : List Json} {as : List BinaryAnnotationV1} (h : Pairwise₂ (WholeBinaryAnnotationOf S) l as) :
    Pairwise₂ (fun j f => ∀ a, True → ReadsJson (fun fuel => makeStructDecoder fuel (binaryAnnotationV1Fields fuel)) j a (f a)) l (as.map fun v _ => v) := by
  induction h with
  | nil => exact .nil
  | cons h _ ih => exact .cons (fun a _ => reads_wholeBinaryAnnotation hS h a) ih

omit hS in
theorem reset_any (s : SpanV1) : Fresh {} (fun _ => True) 0 s.reset.binaryAnnotations := ⟨rfl, Nat.zero_le _, fun _ _ => trivial⟩

theorem reads_wholeSpanV1 (newCap : Nat → Nat → Nat) {j : Json} {v : SpanV1} (h : WholeSpanV1Of S j v) :
    ∃ present, (present = false → v.binaryAnnotations.elems = []) ∧
      ∀ a, True → ReadsJson (spanV1ValueDecoder newCap) j a (decodedV1 newCap present v a) := by
  refine reads_spanWith hS newCap (good := fun _ => True) (fun j l a hb _ => ?_) h
  cases hb with
  | array hb => exact slice_reads (good := fun _ => True) trivial (pairwise_wholeBinaryAnnotations hS hb) (reset_any a)

omit hS in
theorem decodedV1_any (newCap : Nat → Nat → Nat) {present : Bool} {v : SpanV1} (a : SpanV1) (hp : present = false → v.binaryAnnotations.elems = []) :
    (decodedV1 newCap present v a).toSpan = v.toSpan := by
  have e0 : a.reset.binaryAnnotations.elems = [] := rfl
  cases present with
  | false =>
    simp only [decodedV1, SpanV1.toSpan, hp rfl]
    rfl
  | true =>
    obtain ⟨_, us, e1, e2⟩ := pushAll_spec (newCap := newCap) (good := fun _ => True) trivial (v.binaryAnnotations.elems.map fun v _ => v) (reset_any a)
    rw [e0, List.nil_append, pairwise_const _ e2] at e1
    simp only [decodedV1, SpanV1.toSpan, if_true, e1]

theorem pairwise_wholeSpans (newCap : Nat → Nat → Nat) {l : List Json} {vs : List SpanV1} (h : Pairwise₂ (WholeSpanV1Of S) l vs) :
    ∃ fs : List (SpanV1 → SpanV1), Pairwise₂ (fun j f => ∀ a, True → ReadsJson (spanV1ValueDecoder newCap) j a (f a)) l fs ∧
      Pairwise₂ (fun v f => ∀ a, (f a).toSpan = v.toSpan) vs fs := by
  induction h with
  | nil => exact ⟨[], .nil, .nil⟩
  | cons h _ ih =>
    obtain ⟨fs, h1, h2⟩ := ih
    obtain ⟨present, hp, hr⟩ := reads_wholeSpanV1 hS newCap h
    exact ⟨_ :: fs, .cons hr h1, .cons (fun a => decodedV1_any newCap a hp) h2⟩

omit hS in
theorem pairwise_anyResults {vs us : List SpanV1} {fs : List (SpanV1 → SpanV1)} (h : Pairwise₂ (fun v f => ∀ a, (f a).toSpan = v.toSpan) vs fs)
    (hu : Pairwise₂ (fun f u => ∃ a, True ∧ u = f a) fs us) : us.map SpanV1.toSpan = vs.map SpanV1.toSpan := by
  induction h generalizing us with
  | nil => cases hu; rfl
  | cons h _ ih =>
    cases hu with
    | cons h1 h2 =>
      obtain ⟨a, _, rfl⟩ := h1
      rw [List.map_cons, List.map_cons, ih h2, h a]

theorem parsesV1_any (newCap : Nat → Nat → Nat) (pool : List SpanV1) {l : List Json} {vs : List SpanV1}
    {w t s : Str} (hw : Blank w) (ht : Writes PlainNumber (.array l) t) (hd : Pairwise₂ (WholeSpanV1Of S) l vs) :
    ∃ pool', pool'.length = pool.length ∧ ParsesV1 newCap (w ++ (t ++ s)) pool (vs.map SpanV1.toSpan) pool' := by
  cases ht with
  | array ht =>
    obtain ⟨fs, hf1, hf2⟩ := pairwise_wholeSpans hS newCap hd
    have hfresh : Fresh ({} : SpanV1) (fun _ => True) 0 { cells := pool, len := 0 } := ⟨rfl, Nat.zero_le _, fun _ _ => trivial⟩
    obtain ⟨N, hN⟩ := sliceLoop_reads (newCap := newCap) (good := fun _ => True) trivial hf1 hfresh ht
    obtain ⟨_, us, e1, e2⟩ := pushAll_spec (newCap := newCap) (good := fun _ => True) trivial fs hfresh
    have e3 := pairwise_anyResults hf2 e2
    have e5 : (pushAll newCap {} fs 0 { cells := pool, len := 0 }).elems = us := by rw [e1]; rfl
    have hlen := pushAll_cap newCap ({} : SpanV1) fs 0 { cells := pool, len := 0 }
    refine ⟨(pushAll newCap {} fs 0 { cells := pool, len := 0 }).cells.take pool.length, by rw [List.length_take]; exact Nat.min_eq_left hlen, fun r buf hr hfit h0 => ?_⟩
    obtain ⟨E, hE⟩ := runs_of_stream (N := N) (b := false) (fun fuel => decoderSliceSpanV1 newCap fuel { cells := pool, len := 0 }) (fun fuel hf => by
      unfold decoderSliceSpanV1 makeSliceDecoder
      simp only [List.cons_append, List.append_assoc, List.nil_append]
      rw [stream_consume (sep_blank hw) (c := c!"[") (by decide) (t := .arrayBegin) (by decide)]
      exact hN fuel fuel hf hf [] s false Sep.nil) r buf hr hfit h0
    refine ⟨E, fun fuel hf => ?_⟩
    obtain ⟨p, e, _⟩ := hE fuel hf
    simp only [parseJsonV1, e, e5, e3]

end

end Verif
