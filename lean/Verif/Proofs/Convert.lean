import Verif.Spec.Convert
import Verif.Proofs.JsonString
import Verif.Proofs.Maps

/-!
# Conversion of decoded values to spans
-/

namespace Verif

open Spec

/-- The last element is found by going through the list. -/
theorem last?_snoc {α : Type} (p : α → Bool) (l : List α) (a : α) : last? p (l ++ [a]) = if p a then some a else last? p l := by
  unfold last?
  rw [List.filter_append]
  by_cases h : p a = true
  · simp [h]
  · simp [h]

theorem toLower_spec (c d : UInt8) (hd : c!"a" ≤ d ∧ d ≤ c!"z") : toLower c = d ↔ c = d ∨ ((c!"A" ≤ c ∧ c ≤ c!"Z") ∧ d = c + 0x20) := by
  have key : ∀ c : UInt8, ¬ (c!"A" ≤ c ∧ c ≤ c!"Z") ∨ ¬ (c!"a" ≤ c ∧ c ≤ c!"z") := byte_forall (by decide +kernel)
  unfold toLower
  split
  · rename_i h
    constructor
    · intro h2; exact .inr ⟨h, h2.symm⟩
    · rintro (h2 | h2)
      · subst h2
        rcases key c with h3 | h3
        · exact absurd h h3
        · exact absurd hd h3
      · exact h2.2.symm
  · rename_i h
    constructor
    · intro h2; exact .inl h2
    · rintro (h2 | h2)
      · exact h2
      · exact absurd h2.1 h

theorem caseVariant_cons {c d : UInt8} {s t : Str} (hd : c!"a" ≤ d ∧ d ≤ c!"z") :
    CaseVariant (c :: s) (d :: t) ↔ toLower c = d ∧ CaseVariant s t := by
  rw [toLower_spec c d hd]
  constructor
  · intro h
    cases h with
    | lower h => exact ⟨.inl rfl, h⟩
    | upper hc h => exact ⟨.inr ⟨hc, rfl⟩, h⟩
  · rintro ⟨h | ⟨h1, rfl⟩, h2⟩
    · subst h; exact .lower h2
    · exact .upper h1 h2

/-- Words without `s` and `k`. -/
theorem equalFold_plain {t : Str} (ht : ∀ d ∈ t, (c!"a" ≤ d ∧ d ≤ c!"z") ∧ d ≠ c!"s" ∧ d ≠ c!"k") (s : Str) :
    equalFold s t = true ↔ CaseVariant s t := by
  induction t generalizing s with
  | nil =>
    unfold equalFold
    constructor
    · intro h
      simp only [decide_eq_true_eq] at h
      subst h
      exact .nil
    · intro h
      cases h
      rfl
  | cons d t ih =>
    obtain ⟨h1, h2, h3⟩ := ht d (List.mem_cons_self ..)
    cases s with
    | nil =>
      unfold equalFold
      constructor
      · intro h; simp at h
      · intro h; cases h
    | cons c s =>
      rw [caseVariant_cons h1]
      unfold equalFold
      by_cases hc : toLower c = d
      · rw [if_pos hc, ih (fun x hx => ht x (List.mem_cons_of_mem _ hx))]
        exact ⟨fun h => ⟨hc, h⟩, fun h => h.2⟩
      · rw [if_neg hc, if_neg (by simp [h2]), if_neg (by simp [h3])]
        simp [hc]

theorem equalFold_client (s : Str) : equalFold s b!"client" = true ↔ KindClient s := equalFold_plain (by decide) s

theorem equalFold_server (s : Str) : equalFold s b!"server" = true ↔ KindServer s := by
  have h0 : ∀ s, equalFold s b!"erver" = true ↔ CaseVariant s b!"erver" := equalFold_plain (by decide)
  unfold KindServer
  cases s with
  | nil =>
    constructor
    · intro h; simp [equalFold] at h
    · rintro (h | ⟨t, h, _⟩)
      · cases h
      · simp at h
  | cons c s =>
    have hk : ∀ {s}, CaseVariant (c :: s) b!"server" ↔ toLower c = c!"s" ∧ CaseVariant s b!"erver" := caseVariant_cons (by decide)
    rw [hk]
    unfold equalFold
    by_cases hc : toLower c = c!"s"
    · rw [if_pos hc, h0]
      constructor
      · intro h; exact .inl ⟨hc, h⟩
      · rintro (h | ⟨t, h, _⟩)
        · exact h.2
        · injection h with h _
          subst h
          exact absurd hc (by decide)
    · rw [if_neg hc]
      by_cases h5 : c = 0xC5
      · subst h5
        rw [if_pos ⟨rfl, rfl⟩]
        cases s with
        | nil => simp [hc]
        | cons c2 s =>
          simp only [Bool.and_eq_true, decide_eq_true_eq]
          rw [h0]
          constructor
          · rintro ⟨rfl, h⟩; exact .inr ⟨s, rfl, h⟩
          · rintro (h | ⟨t, h, h'⟩)
            · exact absurd h.1 hc
            · injection h with _ h
              injection h with h1 h2
              subst h2
              exact ⟨h1, h'⟩
      · rw [if_neg (by simp [h5]), if_neg (by simp)]
        constructor
        · intro h; simp at h
        · rintro (h | ⟨t, h, _⟩)
          · exact absurd h.1 hc
          · injection h with h _
            exact absurd h h5

/-! ## Tags -/

/-- The tags of a span as a function. -/
def Span.tag (s : Span) (key : Str) : Option Str := (s.tags.getD ∅)[key]?

theorem tag_addTag (s : Span) (k v key : Str) : (s.addTag k v).tag key = if key = k then some v else s.tag key := by
  simp only [Span.tag, Span.addTag, Option.getD_some]
  rw [get_insert]
  by_cases h : key = k
  · simp [h]
  · simp [h, Ne.symm h]

/-! ## Client and server timings from the kind -/

theorem fillFromKind_spec (s : Span) (ts du : UInt64) (kind : Str) :
    (fillFromKind s ts du kind).timestamp = nanos ts ∧
    (fillFromKind s ts du kind).duration = orMillisecond (nanos du) ∧
    (KindClient kind → (fillFromKind s ts du kind).timings.CS = nanos ts ∧
      (fillFromKind s ts du kind).timings.CR = nanos ts + orMillisecond (nanos du)) ∧
    (¬ KindClient kind → (fillFromKind s ts du kind).timings.CS = s.timings.CS ∧ (fillFromKind s ts du kind).timings.CR = s.timings.CR) ∧
    (KindServer kind → (fillFromKind s ts du kind).timings.SR = nanos ts ∧
      (fillFromKind s ts du kind).timings.SS = nanos ts + orMillisecond (nanos du)) ∧
    (¬ KindServer kind → (fillFromKind s ts du kind).timings.SR = s.timings.SR ∧ (fillFromKind s ts du kind).timings.SS = s.timings.SS) ∧
    (fillFromKind s ts du kind).id = s.id ∧ (fillFromKind s ts du kind).trace = s.trace ∧
    (fillFromKind s ts du kind).parent = s.parent ∧ (fillFromKind s ts du kind).name = s.name ∧
    (fillFromKind s ts du kind).service = s.service ∧ (fillFromKind s ts du kind).tags = s.tags := by
  rw [← equalFold_client, ← equalFold_server]
  unfold fillFromKind orMillisecond nanos microseconds microsecond millisecond tsAdd
  simp only
  by_cases h1 : du.toInt64 * 1000 = 0 <;> by_cases h2 : equalFold kind b!"client" = true <;>
    by_cases h3 : equalFold kind b!"server" = true <;> simp [h1, h2, h3]

/-! ## Version 1 -/

theorem addAnnotation_fields (s : Span) (a : AnnotationV1) :
    (addAnnotation s a).id = s.id ∧ (addAnnotation s a).trace = s.trace ∧ (addAnnotation s a).parent = s.parent ∧
    (addAnnotation s a).name = s.name ∧ (addAnnotation s a).tags = s.tags ∧ (addAnnotation s a).timestamp = s.timestamp ∧
    (addAnnotation s a).duration = s.duration := by
  have hs : ∀ (s : Span) (x : Str) (b : Prop) [Decidable b], (if b then { s with service := x } else s).id = s.id ∧
      (if b then { s with service := x } else s).trace = s.trace ∧ (if b then { s with service := x } else s).parent = s.parent ∧
      (if b then { s with service := x } else s).name = s.name ∧ (if b then { s with service := x } else s).tags = s.tags ∧
      (if b then { s with service := x } else s).timestamp = s.timestamp ∧ (if b then { s with service := x } else s).duration = s.duration := by
    intro s x b _
    split <;> exact ⟨rfl, rfl, rfl, rfl, rfl, rfl, rfl⟩
  unfold addAnnotation
  split
  · exact ⟨rfl, rfl, rfl, rfl, rfl, rfl, rfl⟩
  · obtain ⟨h1, h2, h3, h4, h5, h6, h7⟩ := hs (s.addTiming a.value (microseconds a.timestamp.toInt64)) a.endpoint.serviceName
      ((s.addTiming a.value (microseconds a.timestamp.toInt64)).service = [] ∧ a.endpoint.serviceName ≠ [])
    simp only
    rw [h1, h2, h3, h4, h5, h6, h7]
    unfold Span.addTiming
    repeat' split
    all_goals exact ⟨rfl, rfl, rfl, rfl, rfl, rfl, rfl⟩

theorem addBinaryAnnotation_fields (s : Span) (a : BinaryAnnotationV1) :
    (addBinaryAnnotation s a).id = s.id ∧ (addBinaryAnnotation s a).trace = s.trace ∧ (addBinaryAnnotation s a).parent = s.parent ∧
    (addBinaryAnnotation s a).name = s.name ∧ (addBinaryAnnotation s a).timings = s.timings ∧ (addBinaryAnnotation s a).timestamp = s.timestamp ∧
    (addBinaryAnnotation s a).duration = s.duration := by
  unfold addBinaryAnnotation Span.addTag
  simp only
  by_cases h : s.service = [] ∧ a.endpoint.serviceName ≠ []
  · simp only [if_pos h, and_self]
  · simp only [if_neg h, and_self]

/-- The service after one more element. -/
theorem service_step (service name : Str) : (if service = [] ∧ name ≠ [] then name else service) =
    (if service ≠ [] then service else name) := by
  by_cases h : service = []
  · by_cases h2 : name = [] <;> simp [h, h2]
  · simp [h]

theorem find_service (l : List Str) (name : Str) :
    ((l ++ [name]).find? (· ≠ [])).getD [] = if (l.find? (· ≠ [])).getD [] ≠ [] then (l.find? (· ≠ [])).getD [] else name := by
  rw [List.find?_append]
  rcases h : l.find? (· ≠ []) with _ | x
  · by_cases h2 : name = [] <;> simp [h2]
  · have := List.find?_some h
    simp only [ne_eq, decide_not, Bool.not_eq_true', decide_eq_false_iff_not] at this
    simp [this]

theorem find_append (l l' : List Str) :
    ((l ++ l').find? (· ≠ [])).getD [] =
      if (l.find? (· ≠ [])).getD [] ≠ [] then (l.find? (· ≠ [])).getD [] else (l'.find? (· ≠ [])).getD [] := by
  rw [List.find?_append]
  rcases h : l.find? (· ≠ []) with _ | x
  · simp
  · have := List.find?_some h
    simp only [ne_eq, decide_not, Bool.not_eq_true', decide_eq_false_iff_not] at this
    simp [this]

/-- The annotations folded into a new span. -/
theorem annotations_spec (v : SpanV1) (s : Span) (hs : s.service = []) (ht : s.timings = {}) :
    let r := v.annotations.foldl addAnnotation s
    r.timings = { CS := timingV1 v b!"cs", CR := timingV1 v b!"cr", SS := timingV1 v b!"ss", SR := timingV1 v b!"sr" } ∧
    r.service = (((timed v).map fun a => a.endpoint.serviceName).find? (· ≠ [])).getD [] ∧
    r.id = s.id ∧ r.trace = s.trace ∧ r.parent = s.parent ∧ r.name = s.name ∧ r.tags = s.tags ∧ r.timestamp = s.timestamp ∧ r.duration = s.duration := by
  unfold timingV1 timed
  generalize v.annotations = l
  induction l using list_snoc_induction with
  | h0 => simp [hs, ht, last?]
  | h1 l a ih =>
    obtain ⟨h1, h2, h3, h4, h5, h6, h7, h8, h9⟩ := ih
    simp only [List.foldl_append, List.foldl_cons, List.foldl_nil]
    obtain ⟨f1, f2, f3, f4, f5, f6, f7⟩ := addAnnotation_fields (l.foldl addAnnotation s) a
    refine ⟨?_, ?_, by rw [f1, h3], by rw [f2, h4], by rw [f3, h5], by rw [f4, h6], by rw [f5, h7], by rw [f6, h8], by rw [f7, h9]⟩
    · rw [List.filter_append]
      by_cases hts : a.timestamp = 0
      · simp only [addAnnotation, if_pos hts]
        simp [hts, h1]
      · have hfil : ([a].filter fun a => decide (a.timestamp ≠ 0)) = [a] := by simp [hts]
        rw [hfil]
        simp only [last?_snoc, decide_eq_true_eq]
        have hn : nanos a.timestamp = microseconds a.timestamp.toInt64 := rfl
        have hserv : ∀ (s : Span) (x : Str), (if s.service = [] ∧ x ≠ [] then { s with service := x } else s).timings = s.timings := by
          intro s x; split <;> rfl
        simp only [addAnnotation, if_neg hts, hserv]
        unfold Span.addTiming
        by_cases c1 : a.value = b!"cs"
        · have : a.value ≠ b!"cr" ∧ a.value ≠ b!"ss" ∧ a.value ≠ b!"sr" := by rw [c1]; decide
          rw [if_pos c1, if_pos c1, if_neg this.1, if_neg this.2.1, if_neg this.2.2]
          simp only [h1, Option.map_some, Option.getD_some, hn]
        · by_cases c2 : a.value = b!"cr"
          · have : a.value ≠ b!"ss" ∧ a.value ≠ b!"sr" := by rw [c2]; decide
            rw [if_neg c1, if_pos c2, if_neg c1, if_pos c2, if_neg this.1, if_neg this.2]
            simp only [h1, Option.map_some, Option.getD_some, hn]
          · by_cases c3 : a.value = b!"sr"
            · have : a.value ≠ b!"ss" := by rw [c3]; decide
              rw [if_neg c1, if_neg c2, if_pos c3, if_neg c1, if_neg c2, if_pos c3, if_neg this]
              simp only [h1, Option.map_some, Option.getD_some, hn]
            · by_cases c4 : a.value = b!"ss"
              · rw [if_neg c1, if_neg c2, if_neg c3, if_pos c4, if_neg c1, if_neg c2, if_neg c3, if_pos c4]
                simp only [h1, Option.map_some, Option.getD_some, hn]
              · rw [if_neg c1, if_neg c2, if_neg c3, if_neg c4, if_neg c1, if_neg c2, if_neg c3, if_neg c4]
                exact h1
    · rw [List.filter_append]
      by_cases hts : a.timestamp = 0
      · simp only [addAnnotation, if_pos hts]
        simp [hts, h2]
      · have hfil : ([a].filter fun a => decide (a.timestamp ≠ 0)) = [a] := by simp [hts]
        rw [hfil, List.map_append, List.map_singleton, find_service, ← h2, ← service_step]
        have ht : ((l.foldl addAnnotation s).addTiming a.value (microseconds a.timestamp.toInt64)).service = (l.foldl addAnnotation s).service := by
          unfold Span.addTiming
          repeat' split
          all_goals rfl
        simp only [addAnnotation, if_neg hts, ht]
        split
        · rfl
        · exact ht

/-- The binary annotations folded into a span without tags. -/
theorem binaryAnnotations_spec (l : List BinaryAnnotationV1) (s : Span) (ht : s.tags = some ∅) :
    let r := l.foldl addBinaryAnnotation s
    (∀ key, r.tag key = (last? (fun a => a.key = key) l).map fun a => a.value) ∧
    r.service = (if s.service ≠ [] then s.service else ((l.map fun a => a.endpoint.serviceName).find? (· ≠ [])).getD []) ∧
    r.timings = s.timings ∧ r.tags ≠ none ∧
    r.id = s.id ∧ r.trace = s.trace ∧ r.parent = s.parent ∧ r.name = s.name ∧ r.timestamp = s.timestamp ∧ r.duration = s.duration := by
  induction l using list_snoc_induction with
  | h0 =>
    refine ⟨?_, ?_, rfl, by simp [ht], rfl, rfl, rfl, rfl, rfl, rfl⟩
    · intro key
      simp [last?, Span.tag, ht]
    · by_cases h : s.service = [] <;> simp [h]
  | h1 l a ih =>
    obtain ⟨h1, h2, h3, h4, h5, h6, h7, h8, h9, h10⟩ := ih
    simp only [List.foldl_append, List.foldl_cons, List.foldl_nil]
    obtain ⟨f1, f2, f3, f4, f5, f6, f7⟩ := addBinaryAnnotation_fields (l.foldl addBinaryAnnotation s) a
    have htag : ∀ (s : Span) (x key : Str), (if s.service = [] ∧ x ≠ [] then { s with service := x } else s).tag key = s.tag key := by
      intro s x key; split <;> rfl
    refine ⟨?_, ?_, by rw [f5, h3], ?_, by rw [f1, h5], by rw [f2, h6], by rw [f3, h7], by rw [f4, h8], by rw [f6, h9], by rw [f7, h10]⟩
    · intro key
      simp only [addBinaryAnnotation, htag]
      rw [tag_addTag, last?_snoc, h1]
      by_cases hk : key = a.key
      · simp [hk]
      · simp [hk, Ne.symm hk]
    · have hs : ((l.foldl addBinaryAnnotation s).addTag a.key a.value).service = (l.foldl addBinaryAnnotation s).service := rfl
      have : (addBinaryAnnotation (l.foldl addBinaryAnnotation s) a).service =
          if (l.foldl addBinaryAnnotation s).service = [] ∧ a.endpoint.serviceName ≠ [] then a.endpoint.serviceName
          else (l.foldl addBinaryAnnotation s).service := by
        simp only [addBinaryAnnotation, hs]
        split <;> rfl
      rw [this, service_step, h2, List.map_append, List.map_singleton, find_service]
      by_cases h : s.service = []
      · simp [h]
      · simp [h]
    · simp only [addBinaryAnnotation]
      split <;> simp [Span.addTag]

/-- A v1 span. -/
theorem toSpanV1_spec (v : SpanV1) :
    let s := v.toSpan
    let cs := timingV1 v b!"cs"
    let cr := timingV1 v b!"cr"
    let sr := timingV1 v b!"sr"
    let ss := timingV1 v b!"ss"
    s.id = v.id ∧ s.trace = v.traceId ∧ s.parent = v.parentId ∧ s.name = v.name ∧ s.service = serviceV1 v ∧
    s.tags ≠ none ∧ (∀ key, s.tag key = tagV1 v key) ∧ s.timings = { CS := cs, CR := cr, SS := ss, SR := sr } ∧
    s.timestamp = (if 0 < cs ∧ 0 < cr then cs else if 0 < sr ∧ 0 < ss then sr else nanos v.timestamp) ∧
    s.duration = orMillisecond (if 0 < cs ∧ 0 < cr then cr - cs else if 0 < sr ∧ 0 < ss then ss - sr else nanos v.duration) := by
  obtain ⟨a1, a2, a3, a4, a5, a6, a7, a8, a9⟩ := annotations_spec v (newSpan v.name v.traceId v.id v.parentId) rfl rfl
  obtain ⟨b1, b2, b3, b4, b5, b6, b7, b8, b9, b10⟩ := binaryAnnotations_spec v.binaryAnnotations.elems
    { v.annotations.foldl addAnnotation (newSpan v.name v.traceId v.id v.parentId) with tags := some ∅ } rfl
  -- the span before its times are filled in
  generalize hs0 : v.binaryAnnotations.elems.foldl addBinaryAnnotation
    { v.annotations.foldl addAnnotation (newSpan v.name v.traceId v.id v.parentId) with tags := some ∅ } = s0 at *
  simp only at a1 a2 a3 a4 a5 a6 a7 a8 a9 b1 b2 b3 b4 b5 b6 b7 b8 b9 b10
  have hts0 : s0.timestamp = 0 := by rw [b9, a8]; rfl
  have hd0 : s0.duration = 0 := by rw [b10, a9]; rfl
  have htim := b3.trans a1
  -- filling in the times changes nothing else
  have fill : ∀ s : Span, (fillInTimestamp s).id = s.id ∧ (fillInTimestamp s).trace = s.trace ∧ (fillInTimestamp s).parent = s.parent ∧
      (fillInTimestamp s).name = s.name ∧ (fillInTimestamp s).service = s.service ∧ (fillInTimestamp s).tags = s.tags ∧
      (fillInTimestamp s).timings = s.timings ∧
      (fillInTimestamp s).timestamp = (if 0 < s.timings.CS ∧ 0 < s.timings.CR then s.timings.CS
        else if 0 < s.timings.SR ∧ 0 < s.timings.SS then s.timings.SR else s.timestamp) ∧
      (fillInTimestamp s).duration = orMillisecond (if 0 < s.timings.CS ∧ 0 < s.timings.CR then s.timings.CR - s.timings.CS
        else if 0 < s.timings.SR ∧ 0 < s.timings.SS then s.timings.SS - s.timings.SR else s.duration) := by
    intro s
    unfold fillInTimestamp orMillisecond millisecond
    simp only [gt_iff_lt]
    by_cases h1 : 0 < s.timings.SR ∧ 0 < s.timings.SS <;> by_cases h2 : 0 < s.timings.CS ∧ 0 < s.timings.CR <;>
      simp only [h1, h2, and_self, if_true, if_false] <;> split <;> simp_all
  generalize hs1 : (if v.duration ≠ 0 then
      { (if v.timestamp ≠ 0 then { s0.addTag tagProtocolVersion tagJsonV1 with timestamp := microseconds v.timestamp.toInt64 }
          else s0.addTag tagProtocolVersion tagJsonV1) with duration := v.duration.toInt64 * microsecond }
    else (if v.timestamp ≠ 0 then { s0.addTag tagProtocolVersion tagJsonV1 with timestamp := microseconds v.timestamp.toInt64 }
          else s0.addTag tagProtocolVersion tagJsonV1)) = s1
  have hto : v.toSpan = fillInTimestamp s1 := by
    rw [← hs1, ← hs0]
    rfl
  have h1 : s1.id = s0.id ∧ s1.trace = s0.trace ∧ s1.parent = s0.parent ∧ s1.name = s0.name ∧ s1.service = s0.service ∧
      s1.tags = (s0.addTag tagProtocolVersion tagJsonV1).tags ∧ s1.timings = s0.timings ∧ s1.timestamp = nanos v.timestamp ∧
      s1.duration = nanos v.duration := by
    rw [← hs1]
    have z : nanos 0 = 0 := by decide
    have hd : (s0.addTag tagProtocolVersion tagJsonV1).duration = 0 := hd0
    have ht : (s0.addTag tagProtocolVersion tagJsonV1).timestamp = 0 := hts0
    by_cases c1 : v.duration = 0 <;> by_cases c2 : v.timestamp = 0 <;>
      simp only [c1, c2, ne_eq, not_true_eq_false, not_false_eq_true, if_true, if_false, z, hd, ht] <;>
      simp [Span.addTag, nanos, microseconds, microsecond]
  obtain ⟨g1, g2, g3, g4, g5, g6, g7, g8, g9⟩ := h1
  obtain ⟨f1, f2, f3, f4, f5, f6, f7, f8, f9⟩ := fill s1
  simp only [hto]
  refine ⟨?_, ?_, ?_, ?_, ?_, ?_, ?_, ?_, ?_, ?_⟩
  · rw [f1, g1, b5, a3]; rfl
  · rw [f2, g2, b6, a4]; rfl
  · rw [f3, g3, b7, a5]; rfl
  · rw [f4, g4, b8, a6]; rfl
  · rw [f5, g5, b2, a2, serviceV1, find_append]
  · rw [f6, g6]; simp [Span.addTag]
  · intro key
    have : (fillInTimestamp s1).tag key = (s0.addTag tagProtocolVersion tagJsonV1).tag key := by simp only [Span.tag, f6, g6]
    rw [this, tag_addTag, b1]
    rfl
  · rw [f7, g7, htim]
  · rw [f8, g7, g8, htim]
  · rw [f9, g7, g9, htim]

/-! ## Version 2 -/

theorem toSpanV2_spec (v : SpanV2) :
    let s := v.toSpan
    s.id = v.id ∧ s.trace = v.traceId ∧ s.parent = v.parentId ∧ s.name = v.name ∧ s.service = v.endpoint.serviceName ∧
    s.tags ≠ none ∧
    (∀ key, s.tag key = if key = b!"protocolVersion" then some b!"json v2" else (v.tags.getD ∅)[key]?) ∧
    s.timestamp = nanos v.timestamp ∧ s.duration = orMillisecond (nanos v.duration) ∧
    (KindClient v.kind → s.timings.CS = s.timestamp ∧ s.timings.CR = s.timestamp + s.duration) ∧
    (¬ KindClient v.kind → s.timings.CS = 0 ∧ s.timings.CR = 0) ∧
    (KindServer v.kind → s.timings.SR = s.timestamp ∧ s.timings.SS = s.timestamp + s.duration) ∧
    (¬ KindServer v.kind → s.timings.SR = 0 ∧ s.timings.SS = 0) := by
  generalize hs0 : (({ (if v.endpoint.serviceName ≠ [] then { newSpan v.name v.traceId v.id v.parentId with service := v.endpoint.serviceName }
    else newSpan v.name v.traceId v.id v.parentId) with tags := v.tags } : Span).addTag tagProtocolVersion tagJsonV2) = s0
  have hto : v.toSpan = fillFromKind s0 v.timestamp v.duration v.kind := by rw [← hs0]; rfl
  have h0 : s0.id = v.id ∧ s0.trace = v.traceId ∧ s0.parent = v.parentId ∧ s0.name = v.name ∧ s0.service = v.endpoint.serviceName ∧
      s0.timings = {} ∧ s0.tags = some ((v.tags.getD ∅).insert tagProtocolVersion tagJsonV2) := by
    rw [← hs0]
    by_cases h : v.endpoint.serviceName = []
    · simp only [h, ne_eq, not_true_eq_false, if_false]
      exact ⟨rfl, rfl, rfl, rfl, rfl, rfl, rfl⟩
    · simp only [h, ne_eq, not_false_eq_true, if_true]
      exact ⟨rfl, rfl, rfl, rfl, rfl, rfl, rfl⟩
  obtain ⟨g1, g2, g3, g4, g5, g6, g7⟩ := h0
  obtain ⟨f1, f2, f3, f4, f5, f6, f7, f8, f9, f10, f11, f12⟩ := fillFromKind_spec s0 v.timestamp v.duration v.kind
  simp only [hto]
  refine ⟨by rw [f7, g1], by rw [f8, g2], by rw [f9, g3], by rw [f10, g4], by rw [f11, g5], by rw [f12, g7]; simp, ?_, f1, f2, ?_, ?_, ?_, ?_⟩
  · intro key
    simp only [Span.tag, f12, g7, Option.getD_some]
    rw [get_insert]
    by_cases h : key = b!"protocolVersion"
    · simp only [h, tagProtocolVersion, if_true]
      rfl
    · rw [if_neg h]
      have h' : ¬ (tagProtocolVersion = key) := fun h2 => h h2.symm
      simp [h']
  · intro h; rw [f1, f2]; exact f3 h
  · intro h
    obtain ⟨q1, q2⟩ := f4 h
    rw [q1, q2, g6]
    exact ⟨rfl, rfl⟩
  · intro h; rw [f1, f2]; exact f5 h
  · intro h
    obtain ⟨q1, q2⟩ := f6 h
    rw [q1, q2, g6]
    exact ⟨rfl, rfl⟩

/-! ## Jaeger -/

theorem parent_fold (refs : List (Str × Id)) (own : Id) :
    refs.foldl (fun p ref => if ref.1 = b!"CHILD_OF" then ref.2 else p) own =
      ((last? (fun r => r.1 = b!"CHILD_OF") refs).map fun r => r.2).getD own := by
  induction refs using list_snoc_induction with
  | h0 => rfl
  | h1 l a ih =>
    rw [List.foldl_append, last?_snoc]
    simp only [List.foldl_cons, List.foldl_nil]
    by_cases h : a.1 = b!"CHILD_OF"
    · simp [h]
    · simp [h, ih]

theorem jaegerTags_spec (v : JaegerSpan) (s : Span) (ht : s.tags = none) :
    let r := v.tags.foldl addJaegerTag (s, [])
    r.2 = kindJaeger v ∧
    (∀ key, key ≠ b!"protocolVersion" → r.1.tag key = tagJaegerSpan v key) ∧
    r.1.id = s.id ∧ r.1.trace = s.trace ∧ r.1.parent = s.parent ∧ r.1.name = s.name ∧ r.1.service = s.service ∧ r.1.timings = s.timings := by
  unfold kindJaeger tagJaegerSpan stringTags
  generalize v.tags = l
  induction l using list_snoc_induction with
  | h0 =>
    refine ⟨rfl, ?_, rfl, rfl, rfl, rfl, rfl, rfl⟩
    intro key hk
    rw [if_neg hk]
    simp [Span.tag, ht, last?]
  | h1 l a ih =>
    obtain ⟨h1, h2, h3, h4, h5, h6, h7, h8⟩ := ih
    simp only [List.foldl_append, List.foldl_cons, List.foldl_nil]
    obtain ⟨k, x⟩ := a
    cases x with
    | other =>
      simp only [addJaegerTag, List.filterMap_append, List.filterMap_cons, List.filterMap_nil, List.append_nil]
      exact ⟨h1, h2, h3, h4, h5, h6, h7, h8⟩
    | string x =>
      simp only [addJaegerTag, List.filterMap_append, List.filterMap_cons, List.filterMap_nil]
      simp only [last?_snoc]
      by_cases hc : k = b!"component"
      · subst hc
        have n1 : b!"lc" ≠ b!"internal.span.format" := by decide
        have n2 : b!"lc" ≠ b!"span.kind" := by decide
        simp only [if_true, if_neg n1, if_neg n2]
        have n3 : b!"component" ≠ b!"span.kind" := by decide
        refine ⟨?_, ?_, h3, h4, h5, h6, h7, h8⟩
        · simp only [decide_eq_true_eq, if_neg n3]; exact h1
        · intro key hk
          rw [tag_addTag, h2 key hk]
          simp only [if_neg hk, decide_eq_true_eq]
          by_cases hl : key = b!"lc"
          · subst hl
            rw [if_pos rfl, if_neg (by decide), if_pos (by simp)]
            rfl
          · rw [if_neg hl]
            by_cases hz : key = b!"span.kind" ∨ key = b!"internal.span.format" ∨ key = b!"component"
            · rw [if_pos hz, if_pos hz]
            · rw [if_neg hz, if_neg hz, if_neg]
              rintro (h | h)
              · exact hz (.inr (.inr h.symm))
              · exact hl h.1
      · simp only [if_neg hc]
        by_cases hf : k = b!"internal.span.format"
        · subst hf
          rw [if_pos rfl]
          have n3 : b!"internal.span.format" ≠ b!"span.kind" := by decide
          refine ⟨?_, ?_, h3, h4, h5, h6, h7, h8⟩
          · simp only [decide_eq_true_eq, if_neg n3]; exact h1
          · intro key hk
            rw [h2 key hk]
            simp only [if_neg hk, decide_eq_true_eq]
            by_cases hz : key = b!"span.kind" ∨ key = b!"internal.span.format" ∨ key = b!"component"
            · rw [if_pos hz, if_pos hz]
            · rw [if_neg hz, if_neg hz, if_neg]
              rintro (h | h)
              · exact hz (.inr (.inl h.symm))
              · exact absurd h.2 hc
        · rw [if_neg hf]
          by_cases hs : k = b!"span.kind"
          · subst hs
            rw [if_pos rfl]
            refine ⟨?_, ?_, h3, h4, h5, h6, h7, h8⟩
            · simp
            · intro key hk
              rw [h2 key hk]
              simp only [if_neg hk, decide_eq_true_eq]
              by_cases hz : key = b!"span.kind" ∨ key = b!"internal.span.format" ∨ key = b!"component"
              · rw [if_pos hz, if_pos hz]
              · rw [if_neg hz, if_neg hz, if_neg]
                rintro (h | h)
                · exact hz (.inl h.symm)
                · exact absurd h.2 hc
          · rw [if_neg hs]
            refine ⟨?_, ?_, h3, h4, h5, h6, h7, h8⟩
            · simp only [decide_eq_true_eq, if_neg hs]; exact h1
            · intro key hk
              rw [tag_addTag, h2 key hk]
              simp only [if_neg hk, decide_eq_true_eq]
              by_cases hkk : key = k
              · subst hkk
                have : ¬ (key = b!"span.kind" ∨ key = b!"internal.span.format" ∨ key = b!"component") := by
                  rintro (h | h | h)
                  · exact hs h
                  · exact hf h
                  · exact hc h
                rw [if_pos rfl, if_neg this, if_pos (.inl rfl)]
                rfl
              · rw [if_neg hkk]
                by_cases hz : key = b!"span.kind" ∨ key = b!"internal.span.format" ∨ key = b!"component"
                · rw [if_pos hz, if_pos hz]
                · rw [if_neg hz, if_neg hz, if_neg]
                  rintro (h | h)
                  · exact hkk h.symm
                  · exact absurd h.2 hc

theorem toSpanJaeger_spec (v : JaegerSpan) (procs : TagMap) :
    let s := v.toSpan procs
    s.id = v.spanId ∧ s.trace = v.traceId ∧ s.parent = parentJaeger v ∧ s.name = v.operationName ∧
    s.service = (procs[v.processId]?).getD [] ∧
    s.tags ≠ none ∧ (∀ key, s.tag key = tagJaegerSpan v key) ∧
    s.timestamp = nanos v.timestamp ∧ s.duration = orMillisecond (nanos v.duration) ∧
    (KindClient (kindJaeger v) → s.timings.CS = s.timestamp ∧ s.timings.CR = s.timestamp + s.duration) ∧
    (¬ KindClient (kindJaeger v) → s.timings.CS = 0 ∧ s.timings.CR = 0) ∧
    (KindServer (kindJaeger v) → s.timings.SR = s.timestamp ∧ s.timings.SS = s.timestamp + s.duration) ∧
    (¬ KindServer (kindJaeger v) → s.timings.SR = 0 ∧ s.timings.SS = 0) := by
  generalize hs0 : ({ newSpan v.operationName v.traceId v.spanId (v.references.foldl (fun p ref => if ref.1 = b!"CHILD_OF" then ref.2 else p) v.spanId)
    with service := procs.getD v.processId [] } : Span) = s0
  have h0 : s0.id = v.spanId ∧ s0.trace = v.traceId ∧ s0.parent = parentJaeger v ∧ s0.name = v.operationName ∧
      s0.service = (procs[v.processId]?).getD [] ∧ s0.tags = none ∧ s0.timings = {} := by
    rw [← hs0]
    refine ⟨rfl, rfl, parent_fold _ _, rfl, ?_, rfl, rfl⟩
    simp only [Std.ExtTreeMap.getD_eq_getD_getElem?]
  obtain ⟨g1, g2, g3, g4, g5, g6, g7⟩ := h0
  have hto : v.toSpan procs = fillFromKind ((v.tags.foldl addJaegerTag (s0, [])).1.addTag tagProtocolVersion tagJaeger) v.timestamp v.duration
      (v.tags.foldl addJaegerTag (s0, [])).2 := by
    rw [← hs0]; rfl
  obtain ⟨t1, t2, t3, t4, t5, t6, t7, t8⟩ := jaegerTags_spec v s0 g6
  generalize v.tags.foldl addJaegerTag (s0, []) = acc at *
  obtain ⟨f1, f2, f3, f4, f5, f6, f7, f8, f9, f10, f11, f12⟩ :=
    fillFromKind_spec (acc.1.addTag tagProtocolVersion tagJaeger) v.timestamp v.duration acc.2
  simp only [hto]
  rw [← t1]
  refine ⟨?_, ?_, ?_, ?_, ?_, ?_, ?_, f1, f2, ?_, ?_, ?_, ?_⟩
  · rw [f7, ← g1, ← t3]; rfl
  · rw [f8, ← g2, ← t4]; rfl
  · rw [f9, ← g3, ← t5]; rfl
  · rw [f10, ← g4, ← t6]; rfl
  · rw [f11, ← g5, ← t7]; rfl
  · rw [f12]; simp [Span.addTag]
  · intro key
    have : (fillFromKind (acc.1.addTag tagProtocolVersion tagJaeger) v.timestamp v.duration acc.2).tag key =
        (acc.1.addTag tagProtocolVersion tagJaeger).tag key := by simp only [Span.tag, f12]
    rw [this, tag_addTag]
    by_cases h : key = tagProtocolVersion
    · rw [if_pos h, h]; rfl
    · rw [if_neg h]; exact t2 key h
  · intro h; rw [f1, f2]; exact f3 h
  · intro h
    obtain ⟨q1, q2⟩ := f4 h
    have : (acc.1.addTag tagProtocolVersion tagJaeger).timings = {} := by rw [← g7, ← t8]; rfl
    rw [q1, q2, this]
    exact ⟨rfl, rfl⟩
  · intro h; rw [f1, f2]; exact f5 h
  · intro h
    obtain ⟨q1, q2⟩ := f6 h
    have : (acc.1.addTag tagProtocolVersion tagJaeger).timings = {} := by rw [← g7, ← t8]; rfl
    rw [q1, q2, this]
    exact ⟨rfl, rfl⟩

end Verif
