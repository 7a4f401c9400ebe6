import Verif.Proofs.Amplify
import Verif.Props.JaegerAny
import Verif.Proofs.Shift

/-!
# How much a jaeger request can make the proxy send

A weight for JSON values that is at most the length of their text, and what the spans of a request cost in terms of it.
-/

namespace Verif

open Spec

mutual

/-- At most the length of a text for the value. -/
def Spec.Json.weight : Json → Nat
  | .word _ => 1
  | .number _ => 1
  | .string lit => lit.length + 2
  | .array l => 1 + jsonWeights l
  | .object ms => 1 + jsonMemberWeights ms

/-- With a separator each. -/
def Spec.jsonWeights : List Json → Nat
  | [] => 0
  | j :: l => j.weight + 1 + jsonWeights l

def Spec.jsonMemberWeights : List (Str × Json) → Nat
  | [] => 0
  | (_, j) :: ms => j.weight + 1 + jsonMemberWeights ms

end

theorem jsonNumber_pos {t : Str} (h : JsonNumber t) : 1 ≤ t.length := by
  obtain ⟨minus, int, frac, exp, rfl, _, ⟨⟨hi, _⟩, _⟩, _⟩ := h
  cases int with
  | nil => exact absurd rfl hi
  | cons => simp; omega

mutual

theorem jsonTextOf_weight : ∀ {n : Nat} {j : Json} {t : Str}, JsonTextOf n j t → j.weight ≤ t.length
  | _, _, _, .word w => by cases w <;> simp [Json.weight, JsonWord.text]
  | _, _, _, .number h => by simpa [Json.weight] using jsonNumber_pos h
  | _, _, _, .string _ => by simp [Json.weight]
  | _, _, _, .emptyArray _ => by simp [Json.weight, jsonWeights]
  | _, _, _, .array _ h => by
    have := elementsTextOf_weight h
    simp only [Json.weight, List.length_append, List.length_cons, List.length_nil]; omega
  | _, _, _, .emptyObject _ => by simp [Json.weight, jsonMemberWeights]
  | _, _, _, .object _ h => by
    have := membersTextOf_weight h
    simp only [Json.weight, List.length_append, List.length_cons, List.length_nil]; omega

theorem elementsTextOf_weight : ∀ {n : Nat} {l : List Json} {t : Str}, ElementsTextOf n l t → jsonWeights l ≤ t.length + 1
  | _, _, _, .last h _ => by
    have := jsonTextOf_weight h
    simp only [jsonWeights, List.length_append]; omega
  | _, _, _, .cons h _ _ hl => by
    have := jsonTextOf_weight h
    have := elementsTextOf_weight hl
    simp only [jsonWeights, List.length_append, List.length_cons]; omega

theorem membersTextOf_weight : ∀ {n : Nat} {ms : List (Str × Json)} {t : Str}, MembersTextOf n ms t → jsonMemberWeights ms ≤ t.length + 1
  | _, _, _, .last _ _ _ h _ => by
    have := jsonTextOf_weight h
    simp only [jsonMemberWeights, List.length_append, List.length_cons]; omega
  | _, _, _, .cons _ _ _ h _ _ hl => by
    have := jsonTextOf_weight h
    have := membersTextOf_weight hl
    simp only [jsonMemberWeights, List.length_append, List.length_cons]; omega

end

theorem jsonWeight_pos (j : Json) : 1 ≤ j.weight := by
  cases j <;> simp [Json.weight]

theorem jsonWeights_append (a b : List Json) : jsonWeights (a ++ b) = jsonWeights a + jsonWeights b := by
  induction a with
  | nil => simp [jsonWeights]
  | cons j a ih => simp only [List.cons_append, jsonWeights, ih]; omega

theorem jsonWeights_reverse (l : List Json) : jsonWeights l.reverse = jsonWeights l := by
  induction l with
  | nil => rfl
  | cons j l ih => rw [List.reverse_cons, jsonWeights_append, ih]; simp only [jsonWeights]; omega

theorem jsonWeights_mem {l : List Json} {j : Json} (h : j ∈ l) : j.weight + 1 ≤ jsonWeights l := by
  induction l with
  | nil => cases h
  | cons k l ih =>
    rw [jsonWeights]
    rcases List.mem_cons.mp h with rfl | h
    · omega
    · have := ih h; omega

theorem jsonWeights_pos {l : List Json} (h : l ≠ []) : 2 ≤ jsonWeights l := by
  cases l with
  | nil => exact absurd rfl h
  | cons j l =>
    have := jsonWeight_pos j
    rw [jsonWeights]; omega

theorem jsonMemberWeights_append (a b : List (Str × Json)) : jsonMemberWeights (a ++ b) = jsonMemberWeights a + jsonMemberWeights b := by
  induction a with
  | nil => simp [jsonMemberWeights]
  | cons m a ih =>
    obtain ⟨k, j⟩ := m
    simp only [List.cons_append, jsonMemberWeights, ih]; omega

theorem jsonMemberWeights_mem {ms : List (Str × Json)} {k : Str} {j : Json} (h : (k, j) ∈ ms) : j.weight + 1 ≤ jsonMemberWeights ms := by
  induction ms with
  | nil => cases h
  | cons m ms ih =>
    obtain ⟨k', j'⟩ := m
    rw [jsonMemberWeights]
    rcases List.mem_cons.mp h with e | h
    · cases e; omega
    · have := ih h; omega

theorem membersOf_weight (j : Json) : jsonMemberWeights (membersOf j) ≤ j.weight := by
  cases j <;> simp [membersOf, Json.weight, jsonMemberWeights]

theorem flatMap_membersOf (l : List Json) : jsonMemberWeights (l.flatMap membersOf) ≤ jsonWeights l := by
  induction l with
  | nil => simp [jsonMemberWeights]
  | cons j l ih =>
    rw [List.flatMap_cons, jsonMemberWeights_append, jsonWeights]
    have := membersOf_weight j
    omega

theorem named_weight {S : Str → Str → Prop} {ms nms : List (Str × Json)} (h : Named S ms nms) : jsonMemberWeights nms = jsonMemberWeights ms := by
  induction h with
  | nil => rfl
  | @cons a b _ _ hr _ ih =>
    obtain ⟨k, j⟩ := a
    obtain ⟨k', j'⟩ := b
    have e : j = j' := hr.2
    rw [jsonMemberWeights, jsonMemberWeights, ih, e]

theorem objects_weight {l : List Json} {nms : List (Str × Json)} (h : Objects l nms) : jsonMemberWeights nms ≤ jsonWeights l := by
  rw [named_weight h.2]
  exact flatMap_membersOf l

theorem valuesOf_weight {fields : List Str} {f : Str} {nms : List (Str × Json)} {vs : List Json} (h : ValuesOf fields f nms vs) : jsonWeights vs ≤ jsonMemberWeights nms := by
  induction h with
  | nil => simp [jsonWeights]
  | take _ _ ih => rw [jsonWeights, jsonMemberWeights]; omega
  | skip _ _ ih => rw [jsonMemberWeights]; omega

theorem utf8_length_le (r : Nat) : (utf8 r).length ≤ 4 := by
  unfold utf8
  repeat' split
  all_goals simp

theorem goString_length {lit v : Str} (h : GoString lit v) : v.length ≤ 3 * lit.length := by
  induction h with
  | nil => simp
  | ascii => simp only [List.length_cons]; omega
  | char => simp only [List.length_append]; omega
  | bad _ _ _ ih =>
    have : (utf8 0xFFFD).length = 3 := rfl
    simp only [List.length_append, List.length_cons]; omega
  | short => simp only [List.length_cons]; omega
  | @unicode _ _ _ _ r _ _ _ _ _ ih =>
    have := utf8_length_le r
    simp only [List.length_append, List.length_cons]; omega
  | @pair _ _ _ _ _ _ _ _ hi lo _ _ _ _ _ _ _ ih =>
    have := utf8_length_le (0x10000 + (hi - 0xD800) * 0x400 + (lo - 0xDC00))
    simp only [List.length_append, List.length_cons]; omega
  | lone =>
    have : (utf8 0xFFFD).length = 3 := rfl
    simp only [List.length_append, List.length_cons]; omega

theorem texts_weight {l : List Json} {v : Str} (h : Texts l v) : v.length ≤ 3 * jsonWeights l := by
  rcases h.2 with ⟨_, rfl⟩ | ⟨l1, j, l2, rfl, _, h, _⟩
  · simp
  · cases h with
    | @string lit _ h =>
      have := goString_length h
      have hm := jsonWeights_mem (l := l1 ++ Json.string lit :: l2) (List.mem_append_right _ (List.mem_cons_self ..))
      rw [Json.weight] at hm
      omega

theorem fieldIs_text {fields : List Str} {nms : List (Str × Json)} {f : Str} {v : Str} (h : FieldIs fields nms f Texts v) : v.length ≤ 3 * jsonMemberWeights nms := by
  obtain ⟨vs, h1, h2⟩ := h
  have := texts_weight h2
  have := valuesOf_weight h1
  omega

/-! ## Arrays -/

theorem at_weights (es : List Json) (n : Nat) : ((List.range n).map fun i => ((es[i]?).map fun j : Json => j.weight + 1).getD 0).sum ≤ jsonWeights es := by
  induction es generalizing n with
  | nil => simp [jsonWeights]
  | cons j es ih =>
    cases n with
    | zero => simp
    | succ n =>
      rw [List.range_succ_eq_map, List.map_cons, List.sum_cons, List.map_map, jsonWeights]
      have := ih n
      simp only [Function.comp_def, List.getElem?_cons_succ, List.getElem?_cons_zero, Option.map_some, Option.getD_some]
      omega

theorem column_weights (L : List (List Json)) (n : Nat) : ((List.range n).map fun i => jsonWeights (L.filterMap (·[i]?))).sum ≤ (L.map jsonWeights).sum := by
  induction L with
  | nil =>
    induction n with
    | zero => simp
    | succ n ih => simp only [List.range_succ, List.map_append, List.sum_append]; simp [jsonWeights] at ih ⊢
  | cons es L ih =>
    have h := at_weights es n
    have e : ∀ i : Nat, jsonWeights ((es :: L).filterMap (·[i]?)) = ((es[i]?).map fun j : Json => j.weight + 1).getD 0 + jsonWeights (L.filterMap (·[i]?)) := by
      intro i
      cases hi : es[i]? <;> simp [hi, jsonWeights]
    have e2 : ∀ m, ((List.range m).map fun i => jsonWeights ((es :: L).filterMap (·[i]?))).sum =
        ((List.range m).map fun i => ((es[i]?).map fun j : Json => j.weight + 1).getD 0).sum + ((List.range m).map fun i => jsonWeights (L.filterMap (·[i]?))).sum := by
      intro m
      induction m with
      | zero => simp
      | succ m ihm =>
        simp only [List.range_succ, List.map_append, List.sum_append, List.map_cons, List.map_nil, List.sum_cons, List.sum_nil]
        rw [e m]
        omega
    rw [e2, List.map_cons, List.sum_cons]
    omega

theorem elementsOf_weight (j : Json) : jsonWeights (elementsOf j) ≤ j.weight := by
  cases j <;> simp [elementsOf, Json.weight, jsonWeights]

theorem takeWhile_sum {α : Type} (p : α → Bool) (f : α → Nat) (l : List α) : ((l.takeWhile p).map f).sum ≤ (l.map f).sum := by
  induction l with
  | nil => simp
  | cons a l ih =>
    rw [List.takeWhile_cons]
    split
    · simp only [List.map_cons, List.sum_cons]; omega
    · simp

theorem currentArrays_weight (l : List Json) : ((currentArrays l).map jsonWeights).sum ≤ jsonWeights l := by
  unfold currentArrays
  rw [List.map_reverse, List.sum_reverse]
  refine Nat.le_trans (takeWhile_sum _ _ _) ?_
  rw [List.map_reverse, List.sum_reverse, List.map_map]
  induction l with
  | nil => simp
  | cons j l ih =>
    have := elementsOf_weight j
    simp only [List.map_cons, List.sum_cons, Function.comp_apply, jsonWeights] at *
    omega

theorem arrays_sum {α : Type} {E : List Json → α → Prop} {f : α → Nat} {C : Nat} (h : ∀ l a, l ≠ [] → E l a → f a ≤ C * jsonWeights l) {l : List Json} {as : List α} (ha : Arrays E l as) :
    (as.map f).sum ≤ C * jsonWeights l := by
  obtain ⟨_, hlen, hat⟩ := ha
  have hcol := column_weights (currentArrays l) as.length
  have hcur := currentArrays_weight l
  have hne : ∀ i, i < as.length → (currentArrays l).filterMap (·[i]?) ≠ [] := by
    intro i hi hnil
    rw [hlen] at hi
    cases hg : (currentArrays l).getLast? with
    | none => rw [hg] at hi; simp at hi
    | some es =>
      rw [hg, Option.getD_some] at hi
      have := List.filterMap_eq_nil_iff.mp hnil es (List.mem_of_getLast? hg)
      simp [hi] at this
  have key : ∀ m, m ≤ as.length → ((as.take m).map f).sum ≤ C * ((List.range m).map fun i => jsonWeights ((currentArrays l).filterMap (·[i]?))).sum := by
    intro m
    induction m with
    | zero => simp
    | succ m ih =>
      intro hm
      have hm' : m < as.length := hm
      rw [List.take_add_one, List.getElem?_eq_getElem hm', List.range_succ]
      simp only [Option.toList_some, List.map_append, List.map_cons, List.map_nil, List.sum_append, List.sum_cons, List.sum_nil, Nat.mul_add]
      have h1 := ih (by omega)
      have h2 := h _ _ (hne m hm') (hat m as[m] (List.getElem?_eq_getElem hm'))
      omega
  have hk := key as.length (Nat.le_refl _)
  rw [List.take_length] at hk
  exact Nat.le_trans hk (Nat.mul_le_mul_left _ (by omega))

theorem arrays_mem {α : Type} {E : List Json → α → Prop} {l : List Json} {as : List α} (ha : Arrays E l as) {a : α} (hm : a ∈ as) : ∃ l', E l' a ∧ jsonWeights l' ≤ jsonWeights l := by
  obtain ⟨i, hi⟩ := List.getElem?_of_mem hm
  refine ⟨_, ha.2.2 i a hi, ?_⟩
  have hcol := column_weights (currentArrays l) (i + 1)
  have hcur := currentArrays_weight l
  rw [List.range_succ] at hcol
  simp only [List.map_append, List.map_cons, List.map_nil, List.sum_append, List.sum_cons, List.sum_nil] at hcol
  omega

/-! ## The format -/

/-- What the text of a tag counts. -/
def jaegerTagSize (t : Str × JaegerValue) : Nat := match t.2 with | .string v => t.1.length + v.length + 20 | .other => 0

def jaegerTagCost (l : List (Str × JaegerValue)) : Nat := (l.map jaegerTagSize).sum

theorem jaegerTags_weight {inRange : Str → Prop} (l : List Json) (t : Str × JaegerValue) (hl : l ≠ []) (h : JaegerTags inRange l t) : jaegerTagSize t ≤ 16 * jsonWeights l := by
  obtain ⟨nms, ho, h1, vs, hv, h2⟩ := h
  have hw := objects_weight ho
  have h1 := fieldIs_text h1
  have hp := jsonWeights_pos hl
  have hv := valuesOf_weight hv
  unfold jaegerTagSize
  split
  · next v e =>
    rcases h2.2 with ⟨_, h2⟩ | ⟨l1, j, l2, rfl, _, h2, _⟩
    · rw [e] at h2; cases h2
    · rw [e] at h2
      cases h2 with
      | @string lit _ h2 =>
        have := goString_length h2
        have hm := jsonWeights_mem (l := l1 ++ Json.string lit :: l2) (List.mem_append_right _ (List.mem_cons_self ..))
        rw [Json.weight] at hm
        omega
  · omega

/-- What the text of a span counts, but for the name of the service. -/
def jaegerSpanSize (v : JaegerSpan) : Nat := v.operationName.length + jaegerTagCost v.tags + 215

theorem jaegerSpans_weight {inRange : Str → Prop} (l : List Json) (v : JaegerSpan) (hl : l ≠ []) (h : JaegerSpans inRange l v) : jaegerSpanSize v ≤ 127 * jsonWeights l := by
  obtain ⟨nms, ho, _, _, h1, _, _, _, _, vs, hv, h2⟩ := h
  have hw := objects_weight ho
  have h1 := fieldIs_text h1
  have hp := jsonWeights_pos hl
  have hv := valuesOf_weight hv
  have h2 := arrays_sum (f := jaegerTagSize) jaegerTags_weight h2
  unfold jaegerSpanSize jaegerTagCost
  omega

def jaegerDataSize (d : JaegerData) : Nat := (d.spans.map jaegerSpanSize).sum

theorem jaegerDatas_weight {inRange : Str → Prop} (l : List Json) (d : JaegerData) (h : JaegerDatas inRange l d) : jaegerDataSize d ≤ 127 * jsonWeights l := by
  obtain ⟨nms, ho, ⟨vs, hv, h⟩, _⟩ := h
  have hw := objects_weight ho
  have hv := valuesOf_weight hv
  have h := arrays_sum (f := jaegerSpanSize) jaegerSpans_weight h
  unfold jaegerDataSize
  omega

theorem process_weight {l : List Json} {s : Str} (h : Process l s) : s.length ≤ 3 * jsonWeights l := by
  obtain ⟨nms, ho, h⟩ := h
  have := objects_weight ho
  have := fieldIs_text h
  omega

theorem takeWhile_weights (p : Json → Bool) (l : List Json) : jsonWeights (l.takeWhile p) ≤ jsonWeights l := by
  induction l with
  | nil => simp
  | cons j l ih =>
    rw [List.takeWhile_cons]
    split
    · rw [jsonWeights, jsonWeights]; omega
    · simp [jsonWeights]

theorem processes_weight {l : List Json} {procs : TagMap} (h : Processes l procs) (key : Str) : ((procs[key]?).getD []).length ≤ 3 * jsonWeights l := by
  obtain ⟨_, nms, hn, h⟩ := h
  cases e : procs[key]? with
  | none => simp
  | some s =>
    obtain ⟨a, j, b, rfl, _, hp⟩ := (h key s).mp e
    have h1 := process_weight hp
    have h2 := jsonMemberWeights_mem (ms := a ++ (key, j) :: b) (k := key) (j := j) (List.mem_append_right _ (List.mem_cons_self ..))
    rw [named_weight hn] at h2
    have h3 : jsonMemberWeights (currentMembers l) ≤ jsonWeights l := by
      unfold currentMembers
      refine Nat.le_trans (flatMap_membersOf _) ?_
      rw [jsonWeights_reverse]
      refine Nat.le_trans (takeWhile_weights _ _) ?_
      rw [jsonWeights_reverse]
    simp only [jsonWeights, Option.getD_some] at *
    omega

theorem datas_service {inRange : Str → Prop} {l : List Json} {d : JaegerData} (h : JaegerDatas inRange l d) (key : Str) : ((d.processes[key]?).getD []).length ≤ 3 * jsonWeights l := by
  obtain ⟨nms, ho, _, vs, hv, h⟩ := h
  have := objects_weight ho
  have := valuesOf_weight hv
  have := processes_weight h key
  omega

theorem request_weight {inRange : Str → Prop} {j : Json} {l : List JaegerData} (h : JaegerRequest inRange j l) :
    (l.map jaegerDataSize).sum ≤ 127 * j.weight ∧ ∀ d ∈ l, ∀ key : Str, ((d.processes[key]?).getD []).length ≤ 3 * j.weight := by
  obtain ⟨nms, ho, vs, hv, h⟩ := h
  have hw : jsonMemberWeights nms ≤ j.weight := by
    rw [named_weight ho.2]
    simpa using membersOf_weight j
  have hv := valuesOf_weight hv
  refine ⟨?_, fun d hd key => ?_⟩
  · have := arrays_sum (f := jaegerDataSize) (fun l d _ => jaegerDatas_weight l d) h
    omega
  · obtain ⟨l', h', hl⟩ := arrays_mem h hd
    have := datas_service h' key
    omega

/-! ## The spans -/

theorem addJaegerTag_cost (acc : Span × Str) (t : Str × JaegerValue) : tagCost ((addJaegerTag acc t).1.tags.getD ∅) ≤ tagCost (acc.1.tags.getD ∅) + jaegerTagSize t := by
  obtain ⟨key, val⟩ := t
  cases val with
  | other => simp [addJaegerTag, jaegerTagSize]
  | string v =>
    simp only [addJaegerTag, jaegerTagSize]
    have hk : (if key = b!"component" then b!"lc" else key).length ≤ key.length := by
      split
      · next h => rw [h]; decide
      · exact Nat.le_refl _
    generalize (if key = b!"component" then b!"lc" else key) = k at hk ⊢
    split
    · omega
    split
    · simp only; omega
    · have := tagCost_insert (acc.1.tags.getD ∅) k v
      simp only [Span.addTag, Option.getD_some]
      omega

theorem fold_jaegerTags (l : List (Str × JaegerValue)) (acc : Span × Str) : tagCost ((l.foldl addJaegerTag acc).1.tags.getD ∅) ≤ tagCost (acc.1.tags.getD ∅) + jaegerTagCost l := by
  induction l generalizing acc with
  | nil => simp [jaegerTagCost]
  | cons t l ih =>
    have h1 := ih (addJaegerTag acc t)
    have h2 := addJaegerTag_cost acc t
    simp only [List.foldl_cons, jaegerTagCost, List.map_cons, List.sum_cons] at *
    omega

theorem toSpan_tagCost (v : JaegerSpan) (procs : TagMap) : tagCost ((v.toSpan procs).tags.getD ∅) ≤ jaegerTagCost v.tags + 41 := by
  have hfill : ∀ (s : Span) (a b : UInt64) (k : Str), (fillFromKind s a b k).tags = s.tags := by
    intro s a b k
    unfold fillFromKind
    simp only
    repeat' split
    all_goals rfl
  unfold JaegerSpan.toSpan
  simp only [hfill, Span.addTag, Option.getD_some]
  refine Nat.le_trans (tagCost_insert _ _ _) ?_
  simp only [newSpan] at *
  have h := fold_jaegerTags v.tags ({ newSpan v.operationName v.traceId v.spanId
      (v.references.foldl (fun p ref => if ref.1 = b!"CHILD_OF" then ref.2 else p) v.spanId) with service := procs.getD v.processId [] }, [])
  have e0 : tagCost (Option.getD ({ newSpan v.operationName v.traceId v.spanId
      (v.references.foldl (fun p ref => if ref.1 = b!"CHILD_OF" then ref.2 else p) v.spanId) with service := procs.getD v.processId [] } : Span).tags ∅) = 0 := rfl
  have e1 : tagProtocolVersion.length + tagJaeger.length + 20 = 41 := rfl
  simp only [newSpan] at h e0
  omega

theorem toSpan_text (procs : TagMap) (v : JaegerSpan) : textBytes (v.toSpan procs) + 174 ≤ jaegerSpanSize v + ((procs[v.processId]?).getD []).length := by
  obtain ⟨_, _, _, h4, h5, _⟩ := toSpanJaeger_means procs v
  have := toSpan_tagCost v procs
  unfold textBytes jaegerSpanSize
  rw [h4, h5]
  unfold tagCost at this
  omega

theorem jaegerSpans_bound {l : List JaegerData} {S : Nat} (hS : ∀ d ∈ l, ∀ key : Str, ((d.processes[key]?).getD []).length ≤ S) :
    ((jaegerSpans l).map fun s => textBytes s + 174).sum ≤ (l.map jaegerDataSize).sum + (jaegerSpans l).length * S := by
  induction l with
  | nil => simp [jaegerSpans]
  | cons d l ih =>
    have ih := ih fun d' hd' => hS d' (List.mem_cons_of_mem _ hd')
    have hd := hS d (List.mem_cons_self ..)
    have h : ∀ vs : List JaegerSpan, ((vs.map fun s => s.toSpan d.processes).map fun s => textBytes s + 174).sum ≤ (vs.map jaegerSpanSize).sum + vs.length * S := by
      intro vs
      induction vs with
      | nil => simp
      | cons v vs ih =>
        have h1 := toSpan_text d.processes v
        have h2 := hd v.processId
        simp only [List.map_cons, List.sum_cons, List.length_cons, Nat.add_mul, Nat.one_mul] at *
        omega
    have h := h d.spans
    have e : jaegerSpans (d :: l) = (d.spans.map fun s => s.toSpan d.processes) ++ jaegerSpans l := rfl
    rw [e]
    simp only [List.map_append, List.sum_append, List.length_append, List.map_cons, List.sum_cons, List.length_map, Nat.add_mul, jaegerDataSize] at *
    omega

theorem sent_bound {spans : List Span} {n : Nat} (h : SentBytes spans n) : n ≤ (spans.map fun s => textBytes s + 174).sum := by
  obtain ⟨ords, ho, rfl⟩ := h
  induction ho with
  | nil => simp
  | @cons s ord _ _ h1 _ ih =>
    have := message_le h1
    simp only [List.zip_cons_cons, List.map_cons, List.sum_cons] at *
    omega

end Verif
