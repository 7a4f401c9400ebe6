import Verif.Props.Accept
import Verif.Spec.Api

/-!
# C139: documents that conform to the API of Zipkin
-/

namespace Verif

open Spec

/-! ### The reading of a document of the standard -/

mutual

/-- How a value of the standard is read: escapes as the parser resolves them. -/
inductive ReadAs : Json → Loose → Prop
  | word (w : JsonWord) : ReadAs (.word w) (.word w.text)
  | number (t : Str) : ReadAs (.number t) (.number t)
  | string {lit v : Str} : unescape lit = some v → ReadAs (.string lit) (.string v)
  | array {l : List Json} {l' : List Loose} : ElementsReadAs l l' → ReadAs (.array l) (.array l')
  | object {ms : List (Str × Json)} {ms' : List (Str × Loose)} : MembersReadAs ms ms' → ReadAs (.object ms) (.object ms')

inductive ElementsReadAs : List Json → List Loose → Prop
  | nil : ElementsReadAs [] []
  | cons {j : Json} {v : Loose} {l : List Json} {l' : List Loose} : ReadAs j v → ElementsReadAs l l' → ElementsReadAs (j :: l) (v :: l')

inductive MembersReadAs : List (Str × Json) → List (Str × Loose) → Prop
  | nil : MembersReadAs [] []
  | cons {lit name : Str} {j : Json} {v : Loose} {ms : List (Str × Json)} {ms' : List (Str × Loose)} : unescape lit = some name → ReadAs j v →
      MembersReadAs ms ms' → MembersReadAs ((lit, j) :: ms) ((name, v) :: ms')

end

theorem json_unquotes {lit : Str} (h : JsonLiteral lit) : ∃ v, Unquotes lit v := by
  obtain ⟨v, hv⟩ := h
  obtain ⟨u, hu⟩ := unescape_json hv
  refine ⟨u, ?_, hu⟩
  clear hu
  induction hv with
  | nil => exact .nil
  | char hq hb _ _ ih => exact .char hq hb ih
  | short h _ ih =>
    refine .escape ?_ ih
    rintro rfl
    have := List.mem_map_of_mem (f := Prod.fst) h
    exact absurd this (show c!"u" ∉ shortEscapes.map Prod.fst by decide)
  | unicode h _ _ ih => exact .unicode h ih
  | pair hh hl _ _ _ ih => exact .unicode hh (.unicode hl ih)

theorem looseNumber_plain {t : Str} (h : PlainNumber t) : LooseNumber t := by
  obtain ⟨c, t', rfl, h1, h2⟩ := numberToken_plain h
  have k1 : ∀ c : UInt8, isCharDigit c = true → c ∈ b!"-0123456789" := byte_forall (by decide +kernel)
  have k2 : ∀ c : UInt8, numberChar c = true → c ∈ b!"-0123456789.e" := byte_forall (by decide +kernel)
  exact ⟨c, t', rfl, k1 c h1, fun d hd => k2 d (h2 d hd)⟩

theorem looseSpace_blank {w : Str} (h : Blank w) : LooseSpace w := by
  intro c hc
  rcases h c hc with rfl | rfl | rfl | rfl <;> decide

theorem stops_blank {w s : Str} (h : Blank w) (hs : NumberStops s) : NumberStops (w ++ s) := by
  cases w with
  | nil => exact hs
  | cons c w =>
    refine ⟨c, w ++ s, rfl, ?_⟩
    rcases h c (by simp) with rfl | rfl | rfl | rfl <;> decide

theorem LooseSpace.append {w w' : Str} (h : LooseSpace w) (h' : LooseSpace w') : LooseSpace (w ++ w') := fun c hc =>
  (List.mem_append.mp hc).elim (h c) (h' c)

theorem beginsElements_space {w u s : Str} {l : List Loose} (hw : LooseSpace w) (h : BeginsElements l u s) : BeginsElements l (w ++ u) s := by
  cases h with
  | nil h => rw [← List.append_assoc]; exact .nil (LooseSpace.append hw h)
  | cons h h1 h2 => rw [← List.append_assoc]; exact .cons (LooseSpace.append hw h) h1 h2

theorem beginsMembers_space {w u s : Str} {l : List (Str × Loose)} (hw : LooseSpace w) (h : BeginsMembers l u s) : BeginsMembers l (w ++ u) s := by
  cases h with
  | nil h => rw [← List.append_assoc]; exact .nil (LooseSpace.append hw h)
  | cons h h1 h2 h3 h4 => rw [← List.append_assoc]; exact .cons (LooseSpace.append hw h) h1 h2 h3 h4

theorem looseWord_json (w : JsonWord) : LooseWord w.text := by cases w <;> decide

theorem looseSpace_one {c : UInt8} (h : c = c!"," ∨ c = c!":") : LooseSpace [c] := by
  rcases h with rfl | rfl <;> decide

mutual

theorem begins_writes : ∀ {j : Json} {t : Str}, Writes PlainNumber j t → ∃ v, ReadAs j v ∧ ∀ s, NumberStops s → Begins v (t ++ s) s
  | _, _, .word w => ⟨_, .word w, fun _ _ => .word (looseWord_json w)⟩
  | _, _, .number h => ⟨_, .number _, fun _ hs => .number (looseNumber_plain h) hs⟩
  | _, _, .string h => by
    obtain ⟨v, hv⟩ := json_unquotes h
    exact ⟨_, .string hv.2, fun s _ => by
      have := Begins.string (s := s) hv
      simpa using this⟩
  | _, _, .array h => by
    obtain ⟨l', h1, h2⟩ := begins_elements h
    exact ⟨_, .array h1, fun s _ => by
      have := Begins.array (h2 s)
      simpa using this⟩
  | _, _, .object h => by
    obtain ⟨l', h1, h2⟩ := begins_members h
    exact ⟨_, .object h1, fun s _ => by
      have := Begins.object (h2 s)
      simpa using this⟩

theorem begins_elements : ∀ {l : List Json} {t : Str}, WritesElements PlainNumber l t →
    ∃ l', ElementsReadAs l l' ∧ ∀ s, BeginsElements l' (t ++ c!"]" :: s) s
  | _, _, .empty hw => ⟨_, .nil, fun _ => .nil (looseSpace_blank hw)⟩
  | _, _, .last hw h hw' => by
    obtain ⟨v, h1, h2⟩ := begins_writes h
    refine ⟨_, .cons h1 .nil, fun s => ?_⟩
    have := BeginsElements.cons (looseSpace_blank hw) (h2 _ (stops_blank hw' ⟨c!"]", s, rfl, by decide⟩)) (.nil (looseSpace_blank hw'))
    simpa using this
  | _, _, .cons (u := u) hw h hw' hu => by
    obtain ⟨v, h1, h2⟩ := begins_writes h
    obtain ⟨l', h3, h4⟩ := begins_elements hu
    refine ⟨_, .cons h1 h3, fun s => ?_⟩
    have := BeginsElements.cons (looseSpace_blank hw) (h2 _ (stops_blank hw' ⟨c!",", u ++ c!"]" :: s, rfl, by decide⟩))
      (beginsElements_space (looseSpace_blank hw') (beginsElements_space (looseSpace_one (.inl rfl)) (h4 s)))
    simpa using this

theorem begins_members : ∀ {l : List (Str × Json)} {t : Str}, WritesMembers PlainNumber l t →
    ∃ l', MembersReadAs l l' ∧ ∀ s, BeginsMembers l' (t ++ c!"}" :: s) s
  | _, _, .empty hw => ⟨_, .nil, fun _ => .nil (looseSpace_blank hw)⟩
  | _, _, .last hw hl hw1 hw2 h hw' => by
    obtain ⟨n, hn⟩ := json_unquotes hl
    obtain ⟨v, h1, h2⟩ := begins_writes h
    refine ⟨_, .cons hn.2 h1 .nil, fun s => ?_⟩
    have := BeginsMembers.cons (looseSpace_blank hw) hn
      (LooseSpace.append (looseSpace_blank hw1) (LooseSpace.append (looseSpace_one (.inr rfl)) (looseSpace_blank hw2)))
      (h2 _ (stops_blank hw' ⟨c!"}", s, rfl, by decide⟩)) (.nil (looseSpace_blank hw'))
    simpa using this
  | _, _, .cons (u := u) hw hl hw1 hw2 h hw' hu => by
    obtain ⟨n, hn⟩ := json_unquotes hl
    obtain ⟨v, h1, h2⟩ := begins_writes h
    obtain ⟨l', h3, h4⟩ := begins_members hu
    refine ⟨_, .cons hn.2 h1 h3, fun s => ?_⟩
    have := BeginsMembers.cons (looseSpace_blank hw) hn
      (LooseSpace.append (looseSpace_blank hw1) (LooseSpace.append (looseSpace_one (.inr rfl)) (looseSpace_blank hw2)))
      (h2 _ (stops_blank hw' ⟨c!",", u ++ c!"}" :: s, rfl, by decide⟩))
      (beginsMembers_space (looseSpace_blank hw') (beginsMembers_space (looseSpace_one (.inl rfl)) (h4 s)))
    simpa using this

end

/-- Every document of the standard whose numbers are plain has a reading. -/
theorem body_writes {l : List Json} {w t : Str} (hw : Blank w) (ht : Writes PlainNumber (.array l) t) (s : Str) :
    ∃ l', ElementsReadAs l l' ∧ Body (w ++ (t ++ s)) l' := by
  cases ht with
  | array h =>
    obtain ⟨l', h1, h2⟩ := begins_elements h
    refine ⟨l', h1, w, _, s, rfl, looseSpace_blank hw, ?_⟩
    have := Begins.array (h2 s)
    simpa using this

/-! ### Which values are spans -/

theorem ElementsReadAs.of_mem {l : List Json} {l' : List Loose} (h : ElementsReadAs l l') :
    l'.length = l.length ∧ (∀ v ∈ l', ∃ j ∈ l, ReadAs j v) ∧ (∀ j ∈ l, ∃ v ∈ l', ReadAs j v) := by
  induction l generalizing l' with
  | nil => cases h; simp
  | cons j l ih =>
    cases h with
    | cons h1 h2 =>
      obtain ⟨e, i1, i2⟩ := ih h2
      refine ⟨by simp [e], fun v hv => ?_, fun k hk => ?_⟩
      · rcases List.mem_cons.mp hv with rfl | hv
        · exact ⟨j, by simp, h1⟩
        · obtain ⟨k, hk, h⟩ := i1 v hv
          exact ⟨k, by simp [hk], h⟩
      · rcases List.mem_cons.mp hk with rfl | hk
        · exact ⟨_, by simp, h1⟩
        · obtain ⟨v, hv, h⟩ := i2 k hk
          exact ⟨v, by simp [hv], h⟩

theorem MembersReadAs.of_mem {ms : List (Str × Json)} {ms' : List (Str × Loose)} (h : MembersReadAs ms ms') :
    (∀ v ∈ ms', ∃ m ∈ ms, unescape m.1 = some v.1 ∧ ReadAs m.2 v.2) ∧ (∀ m ∈ ms, ∃ v ∈ ms', unescape m.1 = some v.1 ∧ ReadAs m.2 v.2) := by
  induction ms generalizing ms' with
  | nil => cases h; simp
  | cons m ms ih =>
    cases h with
    | cons h0 h1 h2 =>
      obtain ⟨i1, i2⟩ := ih h2
      refine ⟨fun v hv => ?_, fun k hk => ?_⟩
      · rcases List.mem_cons.mp hv with rfl | hv
        · exact ⟨_, List.mem_cons_self .., h0, h1⟩
        · obtain ⟨k, hk, h⟩ := i1 v hv
          exact ⟨k, by simp [hk], h⟩
      · rcases List.mem_cons.mp hk with rfl | hk
        · exact ⟨_, List.mem_cons_self .., h0, h1⟩
        · obtain ⟨v, hv, h⟩ := i2 k hk
          exact ⟨v, by simp [hv], h⟩

theorem foldlM_isSome {α β : Type} {f : α → β → Option α} {P : β → Prop} (hf : ∀ a m, (f a m).isSome ↔ P m) (l : List β) (a : α) :
    (l.foldlM f a).isSome ↔ ∀ m ∈ l, P m := by
  induction l generalizing a with
  | nil => simp
  | cons m l ih =>
    rw [List.foldlM_cons]
    rcases hm : f a m with _ | a'
    · have : ¬ P m := fun h => by have := (hf a m).mpr h; rw [hm] at this; simp at this
      simp [this]
    · have : P m := (hf a m).mp (by rw [hm]; rfl)
      simp only [Option.bind_eq_bind, Option.bind_some, ih a', List.mem_cons, forall_eq_or_imp, this, true_and]

theorem mapM_isSome {α β : Type} {f : α → Option β} (l : List α) : (l.mapM f).isSome ↔ ∀ a ∈ l, (f a).isSome := by
  induction l with
  | nil => simp
  | cons a l ih =>
    rw [List.mapM_cons]
    rcases ha : f a with _ | b
    · simp [ha]
    · rcases hl : l.mapM f with _ | l'
      · rw [hl] at ih; simp at ih; simp [ha]; obtain ⟨x, hx, h⟩ := ih; exact ⟨x, hx, by simp [h]⟩
      · rw [hl] at ih; simp at ih; simp [ha]; exact fun x hx => ih x hx

theorem mapM_length {α β : Type} {f : α → Option β} {l : List α} {l' : List β} (h : l.mapM f = some l') : l'.length = l.length := by
  induction l generalizing l' with
  | nil => simp at h; subst h; rfl
  | cons a l ih =>
    rw [List.mapM_cons] at h
    rcases ha : f a with _ | b
    · simp [ha] at h
    · rcases hl : l.mapM f with _ | m
      · simp [ha, hl] at h
      · simp [ha, hl] at h
        subst h
        simp [ih hl]

/-- What the member has to be. -/
def TakenV2 (name : Str) (v : Loose) : Prop :=
  if name = b!"id" ∨ name = b!"traceId" ∨ name = b!"parentId" then v.toId.isSome
  else if name = b!"timestamp" ∨ name = b!"duration" then v.toMicros.isSome
  else if name = b!"name" ∨ name = b!"kind" then v.toStr.isSome
  else if name = b!"tags" then v.toTags.isSome
  else if name = b!"localEndpoint" then (v.members endpointMember {}).isSome
  else True

theorem endpoint_isSome (v : Loose) (e e' : Endpoint) : (v.members endpointMember e).isSome = (v.members endpointMember e').isSome := by
  cases v with
  | object ms =>
    simp only [Loose.members]
    rw [Bool.eq_iff_iff]
    have key : ∀ (a : Endpoint) (m : Str × Loose), (endpointMember m.1 m.2 a).isSome ↔ (m.1 = b!"serviceName" → m.2.toStr.isSome) := by
      intro a m
      unfold endpointMember
      split <;> simp_all
    rw [foldlM_isSome key, foldlM_isSome key]
  | _ => rfl

theorem member_taken (s : SpanV2) (m : Str × Loose) : (spanV2Member m.1 m.2 s).isSome ↔ TakenV2 m.1 m.2 := by
  unfold spanV2Member TakenV2
  by_cases h1 : m.1 = b!"id"
  · simp [h1]
  by_cases h2 : m.1 = b!"traceId"
  · simp [h2]
  by_cases h3 : m.1 = b!"parentId"
  · simp [h3]
  by_cases h4 : m.1 = b!"timestamp"
  · simp [h4]
  by_cases h5 : m.1 = b!"duration"
  · simp [h5]
  by_cases h6 : m.1 = b!"name"
  · simp [h6]
  by_cases h7 : m.1 = b!"tags"
  · simp [h7]
  by_cases h8 : m.1 = b!"kind"
  · simp [h8]
  by_cases h9 : m.1 = b!"localEndpoint"
  · simp [h9, endpoint_isSome m.2 s.endpoint {}]
  · simp [h1, h2, h3, h4, h5, h6, h7, h8, h9]

theorem object_taken (ms : List (Str × Loose)) : (Loose.toSpanV2 (.object ms)).isSome ↔ ∀ m ∈ ms, TakenV2 m.1 m.2 := by
  have := foldlM_isSome (f := fun (a : SpanV2) (m : Str × Loose) => spanV2Member m.1 m.2 a) (P := fun m => TakenV2 m.1 m.2) member_taken ms {}
  exact this

/-! ### Values of the API -/

theorem hex_toId {j : Json} {v : Loose} {low high : Nat} (h : HexString low high j) (hr : ReadAs j v) : v.toId.isSome ↔ HexString low 16 j := by
  obtain ⟨lit, u, rfl, h1, h2, h3, h4⟩ := h
  cases hr with
  | string hu =>
    rw [unescape_plain h1] at hu
    injection hu with hu
    subst hu
    have hhex : ∀ c ∈ u, IsHexDigit c := by
      have key : ∀ c : UInt8, c ∈ b!"0123456789abcdef" → IsHexDigit c := byte_forall (by decide +kernel)
      exact fun c hc => key c (h4 c hc)
    constructor
    · intro h
      refine ⟨lit, u, rfl, h1, h2, ?_, h4⟩
      by_cases hl : u.length ≤ 16
      · exact hl
      · simp [Loose.toId, hl] at h
    · rintro ⟨lit', u', e, k1, _, k3, _⟩
      injection e with e
      subst e
      have := unescape_plain k1
      rw [unescape_plain h1] at this
      injection this with e
      subst e
      simp only [Loose.toId, if_pos (And.intro k3 hhex), Option.isSome_some]

theorem string_toStr {j : Json} {v : Loose} (h : AnyString j) (hr : ReadAs j v) : v.toStr.isSome := by
  obtain ⟨lit, rfl⟩ := h
  cases hr; rfl

theorem micros_toMicros {j : Json} {v : Loose} (h : Micros j) (hr : ReadAs j v) : v.toMicros.isSome := by
  obtain ⟨t, rfl, h⟩ := h
  cases hr
  simp only [Loose.toMicros, if_pos h.2, Option.isSome_some]

theorem map_toTags {j : Json} {v : Loose} (h : StringMap j) (hr : ReadAs j v) : v.toTags.isSome := by
  obtain ⟨ms, rfl, h⟩ := h
  cases hr with
  | object hm =>
    simp only [Loose.toTags, Option.isSome_map]
    rw [mapM_isSome]
    intro m hm'
    obtain ⟨k, hk, _, h2⟩ := hm.of_mem.1 m hm'
    rw [Option.isSome_map]
    exact string_toStr (h k hk) h2

theorem endpoint_taken {j : Json} {v : Loose} (h : ApiEndpoint j) (hr : ReadAs j v) : (v.members endpointMember {}).isSome := by
  obtain ⟨ms, rfl, h⟩ := h
  cases hr with
  | object hm =>
    rename_i ms'
    have key : ∀ (a : Endpoint) (m : Str × Loose), (endpointMember m.1 m.2 a).isSome ↔ (m.1 = b!"serviceName" → m.2.toStr.isSome) := by
      intro a m
      unfold endpointMember
      split <;> simp_all
    refine (foldlM_isSome key ms' {}).mpr fun m hm' hn => ?_
    obtain ⟨k, hk, h1, h2⟩ := hm.of_mem.1 m hm'
    obtain ⟨n, h3, h4⟩ := h k hk
    rw [unescape_plain h3] at h1
    injection h1 with h1
    exact string_toStr (h4 (h1.trans hn)) h2

/-- A member of the API is taken, unless it is the id of a trace with more than 16 digits. -/
theorem apiMember_taken {name : Str} {j : Json} {v : Loose} (h : ApiMember name j) (hr : ReadAs j v) :
    TakenV2 name v ↔ (name = b!"traceId" → HexString 16 16 j) := by
  unfold TakenV2
  by_cases ht : name = b!"traceId"
  · subst ht
    rw [if_pos (by decide), hex_toId (h.traceId rfl) hr]
    simp
  · simp only [ht, false_implies, iff_true]
    repeat' split
    · rename_i hn
      rcases hn with rfl | hn | rfl
      · exact (hex_toId (h.id rfl) hr).mpr (h.id rfl)
      · simp at hn
      · exact (hex_toId (h.parentId rfl) hr).mpr (h.parentId rfl)
    · rename_i hn
      rcases hn with rfl | rfl
      · exact micros_toMicros (h.timestamp rfl) hr
      · exact micros_toMicros (h.duration rfl) hr
    · rename_i hn
      rcases hn with rfl | rfl
      · exact string_toStr (h.name rfl) hr
      · exact string_toStr (h.kind rfl) hr
    · rename_i hn
      exact map_toTags (h.tags hn) hr
    · rename_i hn
      exact endpoint_taken (h.localEndpoint hn) hr
    · trivial

theorem apiSpan_taken {j : Json} {v : Loose} (h : ApiSpan j) (hr : ReadAs j v) : v.toSpanV2.isSome ↔ ShortTrace j := by
  obtain ⟨ms, rfl, h⟩ := h
  cases hr with
  | object hm =>
    rw [object_taken]
    constructor
    · intro ht ms' key id e hmem hkey
      injection e with e
      subst e
      obtain ⟨v, hv, h1, h2⟩ := hm.of_mem.2 _ hmem
      obtain ⟨n, h3, h4⟩ := h _ hmem
      rw [unescape_plain h3] at h1
      injection h1 with h1
      have h5 := unescape_plain h3
      rw [unescape_plain hkey] at h5
      injection h5 with h5
      have h6 := ht v hv
      rw [← h1] at h6
      exact (apiMember_taken h4 h2).mp h6 h5.symm
    · intro hs m hm'
      obtain ⟨k, hk, h1, h2⟩ := hm.of_mem.1 m hm'
      obtain ⟨n, h3, h4⟩ := h k hk
      rw [unescape_plain h3] at h1
      injection h1 with h1
      rw [← h1]
      refine (apiMember_taken h4 h2).mpr fun hn => ?_
      exact hs ms k.1 k.2 rfl hk (hn ▸ h3)

/-! ### The property -/

/-- Any array of spans as the API describes them is accepted, if all ids of traces have 64 bits; otherwise all of it is rejected. (Numbers: without `E` and `+`; names of members and ids: without
escapes for control characters and without surrogate pairs.) -/
theorem C139_partial {l : List Json} {w t : Str} (hw : Blank w) (ht : Writes PlainNumber (.array l) t) (hl : ∀ j ∈ l, ApiSpan j) (s : Str) :
    ((∀ j ∈ l, ShortTrace j) → ∃ spans, ParsesV2 (w ++ (t ++ s)) spans ∧ spans.length = l.length) ∧
    ((∃ j ∈ l, ¬ ShortTrace j) → RejectsV2 (w ++ (t ++ s))) := by
  obtain ⟨l', h1, h2⟩ := body_writes hw ht s
  obtain ⟨e, m1, m2⟩ := h1.of_mem
  obtain ⟨c1, c2⟩ := C90_v2 (w ++ (t ++ s))
  constructor
  · intro hs
    have : (l'.mapM Loose.toSpanV2).isSome := by
      rw [mapM_isSome]
      intro v hv
      obtain ⟨j, hj, hr⟩ := m1 v hv
      exact (apiSpan_taken (hl j hj) hr).mpr (hs j hj)
    obtain ⟨vs, hvs⟩ := Option.isSome_iff_exists.mp this
    obtain ⟨spans, k1, k2⟩ := c1 vs ⟨l', h2, hvs⟩
    exact ⟨spans, k2, by rw [← pairwise_length k1, mapM_length hvs, e]⟩
  · rintro ⟨j, hj, hn⟩
    refine c2 ?_
    rintro ⟨vs, l'', k1, k2⟩
    have := body_unique h2 k1
    subst this
    have : (l'.mapM Loose.toSpanV2).isSome := by rw [k2]; rfl
    rw [mapM_isSome] at this
    obtain ⟨v, hv, hr⟩ := m2 j hj
    exact hn ((apiSpan_taken (hl j hj) hr).mp (this v hv))

theorem literal_text {lit : Str} (h : ∀ c ∈ lit, c ≠ c!"\"" ∧ c ≠ c!"\\" ∧ 0x20 ≤ c) : JsonLiteral lit := ⟨lit, text_json h⟩

/-- An object with the ids of a span, and its text. -/
theorem writes_ids {a b c d : Str} (ha : JsonLiteral a) (hb : JsonLiteral b) (hc : JsonLiteral c) (hd : JsonLiteral d) :
    Writes PlainNumber (.object [(a, .string b), (c, .string d)]) (b!"{\"" ++ (a ++ (b!"\":\"" ++ (b ++ (b!"\",\"" ++ (c ++ (b!"\":\"" ++ (d ++ b!"\"}")))))))) := by
  have := Writes.object (N := PlainNumber) (WritesMembers.cons (w := []) (w1 := []) (w2 := []) (w' := []) (by decide) ha (by decide) (by decide) (.string hb) (by decide)
    (WritesMembers.last (w := []) (w1 := []) (w2 := []) (w' := []) (by decide) hc (by decide) (by decide) (.string hd) (by decide)))
  simpa using this

/-- A span with these two ids is as the API says. -/
theorem apiSpan_ids {t i : Str} (ht : ∀ c ∈ t, c ∈ b!"0123456789abcdef") (hi : ∀ c ∈ i, c ∈ b!"0123456789abcdef") (h1 : 16 ≤ t.length) (h2 : t.length ≤ 32)
    (h3 : i.length = 16) : ApiSpan (.object [(b!"traceId", .string t), (b!"id", .string i)]) := by
  have key : ∀ c : UInt8, c ∈ b!"0123456789abcdef" → c ≠ c!"\"" ∧ c ≠ c!"\\" ∧ 0x20 ≤ c := byte_forall (by decide +kernel)
  refine ⟨_, rfl, fun m hm => ?_⟩
  simp only [List.mem_cons, List.not_mem_nil, or_false] at hm
  rcases hm with rfl | rfl
  · refine ⟨b!"traceId", text_plain (lit := b!"traceId") (by decide), ⟨fun _ => ⟨t, t, rfl, text_plain fun c hc => key c (ht c hc), h1, h2, ht⟩, ?_, ?_, ?_, ?_, ?_, ?_, ?_, ?_⟩⟩
    all_goals exact fun h => absurd h (by decide)
  · refine ⟨b!"id", text_plain (lit := b!"id") (by decide), ⟨?_, fun _ => ⟨i, i, rfl, text_plain fun c hc => key c (hi c hc), by omega, by omega, hi⟩, ?_, ?_, ?_, ?_, ?_, ?_, ?_⟩⟩
    all_goals exact fun h => absurd h (by decide)

/-- A request with one span whose trace has 64 bits meets the hypotheses. -/
theorem C139_example :
    ∃ l, Writes PlainNumber (.array l) b!"[{\"traceId\":\"48485a3953bb6124\",\"id\":\"48485a3953bb6124\"}]" ∧ (∀ j ∈ l, ApiSpan j) ∧ (∀ j ∈ l, ShortTrace j) ∧
      ∃ spans, ParsesV2 b!"[{\"traceId\":\"48485a3953bb6124\",\"id\":\"48485a3953bb6124\"}]" spans ∧ spans.length = 1 := by
  have h1 : ∀ c ∈ b!"48485a3953bb6124", c ∈ b!"0123456789abcdef" := by decide
  have h2 : ∀ c ∈ b!"48485a3953bb6124", c ≠ c!"\"" ∧ c ≠ c!"\\" ∧ 0x20 ≤ c := by decide
  have hw := Writes.array (N := PlainNumber) (WritesElements.last (w := []) (w' := []) (by decide)
    (writes_ids (literal_text (lit := b!"traceId") (by decide)) (literal_text h2) (literal_text (lit := b!"id") (by decide)) (literal_text h2)) (by decide))
  have hapi := apiSpan_ids h1 h1 (by decide) (by decide) (by decide)
  have hshort : ShortTrace (.object [(b!"traceId", .string b!"48485a3953bb6124"), (b!"id", .string b!"48485a3953bb6124")]) := by
    intro ms key id e hm _
    injection e with e
    subst e
    simp only [List.mem_cons, Prod.mk.injEq, List.not_mem_nil, or_false] at hm
    have : id = .string b!"48485a3953bb6124" := by rcases hm with ⟨_, h⟩ | ⟨_, h⟩ <;> exact h
    exact ⟨_, _, this, text_plain h2, by decide, by decide, h1⟩
  have hs : ∀ j ∈ [Json.object [(b!"traceId", .string b!"48485a3953bb6124"), (b!"id", .string b!"48485a3953bb6124")]], ShortTrace j := by
    intro j hj
    rw [List.mem_singleton.mp hj]
    exact hshort
  have ha : ∀ j ∈ [Json.object [(b!"traceId", .string b!"48485a3953bb6124"), (b!"id", .string b!"48485a3953bb6124")]], ApiSpan j := by
    intro j hj
    rw [List.mem_singleton.mp hj]
    exact hapi
  exact ⟨_, hw, ha, hs, (C139_partial (w := []) (by decide) hw ha []).1 hs⟩

/-- As first stated the property is false: of two spans as the API describes them none is accepted, if the trace of one of them has an id of 128 bits. -/
theorem C139_fails :
    ∃ l, Writes PlainNumber (.array l)
        b!"[{\"traceId\":\"48485a3953bb6124\",\"id\":\"48485a3953bb6124\"},{\"traceId\":\"463ac35c9f6413ad48485a3953bb6124\",\"id\":\"48485a3953bb6124\"}]" ∧
      (∀ j ∈ l, ApiSpan j) ∧
      RejectsV2 b!"[{\"traceId\":\"48485a3953bb6124\",\"id\":\"48485a3953bb6124\"},{\"traceId\":\"463ac35c9f6413ad48485a3953bb6124\",\"id\":\"48485a3953bb6124\"}]" := by
  have h1 : ∀ c ∈ b!"48485a3953bb6124", c ∈ b!"0123456789abcdef" := by decide
  have h2 : ∀ c ∈ b!"48485a3953bb6124", c ≠ c!"\"" ∧ c ≠ c!"\\" ∧ 0x20 ≤ c := by decide
  have h3 : ∀ c ∈ b!"463ac35c9f6413ad48485a3953bb6124", c ∈ b!"0123456789abcdef" := by decide
  have h4 : ∀ c ∈ b!"463ac35c9f6413ad48485a3953bb6124", c ≠ c!"\"" ∧ c ≠ c!"\\" ∧ 0x20 ≤ c := by decide
  have hw := Writes.array (N := PlainNumber) (WritesElements.cons (w := []) (w' := []) (by decide)
    (writes_ids (literal_text (lit := b!"traceId") (by decide)) (literal_text h2) (literal_text (lit := b!"id") (by decide)) (literal_text h2)) (by decide)
    (WritesElements.last (w := []) (w' := []) (by decide)
      (writes_ids (literal_text (lit := b!"traceId") (by decide)) (literal_text h4) (literal_text (lit := b!"id") (by decide)) (literal_text h2)) (by decide)))
  have ha : ∀ j ∈ [Json.object [(b!"traceId", .string b!"48485a3953bb6124"), (b!"id", .string b!"48485a3953bb6124")],
      Json.object [(b!"traceId", .string b!"463ac35c9f6413ad48485a3953bb6124"), (b!"id", .string b!"48485a3953bb6124")]], ApiSpan j := by
    intro j hj
    simp only [List.mem_cons, List.not_mem_nil, or_false] at hj
    rcases hj with rfl | rfl
    · exact apiSpan_ids h1 h1 (by decide) (by decide) (by decide)
    · exact apiSpan_ids h3 h1 (by decide) (by decide) (by decide)
  refine ⟨_, hw, ha, (C139_partial (w := []) (by decide) hw ha []).2 ⟨_, List.mem_cons_of_mem _ (List.mem_singleton.mpr rfl), fun hs => ?_⟩⟩
  obtain ⟨lit, v, e, hp, _, hle, _⟩ := hs _ b!"traceId" _ rfl (List.mem_cons_self ..) (text_plain (by decide))
  injection e with e
  subst e
  have e1 := unescape_plain hp
  rw [unescape_plain (text_plain h4)] at e1
  injection e1 with e1
  subst e1
  exact absurd hle (by decide)

end Verif
