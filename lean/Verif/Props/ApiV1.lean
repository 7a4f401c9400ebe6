import Verif.Props.Api

/-!
# C140: documents of version 1 that conform to the API of Zipkin
-/

namespace Verif

open Spec

theorem foldlM_isSome_of {α β : Type} {f : α → β → Option α} {P : β → Prop} (l : List β) (hf : ∀ m ∈ l, ∀ a, (f a m).isSome ↔ P m) (a : α) :
    (l.foldlM f a).isSome ↔ ∀ m ∈ l, P m := by
  induction l generalizing a with
  | nil => simp
  | cons m l ih =>
    rw [List.foldlM_cons]
    rcases hm : f a m with _ | a'
    · have : ¬ P m := fun h => by have := (hf m (by simp) a).mpr h; rw [hm] at this; simp at this
      simp [this]
    · have : P m := (hf m (by simp) a).mp (by rw [hm]; rfl)
      simp only [Option.bind_eq_bind, Option.bind_some, ih (fun x hx => hf x (by simp [hx])) a', List.mem_cons, forall_eq_or_imp, this, true_and]

theorem scalar_toScalar {j : Json} {v : Loose} (h : ApiScalar j) (hr : ReadAs j v) : v.toScalar.isSome := by
  rcases h with ⟨lit, rfl⟩ | ⟨t, rfl⟩ | ⟨w, rfl⟩ <;> cases hr <;> rfl

/-- An object all of whose members are taken. -/
theorem object_members {α : Type} {f : Str → Loose → α → Option α} {allowed : Str → Json → Prop} (hf : ∀ {key j v}, allowed key j → ReadAs j v → ∀ a, (f key v a).isSome)
    {j : Json} {v : Loose} (h : ObjectWith allowed j) (hr : ReadAs j v) (a : α) : (v.members f a).isSome := by
  obtain ⟨ms, rfl, h⟩ := h
  cases hr with
  | object hm =>
    rename_i ms'
    refine (foldlM_isSome_of (P := fun _ => True) ms' (fun m hm' a => iff_of_true ?_ trivial) a).mpr fun _ _ => trivial
    obtain ⟨k, hk, h1, h2⟩ := hm.of_mem.1 m hm'
    obtain ⟨n, h3, h4⟩ := h k hk
    rw [unescape_plain h3] at h1
    injection h1 with h1
    rw [← h1]
    exact hf h4 h2 a

theorem endpoint_members {j : Json} {v : Loose} (h : ApiEndpoint j) (hr : ReadAs j v) (e : Endpoint) : (v.members endpointMember e).isSome := by
  rw [endpoint_isSome v e {}]
  exact endpoint_taken h hr

theorem annotation_members {j : Json} {v : Loose} (h : ApiAnnotation j) (hr : ReadAs j v) (a : AnnotationV1) : (v.members annotationMember a).isSome := by
  refine object_members (fun {key j v} hk hr a => ?_) h hr a
  unfold annotationMember
  split
  · rename_i e; rw [Option.isSome_map]; exact micros_toMicros (hk.1 e) hr
  split
  · rename_i e; rw [Option.isSome_map]; exact string_toStr (hk.2.1 e) hr
  split
  · rename_i e; rw [Option.isSome_map]; exact endpoint_members (hk.2.2 e) hr _
  · rfl

theorem binary_members {j : Json} {v : Loose} (h : ApiBinaryAnnotation j) (hr : ReadAs j v) (a : BinaryAnnotationV1) : (v.members binaryAnnotationMember a).isSome := by
  refine object_members (fun {key j v} hk hr a => ?_) h hr a
  unfold binaryAnnotationMember
  split
  · rename_i e; rw [Option.isSome_map]; exact string_toStr (hk.1 e) hr
  split
  · rename_i e; rw [Option.isSome_map]; exact scalar_toScalar (hk.2.1 e) hr
  split
  · rename_i e; rw [Option.isSome_map]; exact endpoint_members (hk.2.2 e) hr _
  · rfl

theorem fill_isSome {α : Type} {f : Loose → α → Option α} (l : List Loose) (hf : ∀ v ∈ l, ∀ a, (f v a).isSome) (i : Nat) (m : Cells α) : (m.fill f i l).isSome := by
  induction l generalizing i m with
  | nil => rfl
  | cons v l ih =>
    obtain ⟨b, hb⟩ := Option.isSome_iff_exists.mp (hf v (by simp) (m.cell i))
    simp only [Cells.fill, hb, Option.bind_eq_bind, Option.bind_some]
    exact ih (fun x hx => hf x (by simp [hx])) _ _

theorem fillList_isSome {α : Type} {f : Loose → α → Option α} (l : List Loose) (hf : ∀ v ∈ l, ∀ a, (f v a).isSome) (i : Nat) (a : List α) : (fillList f i l a).isSome := by
  induction l generalizing i a with
  | nil => rfl
  | cons v l ih =>
    unfold fillList
    split
    · rename_i x _
      obtain ⟨b, hb⟩ := Option.isSome_iff_exists.mp (hf v (by simp) x)
      rw [hb, Option.bind_some]
      exact ih (fun x hx => hf x (by simp [hx])) _ _
    · exact ih (fun x hx => hf x (by simp [hx])) _ _

theorem fill_len {α : Type} {f : Loose → α → Option α} {l : List Loose} {i : Nat} {m m' : Cells α} (h : m.fill f i l = some m') (hi : m.len = i) : m'.len = i + l.length := by
  induction l generalizing i m with
  | nil => simp only [Cells.fill, Option.some.injEq] at h; subst h; simpa using hi
  | cons v l ih =>
    simp only [Cells.fill, Option.bind_eq_bind] at h
    rcases hv : f v (m.cell i) with _ | a
    · rw [hv] at h; cases h
    · rw [hv, Option.bind_some] at h
      rw [ih h rfl, List.length_cons]
      omega

theorem apiMemberV1_taken {key : Str} {j : Json} {v : Loose} (h : ApiMemberV1 key j) (hr : ReadAs j v) (s : MemV1) :
    (spanV1Member key v s).isSome ↔ (key = b!"traceId" → v.toId.isSome) := by
  unfold spanV1Member
  by_cases ht : key = b!"traceId"
  · subst ht
    simp
  · simp only [ht, false_implies, iff_true, if_false]
    split
    · rename_i e; rw [Option.isSome_map]; exact (hex_toId (h.id e) hr).mpr (h.id e)
    split
    · rename_i e; rw [Option.isSome_map]; exact (hex_toId (h.parentId e) hr).mpr (h.parentId e)
    split
    · rename_i e; rw [Option.isSome_map]; exact micros_toMicros (h.timestamp e) hr
    split
    · rename_i e; rw [Option.isSome_map]; exact micros_toMicros (h.duration e) hr
    split
    · rename_i e; rw [Option.isSome_map]; exact string_toStr (h.name e) hr
    split
    · rename_i e
      obtain ⟨l, rfl, hl⟩ := h.binaryAnnotations e
      cases hr with
      | array hr =>
        rw [Option.isSome_map]
        refine fill_isSome _ (fun v hv a => ?_) 0 _
        obtain ⟨j, hj, hr⟩ := hr.of_mem.2.1 v hv
        exact binary_members (hl j hj) hr a
    split
    · rename_i e
      obtain ⟨l, rfl, hl⟩ := h.annotations e
      cases hr with
      | array hr =>
        rw [Option.isSome_map]
        refine fillList_isSome _ (fun v hv a => ?_) 0 _
        obtain ⟨j, hj, hr⟩ := hr.of_mem.2.1 v hv
        exact annotation_members (hl j hj) hr a
    · rfl

theorem apiSpanV1_taken {j : Json} {v : Loose} (h : ApiSpanV1 j) (hr : ReadAs j v) (s : MemV1) : (v.toMemV1 s).isSome ↔ ShortTrace j := by
  obtain ⟨ms, rfl, h⟩ := h
  cases hr with
  | object hm =>
    rename_i ms'
    have key : (Loose.toMemV1 (.object ms') s).isSome ↔ ∀ m ∈ ms', m.1 = b!"traceId" → m.2.toId.isSome := by
      refine foldlM_isSome_of (f := fun (a : MemV1) (m : Str × Loose) => spanV1Member m.1 m.2 a) ms' (fun m hm' a => ?_) _
      obtain ⟨k, hk, h1, h2⟩ := hm.of_mem.1 m hm'
      obtain ⟨n, h3, h4⟩ := h k hk
      rw [unescape_plain h3] at h1
      injection h1 with h1
      rw [← h1]
      exact apiMemberV1_taken h4 h2 a
    rw [key]
    constructor
    · intro ht ms' key id e hmem hkey
      injection e with e
      subst e
      obtain ⟨v, hv, h1, h2⟩ := hm.of_mem.2 _ hmem
      obtain ⟨n, h3, h4⟩ := h _ hmem
      have h5 := unescape_plain h3
      rw [unescape_plain hkey] at h5 h1
      injection h5 with h5
      injection h1 with h1
      exact (hex_toId (h4.traceId h5.symm) h2).mp (ht v hv h1.symm)
    · intro hs m hm' hn
      obtain ⟨k, hk, h1, h2⟩ := hm.of_mem.1 m hm'
      obtain ⟨n, h3, h4⟩ := h k hk
      rw [unescape_plain h3] at h1
      injection h1 with h1
      have e : n = b!"traceId" := h1.trans hn
      exact (hex_toId (h4.traceId e) h2).mpr (hs ms k.1 k.2 rfl hk (e ▸ h3))

/-- Version 1: any array of spans as the API describes them is accepted on any memory, if all ids of traces have 64 bits; otherwise all of it is rejected. -/
theorem C140_partial {l : List Json} {w t : Str} (hw : Blank w) (ht : Writes PlainNumber (.array l) t) (hl : ∀ j ∈ l, ApiSpanV1 j) (s : Str) :
    ((∀ j ∈ l, ShortTrace j) → ∀ newCap pool, ∃ spans pool', ParsesV1 newCap (w ++ (t ++ s)) pool spans pool' ∧ spans.length = l.length) ∧
    ((∃ j ∈ l, ¬ ShortTrace j) → RejectsV1 (w ++ (t ++ s))) := by
  obtain ⟨l', h1, h2⟩ := body_writes hw ht s
  obtain ⟨e, m1, m2⟩ := h1.of_mem
  obtain ⟨c1, c2⟩ := C90_v1_accepts (w ++ (t ++ s))
  constructor
  · intro hs newCap pool
    have hb : IsBodyV1 (w ++ (t ++ s)) := by
      refine ⟨l', h2, fun v hv hn => ?_⟩
      obtain ⟨j, hj, hr⟩ := m1 v hv
      have := (apiSpanV1_taken (hl j hj) hr {}).mpr (hs j hj)
      rw [hn] at this
      cases this
    obtain ⟨after, ha⟩ := c1 hb (poolMemory pool)
    obtain ⟨spans, pool', k1, k2, _⟩ := C90_v1 newCap _ pool ha
    refine ⟨spans, pool', k2, ?_⟩
    obtain ⟨l'', b1, b2⟩ := ha
    have := body_unique h2 b1
    subst this
    rw [← pairwise_length k1, ← e]
    simp only [Cells.list, List.length_map, List.length_range]
    rw [fill_len b2 rfl, Nat.zero_add]
  · rintro ⟨j, hj, hn⟩
    refine c2 ?_
    rintro ⟨l'', k1, k2⟩
    have := body_unique h2 k1
    subst this
    obtain ⟨v, hv, hr⟩ := m2 j hj
    exact hn ((apiSpanV1_taken (hl j hj) hr {}).mp (Option.isSome_iff_ne_none.mpr (k2 v hv)))

/-- A span with these two ids is as the API of version 1 says. -/
theorem apiSpanV1_ids {t i : Str} (ht : ∀ c ∈ t, c ∈ b!"0123456789abcdef") (hi : ∀ c ∈ i, c ∈ b!"0123456789abcdef") (h1 : 16 ≤ t.length) (h2 : t.length ≤ 32)
    (h3 : i.length = 16) : ApiSpanV1 (.object [(b!"traceId", .string t), (b!"id", .string i)]) := by
  have key : ∀ c : UInt8, c ∈ b!"0123456789abcdef" → c ≠ c!"\"" ∧ c ≠ c!"\\" ∧ 0x20 ≤ c := byte_forall (by decide +kernel)
  refine ⟨_, rfl, fun m hm => ?_⟩
  simp only [List.mem_cons, List.not_mem_nil, or_false] at hm
  rcases hm with rfl | rfl
  · refine ⟨b!"traceId", text_plain (lit := b!"traceId") (by decide), ⟨fun _ => ⟨t, t, rfl, text_plain fun c hc => key c (ht c hc), h1, h2, ht⟩, ?_, ?_, ?_, ?_, ?_, ?_, ?_⟩⟩
    all_goals exact fun h => absurd h (by decide)
  · refine ⟨b!"id", text_plain (lit := b!"id") (by decide), ⟨?_, fun _ => ⟨i, i, rfl, text_plain fun c hc => key c (hi c hc), by omega, by omega, hi⟩, ?_, ?_, ?_, ?_, ?_, ?_⟩⟩
    all_goals exact fun h => absurd h (by decide)

/-- A span with five annotations, of which one has an endpoint, and a binary annotation with a boolean value meets the hypotheses. -/
theorem C140_example :
    ApiSpanV1 (.object [(b!"annotations", .array (List.replicate 4 (.object []) ++ [.object [(b!"timestamp", .number b!"5"), (b!"endpoint", .object [(b!"port", .number b!"80")])]])),
      (b!"binaryAnnotations", .array [.object [(b!"key", .string b!"error"), (b!"value", .word .true)]]), (b!"debug", .word .true)]) ∧
    ShortTrace (.object [(b!"debug", .word .true)]) := by
  have none_ : ApiAnnotation (.object []) := ⟨_, rfl, fun _ h => absurd h (by simp)⟩
  refine ⟨⟨_, rfl, fun m hm => ?_⟩, ?_⟩
  · simp only [List.mem_cons, List.not_mem_nil, or_false] at hm
    rcases hm with rfl | rfl | rfl
    · refine ⟨b!"annotations", text_plain (lit := b!"annotations") (by decide), ⟨?_, ?_, ?_, ?_, ?_, ?_, fun _ => ⟨_, rfl, fun e he => ?_⟩, ?_⟩⟩
      case refine_7 =>
        rcases List.mem_append.mp he with he | he
        · rw [(List.mem_replicate.mp he).2]; exact none_
        · rw [List.mem_singleton.mp he]
          refine ⟨_, rfl, fun m hm => ?_⟩
          simp only [List.mem_cons, List.not_mem_nil, or_false] at hm
          rcases hm with rfl | rfl
          · exact ⟨b!"timestamp", text_plain (lit := b!"timestamp") (by decide), fun _ => ⟨_, rfl, by decide⟩, fun h => absurd h (by decide), fun h => absurd h (by decide)⟩
          · refine ⟨b!"endpoint", text_plain (lit := b!"endpoint") (by decide), fun h => absurd h (by decide), fun h => absurd h (by decide), fun _ => ⟨_, rfl, fun m hm => ?_⟩⟩
            rw [List.mem_singleton.mp hm]
            exact ⟨b!"port", text_plain (lit := b!"port") (by decide), fun h => absurd h (by decide)⟩
      all_goals exact fun h => absurd h (by decide)
    · refine ⟨b!"binaryAnnotations", text_plain (lit := b!"binaryAnnotations") (by decide), ⟨?_, ?_, ?_, ?_, ?_, ?_, ?_, fun _ => ⟨_, rfl, fun e he => ?_⟩⟩⟩
      case refine_8 =>
        rw [List.mem_singleton.mp he]
        refine ⟨_, rfl, fun m hm => ?_⟩
        simp only [List.mem_cons, List.not_mem_nil, or_false] at hm
        rcases hm with rfl | rfl
        · exact ⟨b!"key", text_plain (lit := b!"key") (by decide), fun _ => ⟨_, rfl⟩, fun h => absurd h (by decide), fun h => absurd h (by decide)⟩
        · exact ⟨b!"value", text_plain (lit := b!"value") (by decide), fun h => absurd h (by decide), fun _ => .inr (.inr ⟨_, rfl⟩), fun h => absurd h (by decide)⟩
      all_goals exact fun h => absurd h (by decide)
    · refine ⟨b!"debug", text_plain (lit := b!"debug") (by decide), ⟨?_, ?_, ?_, ?_, ?_, ?_, ?_, ?_⟩⟩
      all_goals exact fun h => absurd h (by decide)
  · intro ms key id e hm hk
    injection e with e
    subst e
    simp only [List.mem_singleton, Prod.mk.injEq] at hm
    obtain ⟨rfl, _⟩ := hm
    have := unescape_plain hk
    rw [unescape_plain (text_plain (lit := b!"debug") (by decide))] at this
    injection this with this
    exact absurd this (by decide)

/-- As first stated the property is false for version 1, too. -/
theorem C140_fails :
    ∃ l, Writes PlainNumber (.array l) b!"[{\"traceId\":\"463ac35c9f6413ad48485a3953bb6124\",\"id\":\"48485a3953bb6124\"}]" ∧ (∀ j ∈ l, ApiSpanV1 j) ∧
      RejectsV1 b!"[{\"traceId\":\"463ac35c9f6413ad48485a3953bb6124\",\"id\":\"48485a3953bb6124\"}]" := by
  have h1 : ∀ c ∈ b!"48485a3953bb6124", c ∈ b!"0123456789abcdef" := by decide
  have h2 : ∀ c ∈ b!"48485a3953bb6124", c ≠ c!"\"" ∧ c ≠ c!"\\" ∧ 0x20 ≤ c := by decide
  have h3 : ∀ c ∈ b!"463ac35c9f6413ad48485a3953bb6124", c ∈ b!"0123456789abcdef" := by decide
  have h4 : ∀ c ∈ b!"463ac35c9f6413ad48485a3953bb6124", c ≠ c!"\"" ∧ c ≠ c!"\\" ∧ 0x20 ≤ c := by decide
  have hw := Writes.array (N := PlainNumber) (WritesElements.last (w := []) (w' := []) (by decide)
    (writes_ids (literal_text (lit := b!"traceId") (by decide)) (literal_text h4) (literal_text (lit := b!"id") (by decide)) (literal_text h2)) (by decide))
  have ha : ∀ j ∈ [Json.object [(b!"traceId", .string b!"463ac35c9f6413ad48485a3953bb6124"), (b!"id", .string b!"48485a3953bb6124")]], ApiSpanV1 j := by
    intro j hj
    rw [List.mem_singleton.mp hj]
    exact apiSpanV1_ids h3 h1 (by decide) (by decide) (by decide)
  refine ⟨_, hw, ha, (C140_partial (w := []) (by decide) hw ha []).2 ⟨_, List.mem_singleton.mpr rfl, fun hs => ?_⟩⟩
  obtain ⟨lit, v, e, hp, _, hle, _⟩ := hs _ b!"traceId" _ rfl (List.mem_cons_self ..) (text_plain (by decide))
  injection e with e
  subst e
  have e1 := unescape_plain hp
  rw [unescape_plain (text_plain h4)] at e1
  injection e1 with e1
  subst e1
  exact absurd hle (by decide)

end Verif
