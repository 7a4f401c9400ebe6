import Verif.Props.Json
import Verif.Proofs.Convert
import Verif.Props.Id
import Verif.Spec.Document

/-!
# Decoding documents
-/

namespace Verif

open Spec

/-- Literals that the parser reads as `S` says. -/
def Readable (S : Str → Str → Prop) : Prop := ∀ lit v, S lit v → unescape lit = some v

theorem readable_plain : Readable PlainString := fun _ _ h => unescape_plain h

section
variable {σ : Type}

/-- A decoder reads a text, and so changes its target. -/
def Reads (d : Nat → ValueDecoder σ) (t : Str) (m m' : σ) : Prop :=
  ∃ N, ∀ fuel, N ≤ fuel → ∀ w s r, Sep w → Delim s → s ≠ [] → (d fuel m).stream r (w ++ (t ++ s)) = .ok m' false s

/-- A decoder reads a value, however it is written. -/
def ReadsJson (d : Nat → ValueDecoder σ) (j : Json) (m m' : σ) : Prop := ∀ t, Writes PlainNumber j t → Reads d t m m'

end

/-! ## Scalars -/

section
variable {S : Str → Str → Prop} (hS : Readable S)
include hS

theorem reads_string {j : Json} {v : Str} (h : StringOf S j v) (m : Str) : ReadsJson (fun _ => stringValueDecoder) j m v := by
  cases h with
  | string hv =>
    intro t ht
    cases ht with
    | string hl =>
      refine ⟨0, fun fuel _ w s r hw _ _ => ?_⟩
      simp only [stringValueDecoder, List.cons_append, List.append_assoc, List.nil_append]
      rw [stream_readString hw hl (hS _ _ hv)]
      rfl

theorem reads_id {j : Json} {v : Int64} (h : IdOf S j v) (m : Id) : ReadsJson idValueDecoder j m v := by
  cases h with
  | null =>
    intro t ht
    cases ht
    obtain ⟨N, hN⟩ := skipValue_stream (skips_word .null)
    refine ⟨N, fun fuel hf w s r hw _ _ => ?_⟩
    unfold idValueDecoder
    have := hN fuel hf [] s true Sep.nil (by intro c hc hn; injection hc with hc; subst hc; exact absurd hn (by decide))
    simp only [JsonWord.text, List.cons_append, List.nil_append] at this ⊢
    rw [stream_nextType hw (by decide) (by decide), if_pos (by decide), Prog.stream_andThen, this]
    rfl
  | string hv hl hh hx =>
    intro t ht
    cases ht with
    | string hlit =>
      refine ⟨0, fun fuel _ w s r hw _ _ => ?_⟩
      unfold idValueDecoder
      simp only [List.cons_append, List.append_assoc, List.nil_append]
      rw [stream_nextType hw (by decide) (by decide), if_neg (by decide)]
      rw [stream_readString0 hlit (hS _ _ hv)]
      obtain ⟨id', hid⟩ := Option.isSome_iff_exists.mp ((C02_parseId_accepts_iff _).mpr ⟨hl, hh⟩)
      have hval := C02_parseId_value _ _ hid
      rw [hid]
      have : id' = v := int64_ext (UInt64.toNat_inj.mp (by rw [hval, hx]))
      rw [this]
      rfl

theorem reads_scalar {j : Json} {v : Str} (h : ScalarOf S j v) (m : Str) : ReadsJson (fun _ => anyValueDecoder) j m v := by
  intro t ht
  cases h with
  | string hv =>
    cases ht with
    | string hl =>
      refine ⟨0, fun fuel _ w s r hw _ _ => ?_⟩
      simp only [anyValueDecoder, readLiteral, List.cons_append, List.append_assoc, List.nil_append]
      rw [stream_nextType hw (by decide) (by decide)]
      simp only [show symbolTable 34 = .string from by decide]
      rw [stream_readStringOp hl (hS _ _ hv)]
      rfl
  | number t =>
    cases ht with
    | number hp =>
      refine ⟨0, fun fuel _ w s r hw hs hne => ?_⟩
      have hn := numberToken_plain hp
      have hn' := hn
      obtain ⟨c, t', rfl, hc, _⟩ := hn'
      have hty : symbolTable c = .number := by simpa [isCharDigit] using hc
      simp only [anyValueDecoder, readLiteral]
      rw [List.cons_append, stream_nextType hw (by simp [isCharSpace, hty]) (by rw [hty]; simp), ← List.cons_append]
      simp only [hty]
      rw [stream_readNumberOp hn hs hne]
      rfl
  | word x =>
    cases ht
    refine ⟨0, fun fuel _ w s r hw hs hne => ?_⟩
    simp only [anyValueDecoder, readLiteral]
    cases x with
    | null =>
      have := stream_readWord .null s (m := m) (k := fun tok => .done tok)
      simp only [JsonWord.text, List.cons_append, List.nil_append] at this ⊢
      rw [stream_nextType hw (by decide) (by decide)]
      exact this
    | true =>
      have := stream_readBoolean (w := .true) (by simp) s (m := m) (k := fun tok => .done tok)
      simp only [JsonWord.text, List.cons_append, List.nil_append] at this ⊢
      rw [stream_nextType hw (by decide) (by decide)]
      exact this
    | false =>
      have := stream_readBoolean (w := .false) (by simp) s (m := m) (k := fun tok => .done tok)
      simp only [JsonWord.text, List.cons_append, List.nil_append] at this ⊢
      rw [stream_nextType hw (by decide) (by decide)]
      exact this

omit hS in
theorem reads_micros {j : Json} {v : UInt64} (h : MicrosOf j v) (m : UInt64) : ReadsJson (fun _ => uint64ValueDecoder) j m v := by
  cases h with
  | number hd hv =>
    intro t ht
    cases ht with
    | number hp =>
      refine ⟨0, fun fuel _ w s r hw hs hne => ?_⟩
      unfold uint64ValueDecoder
      rw [stream_readNumber hw (numberToken_plain hp) hs hne, decimal_digits hd.2]
      rw [← hv, UInt64.ofNat_toNat]
      rfl

end

theorem ReadsJson.field {τ σ : Type} {get : σ → τ} {set : τ → σ → σ} {d : Nat → ValueDecoder τ} {j : Json} {m : σ} {v : τ}
    (h : ReadsJson d j (get m) v) : ReadsJson (fun fuel => (d fuel).field get set) j m (set v m) := by
  intro t ht
  obtain ⟨N, hN⟩ := h t ht
  refine ⟨N, fun fuel hf w s r hw hs hne => ?_⟩
  unfold ValueDecoder.field
  rw [Prog.stream_andThen, hN fuel hf w s r hw hs hne]
  rfl

/-! ## Texts of members and elements -/

theorem members_cons {N : Str → Prop} {lit : Str} {j : Json} {l : List (Str × Json)} {t : Str} (h : WritesMembers N ((lit, j) :: l) t) :
    ∃ w w1 tj sp u, t = w ++ c!"\"" :: (lit ++ c!"\"" :: (w1 ++ (tj ++ (sp ++ u)))) ∧ Sep w ∧ JsonLiteral lit ∧ Sep w1 ∧ Writes N j tj ∧ Sep sp ∧
      (∀ s, Delim (sp ++ (u ++ c!"}" :: s))) ∧ WritesMembers N l u := by
  cases h with
  | last hw hl hw1 hw2 ht hw' =>
    rename_i w w1 w2 tj w'
    refine ⟨w, w1 ++ ([c!":"] ++ w2), tj, [], w', by simp, sep_blank hw, hl, (sep_blank hw1).append (sep_colon.append (sep_blank hw2)), ht, Sep.nil,
      fun s => by
        rw [List.nil_append]; exact delim_sep (sep_blank hw') (delim_cons (by decide) s), .empty hw'⟩
  | cons hw hl hw1 hw2 ht hw' hu =>
    rename_i w w1 w2 tj w' u
    refine ⟨w, w1 ++ ([c!":"] ++ w2), tj, w' ++ [c!","], u, by simp, sep_blank hw, hl, (sep_blank hw1).append (sep_colon.append (sep_blank hw2)), ht,
      (sep_blank hw').append sep_comma, fun s => ?_, hu⟩
    have := delim_sep (sep_blank hw') (delim_cons (c := c!",") (by decide) (u ++ c!"}" :: s))
    simpa using this

theorem elements_cons {N : Str → Prop} {j : Json} {l : List Json} {t : Str} (h : WritesElements N (j :: l) t) :
    ∃ w tj sp u, t = w ++ (tj ++ (sp ++ u)) ∧ Sep w ∧ Writes N j tj ∧ Sep sp ∧ (∀ s, Delim (sp ++ (u ++ c!"]" :: s))) ∧ WritesElements N l u := by
  cases h with
  | last hw ht hw' =>
    rename_i w tj w'
    exact ⟨w, tj, [], w', by simp, sep_blank hw, ht, Sep.nil, fun s => by
        rw [List.nil_append]; exact delim_sep (sep_blank hw') (delim_cons (by decide) s), .empty hw'⟩
  | cons hw ht hw' hu =>
    rename_i w tj w' u
    refine ⟨w, tj, w' ++ [c!","], u, by simp, sep_blank hw, ht, (sep_blank hw').append sep_comma, fun s => ?_, hu⟩
    have := delim_sep (sep_blank hw') (delim_cons (c := c!",") (by decide) (u ++ c!"]" :: s))
    simpa using this

theorem members_nil {N : Str → Prop} {t : Str} (h : WritesMembers N [] t) : Sep t := by
  cases h with
  | empty hw => exact sep_blank hw

theorem elements_nil {N : Str → Prop} {t : Str} (h : WritesElements N [] t) : Sep t := by
  cases h with
  | empty hw => exact sep_blank hw

/-- A value begins with a character that is neither white space nor a closing bracket. -/
theorem writes_start {j : Json} {t : Str} (h : Writes PlainNumber j t) :
    ∃ c t', t = c :: t' ∧ isCharSpace c = false ∧ symbolTable c ≠ .error ∧ symbolTable c ≠ .arrayEnd ∧ symbolTable c ≠ .objectEnd := by
  obtain ⟨c, t', e, hc, _⟩ := skips_writes h
  obtain ⟨h1, h2, h3, h4⟩ := start_notSpace hc
  exact ⟨c, t', e, h1, h2, h3, h4⟩

/-! ## Structs -/

section
variable {σ : Type}

/-- What one member does to the target. -/
def Step (fields : Nat → List (Str × ValueDecoder σ)) (name : Str) (j : Json) (m m' : σ) : Prop :=
  (∃ d : Nat → ValueDecoder σ, (∀ fuel, (fields fuel).lookup name = some (d fuel)) ∧ ReadsJson d j m m') ∨
    ((∀ fuel, (fields fuel).lookup name = none) ∧ m' = m)

/-- What all members do to the target. -/
inductive Steps (fields : Nat → List (Str × ValueDecoder σ)) : List (Str × Json) → σ → σ → Prop
  | nil (m : σ) : Steps fields [] m m
  | cons {name : Str} {j : Json} {l : List (Str × Json)} {m m' m'' : σ} : Step fields name j m m' → Steps fields l m' m'' →
      Steps fields ((name, j) :: l) m m''

theorem structLoop_reads {S : Str → Str → Prop} (hS : Readable S) {fields : Nat → List (Str × ValueDecoder σ)} {ms nms : List (Str × Json)}
    (hn : Named S ms nms) {m m' : σ} (h : Steps fields nms m m') {t : Str} (ht : WritesMembers PlainNumber ms t) :
    ∃ N, ∀ fuel F, N ≤ fuel → N ≤ F → ∀ w s r, Sep w → (structLoop F (fields F) fuel m).stream r (w ++ (t ++ c!"}" :: s)) = .ok m' false s := by
  induction hn generalizing m m' t with
  | nil =>
    cases h
    refine ⟨1, fun fuel F hf hF w s r hw => ?_⟩
    obtain ⟨fuel, rfl⟩ : ∃ n, fuel = n + 1 := ⟨fuel - 1, by omega⟩
    unfold structLoop
    rw [← List.append_assoc, stream_nextType (hw.append (members_nil ht)) (by decide) (by decide), if_pos (by decide)]
    have := stream_consume (σ := σ) Sep.nil (c := c!"}") (by decide) (t := .objectEnd) (by decide) s true (m := m) (k := .done m)
    exact this
  | cons hm hl ih =>
    rename_i a b l l'
    obtain ⟨lit, j⟩ := a
    obtain ⟨name, j'⟩ := b
    obtain ⟨hlit, e⟩ := hm
    simp only at hlit e
    subst e
    cases h with
    | cons hstep hrest =>
      rename_i m1
      obtain ⟨w0, w1, tj, sp, u, rfl, hw0, hl, hw1, htj, hsp, hdel, hu⟩ := members_cons ht
      obtain ⟨M, hM⟩ := ih hrest hu
      rcases hstep with ⟨d, hd, hr⟩ | ⟨hd, rfl⟩
      · obtain ⟨K, hK⟩ := hr tj htj
        refine ⟨M + K + 1, fun fuel F hf hF w s r hw => ?_⟩
        obtain ⟨fuel, rfl⟩ : ∃ n, fuel = n + 1 := ⟨fuel - 1, by omega⟩
        unfold structLoop
        simp only [List.append_assoc, List.cons_append]
        rw [← List.append_assoc, stream_nextType (hw.append hw0) (by decide) (by decide), if_neg (by decide), stream_readString0 hl (hS _ _ hlit), hd]
        simp only
        rw [Prog.stream_andThen, hK F (by omega) w1 _ _ hw1 (hdel s) (by simp)]
        exact hM fuel F (by omega) (by omega) sp s false hsp
      · obtain ⟨K, hK⟩ := skipValue_stream (skips_writes htj)
        refine ⟨M + K + 1, fun fuel F hf hF w s r hw => ?_⟩
        obtain ⟨fuel, rfl⟩ : ∃ n, fuel = n + 1 := ⟨fuel - 1, by omega⟩
        unfold structLoop
        simp only [List.append_assoc, List.cons_append]
        rw [← List.append_assoc, stream_nextType (hw.append hw0) (by decide) (by decide), if_neg (by decide), stream_readString0 hl (hS _ _ hlit), hd]
        simp only
        rw [Prog.stream_andThen, hK F (by omega) w1 _ _ hw1 (fun _ _ _ => ⟨hdel s, by simp⟩)]
        exact hM fuel F (by omega) (by omega) sp s false hsp

theorem struct_reads {S : Str → Str → Prop} (hS : Readable S) {fields : Nat → List (Str × ValueDecoder σ)} {ms nms : List (Str × Json)}
    (hn : Named S ms nms) {m m' : σ} (h : Steps fields nms m m') :
    ReadsJson (fun fuel => makeStructDecoder fuel (fields fuel)) (.object ms) m m' := by
  intro t ht
  cases ht with
  | object ht =>
    obtain ⟨N, hN⟩ := structLoop_reads hS hn h ht
    refine ⟨N, fun fuel hf w s r hw _ _ => ?_⟩
    unfold makeStructDecoder
    simp only [List.cons_append, List.append_assoc, List.nil_append]
    rw [stream_consume hw (by decide) (by decide)]
    exact hN fuel fuel hf hf [] s false Sep.nil

/-- The members one after the other. -/
theorem steps_fold {fields : Nat → List (Str × ValueDecoder σ)} (upd : Str → σ → σ) (nms : List (Str × Json)) (m0 : σ)
    (h : ∀ pre name j post, nms = pre ++ (name, j) :: post →
      Step fields name j (pre.foldl (fun m n => upd n.1 m) m0) (upd name (pre.foldl (fun m n => upd n.1 m) m0))) :
    Steps fields nms m0 (nms.foldl (fun m n => upd n.1 m) m0) := by
  have key : ∀ post pre, nms = pre ++ post → Steps fields post (pre.foldl (fun m n => upd n.1 m) m0) (nms.foldl (fun m n => upd n.1 m) m0) := by
    intro post
    induction post with
    | nil =>
      intro pre e
      rw [e, List.append_nil]
      exact .nil _
    | cons x post ih =>
      intro pre e
      refine .cons (h pre x.1 x.2 post e) ?_
      have := ih (pre ++ [x]) (by rw [e]; simp)
      rw [List.foldl_append] at this
      exact this
  exact key nms [] rfl

theorem fold_field {τ : Type} {upd : Str → σ → σ} (f : σ → τ) (name : Str) (val : τ) (h : ∀ k m, f (upd k m) = if k = name then val else f m)
    (l : List (Str × Json)) (m0 : σ) :
    f (l.foldl (fun m n => upd n.1 m) m0) = if name ∈ l.map (·.1) then val else f m0 := by
  induction l generalizing m0 with
  | nil => rfl
  | cons x l ih =>
    rw [List.foldl_cons, ih, h]
    simp only [List.map_cons, List.mem_cons]
    by_cases h1 : name ∈ l.map (·.1)
    · rw [if_pos h1, if_pos (.inr h1)]
    · by_cases h2 : x.1 = name
      · rw [if_neg h1, if_pos h2, if_pos (.inl h2.symm)]
      · rw [if_neg h1, if_neg h2, if_neg (by rintro (h | h); exact h2 h.symm; exact h1 h)]

end

theorem Member.of_mem {α : Type} {nms : List (Str × Json)} {name : Str} {R : Json → α → Prop} {d a : α} (h : Member nms name R d a)
    (hn : (nms.map (·.1)).Nodup) {j : Json} (hj : (name, j) ∈ nms) : R j a := by
  rcases h with ⟨j', hj', hr⟩ | ⟨h, _⟩
  · have : j = j' := by
      clear hr
      induction nms with
      | nil => simp at hj
      | cons x l ih =>
        rw [List.map_cons, List.nodup_cons] at hn
        rcases List.mem_cons.mp hj with h | h <;> rcases List.mem_cons.mp hj' with h' | h'
        · rw [← h] at h'; injection h' with _ e; exact e.symm
        · rw [← h] at hn; exact absurd (List.mem_map_of_mem (f := (·.1)) h') hn.1
        · rw [← h'] at hn; exact absurd (List.mem_map_of_mem (f := (·.1)) h) hn.1
        · exact ih hn.2 h h'
    rw [this]
    exact hr
  · exact absurd (List.mem_map_of_mem hj) h

/-- With the member or without: the value after all members. -/
theorem Member.value {α : Type} {nms : List (Str × Json)} {name : Str} {R : Json → α → Prop} {d a : α} (h : Member nms name R d a) :
    (if name ∈ nms.map (·.1) then a else d) = a := by
  rcases h with ⟨j, hj, _⟩ | ⟨h, e⟩
  · rw [if_pos (List.mem_map_of_mem hj)]
  · rw [if_neg h, e]

theorem not_mem_prefix {nms pre post : List (Str × Json)} {name : Str} {j : Json} (hn : (nms.map (·.1)).Nodup) (e : nms = pre ++ (name, j) :: post) :
    name ∉ pre.map (·.1) := by
  subst e
  rw [List.map_append, List.nodup_append] at hn
  intro h
  exact hn.2.2 name h name (by simp) rfl

/-! ## Maps -/

/-- The map that is read. -/
def tagsOf (pairs : List (Str × Str)) : Option TagMap := pairs.foldl (fun r p => some ((r.getD ∅).insert p.1 p.2)) none

theorem tagsOf_spec (pairs : List (Str × Str)) :
    (tagsOf pairs = none ↔ pairs = []) ∧ ∀ key : Str, ((tagsOf pairs).getD ∅)[key]? = (last? (fun p => p.1 = key) pairs).map (·.2) := by
  induction pairs using list_snoc_induction with
  | h0 => exact ⟨by simp [tagsOf], fun key => by simp [tagsOf, last?]⟩
  | h1 l a ih =>
    have e : tagsOf (l ++ [a]) = some (((tagsOf l).getD ∅).insert a.1 a.2) := by simp [tagsOf]
    refine ⟨by rw [e]; simp, fun key => ?_⟩
    rw [e, Option.getD_some, get_insert, last?_snoc, ih.2]
    by_cases h : a.1 = key
    · simp [h]
    · simp [h]

theorem tagsOf_unique {pairs : List (Str × Str)} {tags : Option TagMap} (h0 : tags = none ↔ pairs = [])
    (h : ∀ key : Str, (tags.getD ∅)[key]? = (last? (fun p => p.1 = key) pairs).map (·.2)) : tagsOf pairs = tags := by
  obtain ⟨g0, g⟩ := tagsOf_spec pairs
  have e : (tagsOf pairs).getD ∅ = tags.getD ∅ := Std.ExtTreeMap.ext_getElem? fun key => by rw [g, h]
  by_cases hp : pairs = []
  · rw [g0.mpr hp, h0.mpr hp]
  · cases h1 : tagsOf pairs with
    | none => exact absurd (g0.mp h1) hp
    | some a =>
      cases h2 : tags with
      | none => exact absurd (h0.mp h2) hp
      | some b =>
        rw [h1, h2] at e
        exact congrArg some e

theorem mapLoop_reads {S : Str → Str → Prop} (hS : Readable S) {ms : List (Str × Json)} {pairs : List (Str × Str)}
    (hp : Pairwise₂ (fun m p => S m.1 p.1 ∧ StringOf S m.2 p.2) ms pairs) {t : Str} (ht : WritesMembers PlainNumber ms t) (m result : Option TagMap) :
    ∃ N, ∀ fuel, N ≤ fuel → ∀ w s r, Sep w → (mapLoop stringValueDecoder stringValueDecoder m fuel result).stream r (w ++ (t ++ c!"}" :: s)) =
      .ok (pairs.foldl (fun r p => some ((r.getD ∅).insert p.1 p.2)) result) false s := by
  induction hp generalizing result t with
  | nil =>
    refine ⟨1, fun fuel hf w s r hw => ?_⟩
    obtain ⟨fuel, rfl⟩ : ∃ n, fuel = n + 1 := ⟨fuel - 1, by omega⟩
    unfold mapLoop
    rw [← List.append_assoc, stream_nextType (hw.append (members_nil ht)) (by decide) (by decide), if_pos (by decide)]
    exact stream_consume Sep.nil (c := c!"}") (by decide) (t := .objectEnd) (by decide) s true (m := result) (k := .done result)
  | cons hm hl ih =>
    rename_i a p l l'
    obtain ⟨lit, j⟩ := a
    obtain ⟨hk, hv⟩ := hm
    simp only at hk hv
    obtain ⟨w0, w1, tj, sp, u, rfl, hw0, hlit, hw1, htj, hsp, hdel, hu⟩ := members_cons ht
    obtain ⟨M, hM⟩ := ih hu (some ((result.getD ∅).insert p.1 p.2))
    obtain ⟨K, hK⟩ := reads_string hS hv [] tj htj
    refine ⟨M + K + 1, fun fuel hf w s r hw => ?_⟩
    obtain ⟨fuel, rfl⟩ : ∃ n, fuel = n + 1 := ⟨fuel - 1, by omega⟩
    unfold mapLoop
    simp only [List.append_assoc, List.cons_append]
    rw [← List.append_assoc, stream_nextType (hw.append hw0) (by decide) (by decide), if_neg (by decide), Prog.stream_andThen]
    simp only [stringValueDecoder] at hK ⊢
    rw [stream_readString0 hlit (hS _ _ hk)]
    simp only [Prog.stream]
    rw [Prog.stream_andThen, hK fuel (by omega) w1 _ false hw1 (hdel s) (by simp)]
    exact hM fuel (by omega) sp s false hsp

theorem reads_tags {S : Str → Str → Prop} (hS : Readable S) {j : Json} {tags : Option TagMap} (h : TagsOf S j tags) (m : Option TagMap) :
    ReadsJson (fun fuel => makeMapDecoder fuel stringValueDecoder stringValueDecoder) j m tags := by
  cases h with
  | object hp h0 hk =>
    intro t ht
    cases ht with
    | object ht =>
      obtain ⟨N, hN⟩ := mapLoop_reads hS hp ht m none
      refine ⟨N, fun fuel hf w s r hw _ _ => ?_⟩
      unfold makeMapDecoder
      simp only [List.cons_append, List.append_assoc, List.nil_append]
      rw [stream_consume hw (by decide) (by decide), ← tagsOf_unique h0 hk]
      exact hN fuel hf [] s false Sep.nil

/-! ## Slices -/

section
variable {α : Type} (newCap : Nat → Nat → Nat) (zero : α)

/-- The slice after reading some elements: each `f` tells what reading makes of the cell. -/
def pushAll : List (α → α) → Nat → GoSlice α → GoSlice α
  | [], _, s => s
  | f :: fs, idx, s =>
    pushAll fs (idx + 1) ((s.grow newCap zero (idx + 1)).set idx (f ((s.grow newCap zero (idx + 1)).cells.getD idx zero)))

/-- The slice has `idx` elements, and the cells behind them are as good as new. -/
def Fresh (good : α → Prop) (idx : Nat) (s : GoSlice α) : Prop :=
  s.len = idx ∧ idx ≤ s.cells.length ∧ ∀ i, idx ≤ i → good (s.cells.getD i zero)

variable {newCap zero}

theorem fresh_grow {good : α → Prop} (hz : good zero) {idx : Nat} {s : GoSlice α} (h : Fresh zero good idx s) :
    good ((s.grow newCap zero (idx + 1)).cells.getD idx zero) := by
  obtain ⟨h1, h2, h3⟩ := h
  unfold GoSlice.grow
  split
  · exact h3 idx (Nat.le_refl _)
  · have : s.elems.length = idx := by simp [GoSlice.elems]; omega
    simp only [List.getD_eq_getElem?_getD]
    rw [List.getElem?_append_right (by omega), this, Nat.sub_self, List.getElem?_replicate]
    split <;> exact hz

theorem fresh_push {good : α → Prop} (hz : good zero) {idx : Nat} {s : GoSlice α} (h : Fresh zero good idx s) (v : α) :
    Fresh zero good (idx + 1) ((s.grow newCap zero (idx + 1)).set idx v) ∧ ((s.grow newCap zero (idx + 1)).set idx v).elems = s.elems ++ [v] := by
  obtain ⟨h1, h2, h3⟩ := h
  have he : s.elems.length = idx := by simp [GoSlice.elems]; omega
  by_cases hc : idx + 1 ≤ s.cells.length
  · have e : s.grow newCap zero (idx + 1) = { s with len := idx + 1 } := by unfold GoSlice.grow; rw [if_pos hc]
    rw [e]
    refine ⟨⟨rfl, by simpa [GoSlice.set] using hc, fun i hi => ?_⟩, ?_⟩
    · have := h3 i (by omega)
      simp only [GoSlice.set, List.getD_eq_getElem?_getD] at this ⊢
      rw [List.getElem?_set_ne (by omega)]
      exact this
    · simp only [GoSlice.set, GoSlice.elems, h1]
      apply List.ext_getElem?
      intro i
      rw [List.getElem?_take]
      by_cases hi : i < idx
      · rw [if_pos (by omega), List.getElem?_set_ne (by omega), List.getElem?_append_left (by simp; omega), List.getElem?_take, if_pos hi]
      · rw [List.getElem?_append_right (by simp; omega)]
        by_cases hi' : i = idx
        · subst hi'
          rw [if_pos (by omega), List.getElem?_set_self (by omega)]
          simp [Nat.min_eq_left (show i ≤ s.cells.length by omega)]
        · rw [if_neg (by omega), List.getElem?_eq_none (by simp; omega)]
  · have hl : s.cells.length = idx := by omega
    have e : s.grow newCap zero (idx + 1) =
        { cells := s.elems ++ List.replicate (max (idx + 1) (newCap s.cells.length (idx + 1)) - s.elems.length) zero, len := idx + 1 } := by
      unfold GoSlice.grow; rw [if_neg hc]
    rw [e]
    have hr : 1 ≤ max (idx + 1) (newCap s.cells.length (idx + 1)) - s.elems.length := by omega
    obtain ⟨k, hk⟩ : ∃ k, max (idx + 1) (newCap s.cells.length (idx + 1)) - s.elems.length = k + 1 := ⟨_, (Nat.sub_add_cancel hr).symm⟩
    rw [hk]
    have hset : (s.elems ++ List.replicate (k + 1) zero).set idx v = s.elems ++ v :: List.replicate k zero := by
      rw [List.set_append_right _ _ (by omega), he, Nat.sub_self]
      rfl
    refine ⟨⟨rfl, by simp [GoSlice.set]; omega, fun i hi => ?_⟩, ?_⟩
    · simp only [GoSlice.set, hset, List.getD_eq_getElem?_getD]
      rw [List.getElem?_append_right (by omega), he, show i - idx = (i - idx - 1) + 1 by omega, List.getElem?_cons_succ, List.getElem?_replicate]
      split <;> exact hz
    · simp only [GoSlice.set, hset]
      rw [GoSlice.elems]
      simp only
      rw [List.take_append, List.take_of_length_le (by omega), he]
      simp

theorem pushAll_spec {good : α → Prop} (hz : good zero) (fs : List (α → α)) {idx : Nat} {s : GoSlice α} (h : Fresh zero good idx s) :
    Fresh zero good (idx + fs.length) (pushAll newCap zero fs idx s) ∧
    ∃ vs, (pushAll newCap zero fs idx s).elems = s.elems ++ vs ∧ Pairwise₂ (fun f v => ∃ a, good a ∧ v = f a) fs vs := by
  induction fs generalizing idx s with
  | nil => exact ⟨h, [], by simp [pushAll], .nil⟩
  | cons f fs ih =>
    obtain ⟨h1, h2⟩ := fresh_push (newCap := newCap) hz h (f ((s.grow newCap zero (idx + 1)).cells.getD idx zero))
    obtain ⟨g1, vs, g2, g3⟩ := ih h1
    refine ⟨by rw [List.length_cons, show idx + (fs.length + 1) = idx + 1 + fs.length by omega]; exact g1, _ :: vs, ?_, .cons ⟨_, fresh_grow (newCap := newCap) hz h, rfl⟩ g3⟩
    rw [pushAll, g2, h2]
    simp

theorem sliceLoop_reads {good : α → Prop} (hz : good zero) {d : Nat → ValueDecoder α} {l : List Json} {fs : List (α → α)}
    (hr : Pairwise₂ (fun j f => ∀ a, good a → ReadsJson d j a (f a)) l fs) {idx : Nat} {s : GoSlice α} (h : Fresh zero good idx s) {t : Str}
    (ht : WritesElements PlainNumber l t) :
    ∃ N, ∀ fuel F, N ≤ fuel → N ≤ F → ∀ w rest r, Sep w → (sliceLoop newCap zero (d F) fuel idx s).stream r (w ++ (t ++ c!"]" :: rest)) =
      .ok (pushAll newCap zero fs idx s) false rest := by
  induction hr generalizing idx s t with
  | nil =>
    refine ⟨1, fun fuel F hf hF w rest r hw => ?_⟩
    obtain ⟨fuel, rfl⟩ : ∃ n, fuel = n + 1 := ⟨fuel - 1, by omega⟩
    unfold sliceLoop
    rw [← List.append_assoc, stream_nextType (hw.append (elements_nil ht)) (by decide) (by decide), if_pos (by decide)]
    exact stream_consume Sep.nil (c := c!"]") (by decide) (t := .arrayEnd) (by decide) rest true (m := s) (k := .done s)
  | cons hj hl ih =>
    rename_i j f l fs
    obtain ⟨w0, tj, sp, u, rfl, hw0, htj, hsp, hdel, hu⟩ := elements_cons ht
    have hgood := fresh_grow (newCap := newCap) hz h
    obtain ⟨h1, _⟩ := fresh_push (newCap := newCap) hz h (f ((s.grow newCap zero (idx + 1)).cells.getD idx zero))
    obtain ⟨M, hM⟩ := ih h1 hu
    obtain ⟨K, hK⟩ := hj _ hgood tj htj
    obtain ⟨c, t', rfl, c1, c2, c3, _⟩ := writes_start htj
    refine ⟨M + K + 1, fun fuel F hf hF w rest r hw => ?_⟩
    obtain ⟨fuel, rfl⟩ : ∃ n, fuel = n + 1 := ⟨fuel - 1, by omega⟩
    unfold sliceLoop
    simp only [List.append_assoc, List.cons_append]
    rw [← List.append_assoc, stream_nextType (hw.append hw0) c1 c2, if_neg c3, Prog.stream_andThen]
    have := hK F (by omega) [] (sp ++ (u ++ c!"]" :: rest)) true Sep.nil (hdel rest) (by simp)
    simp only [List.nil_append, List.cons_append] at this
    rw [this]
    exact hM fuel F (by omega) (by omega) sp rest false hsp

theorem slice_reads {good : α → Prop} (hz : good zero) {d : Nat → ValueDecoder α} {l : List Json} {fs : List (α → α)}
    (hr : Pairwise₂ (fun j f => ∀ a, good a → ReadsJson d j a (f a)) l fs) {s : GoSlice α} (h : Fresh zero good 0 s) :
    ReadsJson (fun fuel => makeSliceDecoder newCap fuel zero (d fuel)) (.array l) s (pushAll newCap zero fs 0 s) := by
  intro t ht
  cases ht with
  | array ht =>
    obtain ⟨N, hN⟩ := sliceLoop_reads hz hr h ht
    refine ⟨N, fun fuel hf w s r hw _ _ => ?_⟩
    unfold makeSliceDecoder
    simp only [List.cons_append, List.append_assoc, List.nil_append]
    rw [stream_consume hw (by decide) (by decide)]
    exact hN fuel fuel hf hf [] s false Sep.nil

end

/-! ## Arrays -/

section
variable {α : Type} {zero : α}

theorem arrayLoop_skips {d : Nat → ValueDecoder α} {l : List Json} {idx : Nat} {a : List α} (hi : a.length ≤ idx)
    {t : Str} (ht : WritesElements PlainNumber l t) :
    ∃ N, ∀ fuel F, N ≤ fuel → N ≤ F → ∀ w rest r, Sep w → (arrayLoop F zero (d F) fuel idx a).stream r (w ++ (t ++ c!"]" :: rest)) = .ok a false rest := by
  induction l generalizing idx t with
  | nil =>
    refine ⟨1, fun fuel F hf hF w rest r hw => ?_⟩
    obtain ⟨fuel, rfl⟩ : ∃ n, fuel = n + 1 := ⟨fuel - 1, by omega⟩
    unfold arrayLoop
    rw [← List.append_assoc, stream_nextType (hw.append (elements_nil ht)) (by decide) (by decide), if_pos (by decide)]
    exact stream_consume Sep.nil (c := c!"]") (by decide) (t := .arrayEnd) (by decide) rest true (m := a) (k := .done a)
  | cons j l ih =>
    obtain ⟨w0, tj, sp, u, rfl, hw0, htj, hsp, hdel, hu⟩ := elements_cons ht
    obtain ⟨M, hM⟩ := ih (idx := idx + 1) (by omega) hu
    obtain ⟨K, hK⟩ := skipValue_stream (skips_writes htj)
    obtain ⟨c, t', rfl, c1, c2, c3, _⟩ := writes_start htj
    refine ⟨M + K + 1, fun fuel F hf hF w rest r hw => ?_⟩
    obtain ⟨fuel, rfl⟩ : ∃ n, fuel = n + 1 := ⟨fuel - 1, by omega⟩
    unfold arrayLoop
    simp only [List.append_assoc, List.cons_append]
    rw [← List.append_assoc, stream_nextType (hw.append hw0) c1 c2, if_neg c3, if_neg (by omega), Prog.stream_andThen]
    have := hK F (by omega) [] (sp ++ (u ++ c!"]" :: rest)) true Sep.nil (fun _ _ _ => ⟨hdel rest, by simp⟩)
    simp only [List.nil_append, List.cons_append] at this
    rw [this]
    exact hM fuel F (by omega) (by omega) sp rest false hsp

theorem arrayLoop_reads {d : Nat → ValueDecoder α} {l : List Json} {vs : List α} {idx : Nat} {a : List α}
    (hr : Pairwise₂ (fun j v => ReadsJson d j zero v) (l.take (a.length - idx)) vs) (hi : idx ≤ a.length) (hz : ∀ i, idx ≤ i → a.getD i zero = zero)
    {t : Str} (ht : WritesElements PlainNumber l t) :
    ∃ N, ∀ fuel F, N ≤ fuel → N ≤ F → ∀ w rest r, Sep w → (arrayLoop F zero (d F) fuel idx a).stream r (w ++ (t ++ c!"]" :: rest)) =
      .ok (a.take idx ++ (vs ++ a.drop (idx + vs.length))) false rest := by
  induction l generalizing idx a vs t with
  | nil =>
    rw [List.take_nil] at hr
    cases hr
    refine ⟨1, fun fuel F hf hF w rest r hw => ?_⟩
    obtain ⟨fuel, rfl⟩ : ∃ n, fuel = n + 1 := ⟨fuel - 1, by omega⟩
    unfold arrayLoop
    rw [← List.append_assoc, stream_nextType (hw.append (elements_nil ht)) (by decide) (by decide), if_pos (by decide)]
    simp only [List.nil_append, List.length_nil, Nat.add_zero, List.take_append_drop]
    exact stream_consume Sep.nil (c := c!"]") (by decide) (t := .arrayEnd) (by decide) rest true (m := a) (k := .done a)
  | cons j l ih =>
    obtain ⟨w0, tj, sp, u, rfl, hw0, htj, hsp, hdel, hu⟩ := elements_cons ht
    obtain ⟨c, t', rfl, c1, c2, c3, _⟩ := writes_start htj
    by_cases hlt : idx < a.length
    · rw [show a.length - idx = (a.length - (idx + 1)) + 1 by omega, List.take_succ_cons] at hr
      cases hr with
      | cons hj hrest =>
        rename_i v vs
        obtain ⟨M, hM⟩ := ih (idx := idx + 1) (a := a.set idx v) (by rw [List.length_set]; exact hrest) (by rw [List.length_set]; omega)
          (fun i hi' => by
            have := hz i (by omega)
            simp only [List.getD_eq_getElem?_getD] at this ⊢
            rw [List.getElem?_set_ne (by omega)]
            exact this) hu
        obtain ⟨K, hK⟩ := hj _ htj
        refine ⟨M + K + 1, fun fuel F hf hF w rest r hw => ?_⟩
        obtain ⟨fuel, rfl⟩ : ∃ n, fuel = n + 1 := ⟨fuel - 1, by omega⟩
        unfold arrayLoop
        simp only [List.append_assoc, List.cons_append]
        rw [← List.append_assoc, stream_nextType (hw.append hw0) c1 c2, if_neg c3, if_pos hlt, Prog.stream_andThen, hz idx (Nat.le_refl _)]
        have := hK F (by omega) [] (sp ++ (u ++ c!"]" :: rest)) true Sep.nil (hdel rest) (by simp)
        simp only [List.nil_append, List.cons_append] at this
        rw [this]
        have := hM fuel F (by omega) (by omega) sp rest false hsp
        simp only
        rw [this]
        congr 1
        have e1 : (a.set idx v).take (idx + 1) = a.take idx ++ [v] := by
          rw [List.take_set, List.take_succ_eq_append_getElem hlt, List.set_append_right _ _ (by simp)]
          simp [Nat.min_eq_left (Nat.le_of_lt hlt)]
        have e2 : (a.set idx v).drop (idx + 1 + vs.length) = a.drop (idx + (v :: vs).length) := by
          rw [List.drop_set_of_lt (by omega), List.length_cons]
          congr 1
          omega
        rw [e1, e2]
        simp
    · have hvs : vs = [] := by
        rw [show a.length - idx = 0 by omega, List.take_zero] at hr
        cases hr
        rfl
      subst hvs
      obtain ⟨M, hM⟩ := arrayLoop_skips (zero := zero) (d := d) (idx := idx) (a := a) (by omega) ht
      refine ⟨M, fun fuel F hf hF w rest r hw => ?_⟩
      rw [hM fuel F hf hF w rest r hw]
      simp

theorem array_reads {d : Nat → ValueDecoder α} {l : List Json} {vs : List α} {n : Nat} (hr : Pairwise₂ (fun j v => ReadsJson d j zero v) (l.take n) vs) :
    ReadsJson (fun fuel => makeArrayDecoder fuel zero (d fuel)) (.array l) (List.replicate n zero) (vs ++ List.replicate (n - vs.length) zero) := by
  intro t ht
  cases ht with
  | array ht =>
    obtain ⟨N, hN⟩ := arrayLoop_reads (idx := 0) (a := List.replicate n zero) (by rw [List.length_replicate]; exact hr) (Nat.zero_le _)
      (fun i _ => by rw [List.getD_eq_getElem?_getD, List.getElem?_replicate]; split <;> rfl) ht
    refine ⟨N, fun fuel hf w s r hw _ _ => ?_⟩
    unfold makeArrayDecoder
    simp only [List.cons_append, List.append_assoc, List.nil_append]
    rw [stream_consume hw (by decide) (by decide)]
    have := hN fuel fuel hf hf [] s false Sep.nil
    simpa using this

end

end Verif
