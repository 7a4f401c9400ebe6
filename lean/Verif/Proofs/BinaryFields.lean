import Verif.Spec.BinaryFields
import Verif.Props.BinaryError

/-!
# Decoding field by field
-/

namespace Verif

open Spec

/-- The result, without the span that comes with an error. -/
def withoutSpan : Span × Except BinaryError (List UInt8) → Except BinaryError (Span × List UInt8)
  | (s, .ok rest) => .ok (s, rest)
  | (_, .error e) => .error e

theorem decodeFields_step {α : Type} (d : DecE α) (set : Span → α → Span) (rs : List FieldReader) (k : Span → DecE Span)
    (hk : ∀ s bs, k s bs = withoutSpan (decodeFields rs s bs)) (s : Span) (bs : List UInt8) :
    (d >>= fun v => k (set s v)) bs = withoutSpan (decodeFields ((fun s => d >>= fun v => pure (set s v)) :: rs) s bs) := by
  cases hd : d bs with
  | error e =>
    have h : (d >>= fun v => (pure (set s v) : DecE Span)) bs = .error e := DecE.bind_of_error hd
    rw [DecE.bind_of_error hd]
    simp only [decodeFields, h, withoutSpan]
  | ok p =>
    have h : (d >>= fun v => (pure (set s v) : DecE Span)) bs = .ok (set s p.1, p.2) := DecE.bind_of_ok (a := p.1) (s' := p.2) hd
    rw [DecE.bind_of_ok (a := p.1) (s' := p.2) hd, hk]
    simp only [decodeFields, h]

/-- The reader sets the field `k`, and only this one. -/
structure SetsField (k : Nat) (r : FieldReader) : Prop where
  stable : ∀ s, StableE (r s)
  sets : ∀ s bs s' rest, r s bs = .ok (s', rest) → firstFields k s = s → firstFields k s' = s ∧ firstFields (k + 1) s' = s'

theorem setsField {α : Type} {d : DecE α} {set : Span → α → Span} {k : Nat} (hd : StableE d)
    (h0 : ∀ s v, firstFields k (set s v) = firstFields k s) (h1 : ∀ s v, firstFields (k + 1) (set s v) = set (firstFields k s) v) : SetsField k (fun s => do let v ← d; return set s v) := by
  constructor
  · intro s bs a rest ext h
    obtain ⟨v, bs', h1, h2⟩ := DecE.bind_ok.mp h
    rw [DecE.bind_of_ok (hd _ _ _ ext h1)]
    cases h2
    rfl
  · intro s bs s' rest h hs
    obtain ⟨v, bs', _, h2⟩ := DecE.bind_ok.mp h
    cases h2
    rw [h0, h1, hs]
    exact ⟨rfl, rfl⟩

theorem spanFields_set : ∀ i r, spanFields[i]? = some r → SetsField i r := by
  intro i r hr
  match i, hr with
  | 0, hr => cases hr; exact setsField (set := fun s v => { s with id := v }) readLongE_stable (fun _ _ => rfl) (fun _ _ => rfl)
  | 1, hr => cases hr; exact setsField (set := fun s v => { s with trace := v }) readLongE_stable (fun _ _ => rfl) (fun _ _ => rfl)
  | 2, hr => cases hr; exact setsField (set := fun s v => { s with parent := v }) readLongE_stable (fun _ _ => rfl) (fun _ _ => rfl)
  | 3, hr => cases hr; exact setsField (set := fun s v => { s with name := v }) readStringE_stable (fun _ _ => rfl) (fun _ _ => rfl)
  | 4, hr => cases hr; exact setsField (set := fun s v => { s with service := v }) readStringE_stable (fun _ _ => rfl) (fun _ _ => rfl)
  | 5, hr => cases hr; exact setsField (set := fun s v => { s with timestamp := v }) readLongE_stable (fun _ _ => rfl) (fun _ _ => rfl)
  | 6, hr => cases hr; exact setsField (set := fun s v => { s with duration := v }) readLongE_stable (fun _ _ => rfl) (fun _ _ => rfl)
  | 7, hr => cases hr; exact setsField (set := fun s v => { s with timings := { s.timings with CS := v } }) readLongE_stable (fun _ _ => rfl) (fun _ _ => rfl)
  | 8, hr => cases hr; exact setsField (set := fun s v => { s with timings := { s.timings with CR := v } }) readLongE_stable (fun _ _ => rfl) (fun _ _ => rfl)
  | 9, hr => cases hr; exact setsField (set := fun s v => { s with timings := { s.timings with SS := v } }) readLongE_stable (fun _ _ => rfl) (fun _ _ => rfl)
  | 10, hr => cases hr; exact setsField (set := fun s v => { s with timings := { s.timings with SR := v } }) readLongE_stable (fun _ _ => rfl) (fun _ _ => rfl)
  | 11, hr => cases hr; exact setsField (set := fun s v => { s with tags := some v }) readMapStringE_stable (fun _ _ => rfl) (fun _ _ => rfl)
  | i + 12, hr => cases hr

theorem ite_min {α : Type} (i k j : Nat) (a z : α) : (if i < k then (if i < j then a else z) else z) = if i < min k j then a else z := by
  by_cases h : i < k
  · by_cases h' : i < j
    · rw [if_pos h, if_pos h', if_pos (by omega)]
    · rw [if_pos h, if_neg h', if_neg (by omega)]
  · rw [if_neg h, if_neg (by omega)]

theorem firstFields_firstFields (k j : Nat) (s : Span) : firstFields k (firstFields j s) = firstFields (min k j) s := by
  simp only [firstFields, ite_min]

theorem firstFields_all (s : Span) : firstFields 12 s = s := rfl

theorem SetsField.keeps {k : Nat} {r : FieldReader} (h : SetsField k r) {s bs s' rest t} (hr : r s bs = .ok (s', rest)) (hs : firstFields k s = s) (ht : firstFields (k + 1) t = s') : firstFields k t = s := by
  have h1 := (h.sets s bs s' rest hr hs).1
  rw [← ht, firstFields_firstFields, show min k (k + 1) = k by omega] at h1
  exact h1

/-- What has been read stays. -/
theorem decodeFields_keeps (rs : List FieldReader) : ∀ k s bs, (∀ i r, rs[i]? = some r → SetsField (k + i) r) → firstFields k s = s → firstFields k (decodeFields rs s bs).1 = s := by
  induction rs with
  | nil => exact fun k s bs _ h => h
  | cons r rs ih =>
    intro k s bs hrs hs
    have hr := hrs 0 r rfl
    unfold decodeFields
    cases hd : r s bs with
    | error e => exact hs
    | ok p =>
      refine hr.keeps (s' := p.1) (rest := p.2) hd hs ?_
      exact ih (k + 1) p.1 p.2 (fun i r h => by rw [Nat.add_assoc, Nat.add_comm 1]; exact hrs (i + 1) r h) (hr.sets s bs p.1 p.2 hd hs).2

theorem decodeFields_preview (rs : List FieldReader) : ∀ k s bs ext, (∀ i r, rs[i]? = some r → SetsField (k + i) r) → firstFields k s = s →
    ((decodeFields rs s bs).2.isOk ∧ firstFields (k + rs.length) (decodeFields rs s bs).1 = (decodeFields rs s bs).1 ∧ (decodeFields rs s (bs ++ ext)).1 = (decodeFields rs s bs).1) ∨
    (¬ (decodeFields rs s bs).2.isOk ∧ ∃ j, j < rs.length ∧ (decodeFields rs s bs).1 = firstFields (k + j) (decodeFields rs s (bs ++ ext)).1) := by
  induction rs with
  | nil => exact fun k s bs ext _ h => .inl ⟨rfl, h, rfl⟩
  | cons r rs ih =>
    intro k s bs ext hrs hs
    have hr := hrs 0 r rfl
    cases hd : r s bs with
    | error e =>
      refine .inr ⟨by simp [decodeFields, hd, Except.isOk, Except.toBool], 0, Nat.zero_lt_succ _, ?_⟩
      have h1 : (decodeFields (r :: rs) s bs).1 = s := by unfold decodeFields; rw [hd]
      rw [h1]
      exact (decodeFields_keeps (r :: rs) k s (bs ++ ext) hrs hs).symm
    | ok p =>
      have he := hr.stable s bs p.1 p.2 ext hd
      have h1 : decodeFields (r :: rs) s bs = decodeFields rs p.1 p.2 := by conv => lhs; unfold decodeFields; rw [hd]
      have h2 : decodeFields (r :: rs) s (bs ++ ext) = decodeFields rs p.1 (p.2 ++ ext) := by conv => lhs; unfold decodeFields; rw [he]
      rw [h1, h2]
      rcases ih (k + 1) p.1 p.2 ext (fun i r h => by rw [Nat.add_assoc, Nat.add_comm 1]; exact hrs (i + 1) r h) (hr.sets s bs p.1 p.2 hd hs).2 with ⟨a, b, c⟩ | ⟨a, j, b, c⟩
      · exact .inl ⟨a, by rw [List.length_cons, ← Nat.add_assoc, Nat.add_right_comm]; exact b, c⟩
      · exact .inr ⟨a, j + 1, Nat.succ_lt_succ b, by rw [← Nat.add_assoc, Nat.add_right_comm]; exact c⟩

/-! ## Messages that are cut -/

/-- These bytes are read by these readers, one after the other. -/
inductive FieldChain : Nat → List FieldReader → List (List UInt8) → Span → Span → Prop
  | nil {k s} : FieldChain k [] [] s s
  | cons {k r rs f fs s s' t} : SetsField k r → (∀ rest, r s (f ++ rest) = .ok (s', rest)) → FieldChain (k + 1) rs fs s' t → FieldChain k (r :: rs) (f :: fs) s t

theorem FieldChain.keeps {k rs fs s t} (h : FieldChain k rs fs s t) (hs : firstFields k s = s) : firstFields k t = s := by
  induction h with
  | nil => exact hs
  | cons hr hf _ ih => exact hr.keeps (hf []) hs (ih (hr.sets _ _ _ _ (hf []) hs).2)

theorem FieldChain.cut {k rs fs s t} (h : FieldChain k rs fs s t) : ∀ p q, firstFields k s = s → fs.flatten = p ++ q → q ≠ [] →
    ∃ e, decodeFields rs s p = (firstFields (k + completeFields fs p.length) t, .error e) ∧ completeFields fs p.length < fs.length := by
  induction h with
  | nil => intro p q _ h hq; simp at h; exact absurd h.2 hq
  | @cons k r rs f fs s s' t hr hf hc ih =>
    intro p q hs h hq
    rw [List.flatten_cons] at h
    by_cases hl : f.length ≤ p.length
    · rcases List.append_eq_append_iff.mp h with ⟨l, h1, h2⟩ | ⟨l, h1, h2⟩
      · obtain ⟨e, he, hlt⟩ := ih l q (hr.sets _ _ _ _ (hf []) hs).2 h2 hq
        refine ⟨e, ?_, ?_⟩
        · rw [h1]
          unfold decodeFields completeFields
          rw [hf, if_pos (by rw [List.length_append]; omega), List.length_append, Nat.add_sub_cancel_left, ← Nat.add_assoc]
          exact he
        · rw [h1]
          unfold completeFields
          rw [if_pos (by rw [List.length_append]; omega), List.length_append, Nat.add_sub_cancel_left, List.length_cons]
          omega
      · have : l = [] := by
          have := congrArg List.length h1
          rw [List.length_append] at this
          exact List.eq_nil_of_length_eq_zero (by omega)
        subst this
        rw [List.append_nil] at h1
        obtain ⟨e, he, hlt⟩ := ih [] q (hr.sets _ _ _ _ (hf []) hs).2 h2.symm hq
        have hp := hf []
        rw [List.append_nil] at hp
        refine ⟨e, ?_, ?_⟩
        · rw [← h1]
          unfold decodeFields completeFields
          rw [hp, if_pos (Nat.le_refl _), Nat.sub_self, ← Nat.add_assoc]
          exact he
        · rw [← h1]
          unfold completeFields
          rw [if_pos (Nat.le_refl _), Nat.sub_self, List.length_cons]
          have : completeFields fs 0 < fs.length := hlt
          omega
    · have hk : firstFields k t = s := (FieldChain.cons hr hf hc).keeps hs
      rcases List.append_eq_append_iff.mp h with ⟨l, h1, h2⟩ | ⟨l, h1, h2⟩
      · exact absurd (by rw [h1, List.length_append]; omega) hl
      · cases hd : r s p with
        | error e =>
          refine ⟨e, ?_, ?_⟩
          · unfold decodeFields completeFields
            rw [hd, if_neg hl, Nat.add_zero, hk]
          · unfold completeFields
            rw [if_neg hl]
            exact Nat.zero_lt_succ _
        | ok x =>
          have a := hr.stable s p x.1 x.2 l hd
          have b := hf []
          rw [List.append_nil, h1, a] at b
          injection b with b
          have b := congrArg (List.length ∘ Prod.snd) b
          simp only [Function.comp_apply, List.length_append, List.length_nil] at b
          have := congrArg List.length h1
          rw [List.length_append] at this
          omega

theorem writeMapString_fields (ord : List (Str × Str)) :
    writeMapString ord = (BinaryField.number (Int64.ofNat ord.length) :: if ord = [] then [] else ord.flatMap (fun e => [.text e.1, .text e.2]) ++ [.number 0]).flatMap BinaryField.bytes := by
  have h := binaryEncode_fields {} ord
  unfold binaryEncode messageFields at h
  simp only [List.cons_append, List.nil_append, List.flatMap_cons, List.append_assoc] at h
  simp only [List.flatMap_cons]
  have hs : writeString ([] : Str) = writeLong (Int64.ofNat ([] : Str).length) := by decide +kernel
  simpa [BinaryField.bytes, hs] using h

theorem messageChain (s : Span) (ord : List (Str × Str)) (hn : s.name.length < 2 ^ 31) (hsv : s.service.length < 2 ^ 31) (hl : ord.length < 2 ^ 63)
    (h : ∀ e ∈ ord, e.1.length < 2 ^ 31 ∧ e.2.length < 2 ^ 31) : FieldChain 0 spanFields (fieldBytes s ord) {} { s with tags := some (insertAll ord ∅) } := by
  have hw : ∀ (t : Str), t.length < 2 ^ 31 → ∀ rest, readStringE (writeString t ++ rest) = .ok (t, rest) := fun t ht rest => by
    have := (readStringE_reads t ht).whole rest
    simpa [BinaryField.bytes, writeString] using this
  have hm : ∀ rest, readMapStringE (writeMapString ord ++ rest) = .ok (insertAll ord ∅, rest) := fun rest => by
    rw [writeMapString_fields]
    exact (readMapStringE_reads ord hl h).whole rest
  refine .cons (spanFields_set 0 _ rfl) (fun rest => DecE.bind_of_ok (readLongE_write s.id rest)) ?_
  refine .cons (spanFields_set 1 _ rfl) (fun rest => DecE.bind_of_ok (readLongE_write s.trace rest)) ?_
  refine .cons (spanFields_set 2 _ rfl) (fun rest => DecE.bind_of_ok (readLongE_write s.parent rest)) ?_
  refine .cons (spanFields_set 3 _ rfl) (fun rest => DecE.bind_of_ok (hw s.name hn rest)) ?_
  refine .cons (spanFields_set 4 _ rfl) (fun rest => DecE.bind_of_ok (hw s.service hsv rest)) ?_
  refine .cons (spanFields_set 5 _ rfl) (fun rest => DecE.bind_of_ok (readLongE_write s.timestamp rest)) ?_
  refine .cons (spanFields_set 6 _ rfl) (fun rest => DecE.bind_of_ok (readLongE_write s.duration rest)) ?_
  refine .cons (spanFields_set 7 _ rfl) (fun rest => DecE.bind_of_ok (readLongE_write s.timings.CS rest)) ?_
  refine .cons (spanFields_set 8 _ rfl) (fun rest => DecE.bind_of_ok (readLongE_write s.timings.CR rest)) ?_
  refine .cons (spanFields_set 9 _ rfl) (fun rest => DecE.bind_of_ok (readLongE_write s.timings.SS rest)) ?_
  refine .cons (spanFields_set 10 _ rfl) (fun rest => DecE.bind_of_ok (readLongE_write s.timings.SR rest)) ?_
  refine .cons (spanFields_set 11 _ rfl) (fun rest => DecE.bind_of_ok (hm rest)) ?_
  exact .nil

theorem fieldBytes_flatten (s : Span) (ord : List (Str × Str)) : (fieldBytes s ord).flatten = binaryEncode s ord := by
  simp [fieldBytes, binaryEncode]

theorem firstFields_tags {k : Nat} (hk : k < 12) (s : Span) (t : Option TagMap) : firstFields k { s with tags := t } = firstFields k s := by
  have h : ¬ 11 < k := by omega
  simp only [firstFields, if_neg h]

end Verif
