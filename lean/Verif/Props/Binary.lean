import Verif.Proofs.Binary
import Verif.Spec.Span

/-!
# C03 - C08: the binary span codec

`binaryEncode s ord` are the bytes appended by `BinaryEncode` if the tag map is iterated in the
order `ord`; `binaryDecode bs` is `none` if `BinaryDecode` fails on the bytes `bs` and otherwise
the span together with the unread bytes.
-/

namespace Verif

/-- C03: every int64 is read back, whatever follows. -/
theorem C03_long_roundtrip (r : Int64) (rest : List UInt8) :
    readLong (writeLong r ++ rest) = some (r, rest) := readLong_writeLong r rest

/-- C03: an encoded int64 takes 1 to 10 bytes. -/
theorem C03_long_size (r : Int64) : 1 ≤ (writeLong r).length ∧ (writeLong r).length ≤ 10 :=
  writeLong_length r

example : writeLong (-9223372036854775808) = [255, 255, 255, 255, 255, 255, 255, 255, 255, 1] := by
  decide +kernel
example : writeLong 64 = [0x80, 0x01] := by decide +kernel

/-- The spans that the codec can carry: each string is shorter than 2^31 bytes (the limit in
`readString`), and the number of tags fits an int64 (always true of a real Go map). -/
def Encodable (s : Span) : Prop :=
  s.name.length < 2 ^ 31 ∧ s.service.length < 2 ^ 31 ∧ (s.tags.getD ∅).size < 2 ^ 63 ∧
  ∀ (k v : Str), (s.tags.getD ∅)[k]? = some v → k.length < 2 ^ 31 ∧ v.length < 2 ^ 31

/-- C04: decoding the encoding of a span gives the span back (a nil tag map becomes an
empty one) and leaves the following bytes,
for every iteration order of the tag map. -/
theorem C04_span_roundtrip (s : Span) (ord : List (Str × Str)) (rest : List UInt8)
    (he : Encodable s) (ho : IsRange ord (s.tags.getD ∅)) :
    binaryDecode (binaryEncode s ord ++ rest) = some (s.withTags, rest) := by
  obtain ⟨hn, hsv, hsz, ht⟩ := he
  have hl : ord.length < 2 ^ 63 := by
    rw [ho.length_eq, Std.ExtTreeMap.length_toList]; exact hsz
  have hent : ∀ e ∈ ord, e.1.length < 2 ^ 31 ∧ e.2.length < 2 ^ 31 := by
    intro e he
    exact ht e.1 e.2 (Std.ExtTreeMap.mem_toList_iff_getElem?_eq_some.mp (ho.mem_iff.mp he))
  unfold binaryDecode binaryEncode
  simp only [List.append_assoc]
  rw [Dec.bind_of_some (readLong_writeLong _ _), Dec.bind_of_some (readLong_writeLong _ _),
    Dec.bind_of_some (readLong_writeLong _ _), Dec.bind_of_some (readString_writeString _ _ hn),
    Dec.bind_of_some (readString_writeString _ _ hsv), Dec.bind_of_some (readLong_writeLong _ _),
    Dec.bind_of_some (readLong_writeLong _ _), Dec.bind_of_some (readLong_writeLong _ _),
    Dec.bind_of_some (readLong_writeLong _ _), Dec.bind_of_some (readLong_writeLong _ _),
    Dec.bind_of_some (readLong_writeLong _ _), Dec.bind_of_some (readMapString_write _ _ hl hent),
    insertAll_range _ _ ho]
  rfl

/-- C05: no proper prefix of an encoding decodes. -/
theorem C05_truncation_rejected (s : Span) (ord : List (Str × Str))
    (he : Encodable s) (ho : IsRange ord (s.tags.getD ∅))
    (p q : List UInt8) (hpq : binaryEncode s ord = p ++ q) (hq : q ≠ []) :
    binaryDecode p = none := by
  cases h : binaryDecode p with
  | none => rfl
  | some r =>
    obtain ⟨a, rest⟩ := r
    have h1 := binaryDecode_stable p a rest q h
    have h2 := C04_span_roundtrip s ord [] he ho
    rw [List.append_nil, hpq, h1] at h2
    simp only [Option.some.injEq, Prod.mk.injEq, List.append_eq_nil_iff] at h2
    exact absurd h2.2.2 hq

/-- C06: the encoding is unambiguous, also when followed by other data: equal byte streams carry
equal spans and equal remainders. -/
theorem C06_unambiguous (s₁ s₂ : Span) (ord₁ ord₂ : List (Str × Str)) (r₁ r₂ : List UInt8)
    (he₁ : Encodable s₁) (ho₁ : IsRange ord₁ (s₁.tags.getD ∅))
    (he₂ : Encodable s₂) (ho₂ : IsRange ord₂ (s₂.tags.getD ∅))
    (h : binaryEncode s₁ ord₁ ++ r₁ = binaryEncode s₂ ord₂ ++ r₂) :
    s₁.withTags = s₂.withTags ∧ r₁ = r₂ := by
  have h1 := C04_span_roundtrip s₁ ord₁ r₁ he₁ ho₁
  have h2 := C04_span_roundtrip s₂ ord₂ r₂ he₂ ho₂
  rw [h, h2] at h1
  simp only [Option.some.injEq, Prod.mk.injEq] at h1
  exact ⟨h1.1.symm, h1.2.symm⟩

/-! ## C07 -/

/-- `d` consumes a prefix of at least `n` bytes whenever it succeeds. -/
def Consumes {α} (d : Dec α) (n : Nat) : Prop :=
  ∀ bs a rest, d bs = some (a, rest) → ∃ c, bs = c ++ rest ∧ n ≤ c.length

theorem Consumes.bind {α β} {d : Dec α} {f : α → Dec β} {m n} (hd : Consumes d m)
    (hf : ∀ a, Consumes (f a) n) : Consumes (d >>= f) (m + n) := by
  intro bs b rest h
  obtain ⟨a, s', h1, h2⟩ := Dec.bind_eq_some.mp h
  obtain ⟨c1, e1, l1⟩ := hd _ _ _ h1
  obtain ⟨c2, e2, l2⟩ := hf a _ _ _ h2
  exact ⟨c1 ++ c2, by rw [e1, e2, List.append_assoc], by rw [List.length_append]; omega⟩

theorem Consumes.pure {α} (a : α) : Consumes (pure a : Dec α) 0 := by
  intro bs b rest h
  have := Dec.pure_eq_some.mp h
  simp only [Prod.mk.injEq] at this
  exact ⟨[], by simp [this.2], by simp⟩

theorem readLongLoop_consumes (bs : List UInt8) (v s a rest) (h : readLongLoop v s bs = some (a, rest)) :
    ∃ c, bs = c ++ rest ∧ 1 ≤ c.length := by
  induction bs generalizing v s with
  | nil => simp [readLongLoop] at h
  | cons b bs ih =>
    simp only [readLongLoop] at h
    split at h
    · simp only [Option.some.injEq, Prod.mk.injEq] at h
      exact ⟨[b], by simp [h.2], by simp⟩
    · obtain ⟨c, e, l⟩ := ih _ _ h
      exact ⟨b :: c, by rw [e]; rfl, by simp⟩

theorem readLong_consumes : Consumes readLong 1 := by
  intro bs a rest h
  unfold readLong at h
  split at h
  · contradiction
  · next hl =>
    simp only [Option.some.injEq, Prod.mk.injEq] at h
    obtain ⟨c, e, l⟩ := readLongLoop_consumes _ _ _ _ _ hl
    exact ⟨c, by rw [e, h.2], l⟩

/-- A string that was read stood in the input right before the unread rest. -/
theorem readString_present {bs s rest} (h : readBinaryString bs = some (s, rest)) :
    ∃ c, bs = c ++ s ++ rest ∧ 1 ≤ c.length := by
  obtain ⟨len, bs1, h1, h⟩ := Dec.bind_eq_some.mp h
  obtain ⟨c, e, l⟩ := readLong_consumes _ _ _ h1
  split at h
  · contradiction
  · split at h
    · have := Dec.pure_eq_some.mp h
      simp only [Prod.mk.injEq] at this
      obtain ⟨rfl, rfl⟩ := this
      exact ⟨c, by simpa using e, l⟩
    · unfold readFull at h
      split at h
      · simp only [Option.some.injEq, Prod.mk.injEq] at h
        obtain ⟨rfl, rfl⟩ := h
        exact ⟨c, by rw [List.append_assoc, List.take_append_drop, e], l⟩
      · contradiction

theorem readString_consumes : Consumes readBinaryString 1 := by
  intro bs a rest h
  obtain ⟨c, e, l⟩ := readString_present h
  exact ⟨c ++ a, e, by rw [List.length_append]; omega⟩

theorem infix_of_eq {a b c d : List UInt8} (h : d = a ++ b ++ c) : b <:+: d := ⟨a, c, h.symm⟩

theorem infix_append_left {a b c : List UInt8} (h : b <:+: c) : b <:+: a ++ c := by
  obtain ⟨s, t, rfl⟩ := h
  exact ⟨a ++ s, t, by simp⟩

theorem readEntries_present (n : Nat) (m m' : TagMap) (bs rest : List UInt8)
    (h : readEntries n m bs = some (m', rest)) :
    ∃ c, bs = c ++ rest ∧ 2 * m'.size ≤ 2 * m.size + c.length ∧
      ∀ k v, m'[k]? = some v → m[k]? = some v ∨ (k <:+: bs ∧ v <:+: bs) := by
  induction n generalizing m bs with
  | zero =>
    have := Dec.pure_eq_some.mp h
    simp only [Prod.mk.injEq] at this
    obtain ⟨rfl, rfl⟩ := this
    exact ⟨[], rfl, by simp, fun k v h => Or.inl h⟩
  | succ n ih =>
    obtain ⟨k, bs1, h1, h⟩ := Dec.bind_eq_some.mp h
    obtain ⟨v, bs2, h2, h⟩ := Dec.bind_eq_some.mp h
    obtain ⟨c1, e1, l1⟩ := readString_present h1
    obtain ⟨c2, e2, l2⟩ := readString_present h2
    obtain ⟨c3, e3, l3, hm⟩ := ih _ _ h
    refine ⟨c1 ++ k ++ c2 ++ v ++ c3, by rw [e1, e2, e3]; simp, ?_, ?_⟩
    · have : (m.insert k v).size ≤ m.size + 1 := Std.ExtTreeMap.size_insert_le
      simp only [List.length_append]; omega
    · intro k' v' hk
      rcases hm k' v' hk with hk2 | ⟨i1, i2⟩
      · rw [Std.ExtTreeMap.getElem?_insert] at hk2
        split at hk2
        · next heq =>
          have : k = k' := by simpa using heq
          subst this
          injection hk2 with hk3
          subst hk3
          right
          refine ⟨infix_of_eq e1, ?_⟩
          rw [e1]; exact infix_append_left (infix_of_eq e2)
        · exact Or.inl hk2
      · right
        rw [e1, e2, List.append_assoc c2 v bs2]
        have aux : ∀ {x : List UInt8}, x <:+: bs2 → x <:+: c1 ++ k ++ (c2 ++ (v ++ bs2)) :=
          fun h => infix_append_left (infix_append_left (infix_append_left h))
        exact ⟨aux i1, aux i2⟩

theorem readBlocks_present (m m' : TagMap) (bs rest : List UInt8)
    (h : readBlocks m bs = some (m', rest)) :
    ∃ c, bs = c ++ rest ∧ 1 ≤ c.length ∧ 2 * m'.size ≤ 2 * m.size + c.length ∧
      ∀ k v, m'[k]? = some v → m[k]? = some v ∨ (k <:+: bs ∧ v <:+: bs) := by
  induction hn : bs.length using Nat.strongRecOn generalizing m bs with
  | ind n ih =>
    rw [readBlocks] at h
    split at h
    · contradiction
    · next blk bs1 h1 =>
      have l1 := readLong_length h1
      obtain ⟨c1, e1, k1⟩ := readLong_consumes _ _ _ h1
      split at h
      · simp only [Option.some.injEq, Prod.mk.injEq] at h
        obtain ⟨rfl, rfl⟩ := h
        exact ⟨c1, e1, k1, by omega, fun k v h => Or.inl h⟩
      · split at h
        · split at h
          · contradiction
          · next x bs2 h2 =>
            have l2 := readLong_length h2
            obtain ⟨c2, e2, k2⟩ := readLong_consumes _ _ _ h2
            split at h
            · contradiction
            · next m1 bs3 h3 =>
              have l3 := readEntries_length h3
              obtain ⟨c3, e3, k3, p3⟩ := readEntries_present _ _ _ _ _ h3
              obtain ⟨c4, e4, k4, s4, p4⟩ := ih _ (by dsimp only at l1 l2 l3; omega) _ _ h rfl
              refine ⟨c1 ++ c2 ++ c3 ++ c4, by rw [e1, e2, e3, e4]; simp, ?_, ?_, ?_⟩
              · simp only [List.length_append]; omega
              · simp only [List.length_append]; omega
              · intro k v hk
                rcases p4 k v hk with hk | ⟨i1, i2⟩
                · rcases p3 k v hk with hk | ⟨i1, i2⟩
                  · exact Or.inl hk
                  · right; rw [e1, e2]
                    exact ⟨infix_append_left (infix_append_left i1), infix_append_left (infix_append_left i2)⟩
                · right; rw [e1, e2, e3]
                  exact ⟨infix_append_left (infix_append_left (infix_append_left i1)),
                    infix_append_left (infix_append_left (infix_append_left i2))⟩
        · split at h
          · contradiction
          · next m1 bs3 h3 =>
            have l3 := readEntries_length h3
            obtain ⟨c3, e3, k3, p3⟩ := readEntries_present _ _ _ _ _ h3
            obtain ⟨c4, e4, k4, s4, p4⟩ := ih _ (by dsimp only at l1 l3; omega) _ _ h rfl
            refine ⟨c1 ++ c3 ++ c4, by rw [e1, e3, e4]; simp, ?_, ?_, ?_⟩
            · simp only [List.length_append]; omega
            · simp only [List.length_append]; omega
            · intro k v hk
              rcases p4 k v hk with hk | ⟨i1, i2⟩
              · rcases p3 k v hk with hk | ⟨i1, i2⟩
                · exact Or.inl hk
                · right; rw [e1]
                  exact ⟨infix_append_left i1, infix_append_left i2⟩
              · right; rw [e1, e3]
                exact ⟨infix_append_left (infix_append_left i1), infix_append_left (infix_append_left i2)⟩

/-- C07: the slice operations in `readString` never panic. -/
theorem C07_no_panic (bs : List UInt8) : ¬ readStringPanics bs := by
  unfold readStringPanics
  split
  · exact id
  · split
    · exact id
    · next h =>
      have h0 : ¬ _ := fun h' => h (Or.inl h')
      split
      · exact id
      · split
        · exact h0
        · next hp => exact fun h' => h'.elim h0 hp

/-- C07: on every byte sequence decoding either fails, or it consumes a prefix of at least 12 bytes,
the rest being unread; every string of the decoded span occurs in the input, and the number of tags
is at most half of the bytes consumed, whatever block sizes the input claims.
(That decoding returns at all is the termination proof of `readBlocks`.) -/
theorem C07_decode_total (bs : List UInt8) :
    binaryDecode bs = none ∨
    ∃ s rest consumed, binaryDecode bs = some (s, rest) ∧ bs = consumed ++ rest ∧
      12 ≤ consumed.length ∧ s.name <:+: bs ∧ s.service <:+: bs ∧
      ∃ tags, s.tags = some tags ∧ 2 * tags.size ≤ consumed.length ∧
        ∀ k v, tags[k]? = some v → k <:+: bs ∧ v <:+: bs := by
  cases h : binaryDecode bs with
  | none => exact Or.inl rfl
  | some r =>
    right
    obtain ⟨s, rest⟩ := r
    unfold binaryDecode at h
    obtain ⟨id, b1, g1, h⟩ := Dec.bind_eq_some.mp h
    obtain ⟨trace, b2, g2, h⟩ := Dec.bind_eq_some.mp h
    obtain ⟨parent, b3, g3, h⟩ := Dec.bind_eq_some.mp h
    obtain ⟨name, b4, g4, h⟩ := Dec.bind_eq_some.mp h
    obtain ⟨service, b5, g5, h⟩ := Dec.bind_eq_some.mp h
    obtain ⟨ts, b6, g6, h⟩ := Dec.bind_eq_some.mp h
    obtain ⟨dur, b7, g7, h⟩ := Dec.bind_eq_some.mp h
    obtain ⟨cs, b8, g8, h⟩ := Dec.bind_eq_some.mp h
    obtain ⟨cr, b9, g9, h⟩ := Dec.bind_eq_some.mp h
    obtain ⟨ss, b10, g10, h⟩ := Dec.bind_eq_some.mp h
    obtain ⟨sr, b11, g11, h⟩ := Dec.bind_eq_some.mp h
    obtain ⟨tags, b12, g12, h⟩ := Dec.bind_eq_some.mp h
    have h := Dec.pure_eq_some.mp h
    simp only [Prod.mk.injEq] at h
    obtain ⟨rfl, rfl⟩ := h
    obtain ⟨c1, e1, l1⟩ := readLong_consumes _ _ _ g1
    obtain ⟨c2, e2, l2⟩ := readLong_consumes _ _ _ g2
    obtain ⟨c3, e3, l3⟩ := readLong_consumes _ _ _ g3
    obtain ⟨c4, e4, l4⟩ := readString_present g4
    obtain ⟨c5, e5, l5⟩ := readString_present g5
    obtain ⟨c6, e6, l6⟩ := readLong_consumes _ _ _ g6
    obtain ⟨c7, e7, l7⟩ := readLong_consumes _ _ _ g7
    obtain ⟨c8, e8, l8⟩ := readLong_consumes _ _ _ g8
    obtain ⟨c9, e9, l9⟩ := readLong_consumes _ _ _ g9
    obtain ⟨c10, e10, l10⟩ := readLong_consumes _ _ _ g10
    obtain ⟨c11, e11, l11⟩ := readLong_consumes _ _ _ g11
    obtain ⟨c12, e12, l12, z12, p12⟩ := readBlocks_present _ _ _ _ g12
    have pre : bs = (c1 ++ c2 ++ c3 ++ (c4 ++ name) ++ (c5 ++ service) ++ c6 ++ c7 ++ c8 ++ c9 ++ c10 ++ c11) ++ b11 := by
      rw [e1, e2, e3, e4, e5, e6, e7, e8, e9, e10, e11]; simp
    refine ⟨_, rest, _, rfl, (by rw [pre, e12, ← List.append_assoc]), ?_, ?_, ?_, tags, rfl, ?_, ?_⟩
    · simp only [List.length_append]; omega
    · rw [e1, e2, e3]
      exact infix_append_left (infix_append_left (infix_append_left (infix_of_eq e4)))
    · rw [e1, e2, e3, e4]
      exact infix_append_left (infix_append_left (infix_append_left (infix_append_left (infix_of_eq e5))))
    · have : (∅ : TagMap).size = 0 := Std.ExtTreeMap.size_empty
      simp only [List.length_append]; omega
    · intro k v hk
      rcases p12 k v hk with hk | ⟨i1, i2⟩
      · simp at hk
      · rw [pre]; exact ⟨infix_append_left i1, infix_append_left i2⟩

/-! Non-vacuity: a non-trivial span with two tags in an order different from the canonical one. -/

/-- A sample span. -/
def sampleSpan : Span :=
  { id := -5, trace := 0xbeaf, parent := 1, name := b!"get", service := b!"svc", timestamp := 1560276970000000000,
    duration := 1000, tags := some ((∅ : TagMap).insert b!"a" b!"1" |>.insert b!"b" b!""),
    timings := { CS := 1, CR := 2, SS := 3, SR := -4 } }

example : Encodable sampleSpan ∧ IsRange [(b!"b", b!""), (b!"a", b!"1")] (sampleSpan.tags.getD ∅) := by
  have htl : (sampleSpan.tags.getD ∅).toList = [(b!"a", b!"1"), (b!"b", b!"")] := by decide +kernel
  refine ⟨⟨by decide, by decide, by decide +kernel, ?_⟩, ?_⟩
  · intro k v h
    have := Std.ExtTreeMap.mem_toList_iff_getElem?_eq_some.mpr h
    rw [htl] at this
    simp only [List.mem_cons, Prod.mk.injEq, List.not_mem_nil, or_false] at this
    rcases this with ⟨rfl, rfl⟩ | ⟨rfl, rfl⟩ <;> decide
  · unfold IsRange; rw [htl]; exact List.Perm.swap _ _ _

/-! ## C08 -/

/-- C08, negation: the decoder does not bound its allocation by the size of the message, nor by 400 million times
this size. A message of 5 bytes makes it request 2^31-1 bytes before noticing that the string is not there. -/
theorem C08_allocation_not_bounded_by_input :
    ¬ ∀ bs : List UInt8, readStringRequest bs ≤ 400000000 * bs.length := by
  intro h
  have := h [254, 255, 255, 255, 15]
  revert this; decide +kernel

/-- C08, what does hold: a request never exceeds 2^31-1 bytes, and a string that is successfully read
never caused a request larger than the input. Missing for the full property: the bound for reads that
fail (see `C08_allocation_not_bounded_by_input`). -/
theorem C08_allocation_partial (bs : List UInt8) :
    readStringRequest bs ≤ 2 ^ 31 - 1 ∧
    ((readBinaryString bs).isSome → readStringRequest bs ≤ bs.length) := by
  constructor
  · unfold readStringRequest
    split
    · simp
    · next len rest _ =>
      split
      · simp
      · split
        · next hlen _ =>
          simp only [not_or, gt_iff_lt, Int64.not_lt] at hlen
          have h2 := Int64.le_iff_toInt_le.mp hlen.2
          have b : Int64.toInt 2147483647 = 2147483647 := rfl
          rw [b] at h2; omega
        · simp
  · intro hs
    obtain ⟨⟨s, rest⟩, hs⟩ := Option.isSome_iff_exists.mp hs
    obtain ⟨len, bs1, h1, h⟩ := Dec.bind_eq_some.mp hs
    have l1 := readLong_length h1
    unfold readStringRequest
    rw [h1]
    simp only
    split at h
    · contradiction
    · next hr =>
      rw [if_neg hr]
      split
      · next hbig =>
        split at h
        · next h0 => subst h0; exact absurd hbig (by decide)
        · unfold readFull at h
          split at h
          · simp only at l1; omega
          · contradiction
      · omega

example : (readBinaryString (writeString b!"hello")).isSome := by
  have := readString_writeString b!"hello" [] (by decide)
  rw [List.append_nil] at this; rw [this]; rfl

end Verif
