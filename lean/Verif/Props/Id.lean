import Verif.Proofs.Id

/-!
# C01, C02: textual form of ids
-/

namespace Verif
open Spec

theorem hexValue_lt (bs : Str) : hexValue bs < 16 ^ bs.length := by
  induction bs with
  | nil => simp [hexValue]
  | cons c cs ih =>
    have : (hexDigitValue c).getD 0 < 16 := by
      cases h : hexDigitValue c with
      | none => simp
      | some n => exact hexDigitValue_lt c n h
    simp only [hexValue, List.length_cons, Nat.pow_succ]
    have := Nat.mul_le_mul_right (16 ^ cs.length) (show (hexDigitValue c).getD 0 + 1 ≤ 16 by omega)
    rw [Nat.add_mul] at this
    omega

/-- C02: `ParseId` accepts exactly the strings of at most 16 hexadecimal digits. -/
theorem C02_parseId_accepts_iff (bs : Str) :
    (parseId bs).isSome ↔ bs.length ≤ 16 ∧ ∀ c ∈ bs, IsHexDigit c := by
  unfold parseId
  rw [foldlM_parseIdStep]
  by_cases h : bs.length > 16 <;> by_cases h2 : ∀ c ∈ bs, IsHexDigit c <;> simp [h, h2] <;> omega

/-- C02: the accepted id, read as a 64-bit pattern, is the number denoted by the hexadecimal numeral. -/
theorem C02_parseId_value (bs : Str) (id : Id) (h : parseId bs = some id) :
    id.toUInt64.toNat = hexValue bs := by
  unfold parseId at h
  rw [foldlM_parseIdStep] at h
  split at h
  · contradiction
  · split at h
    · simp only [Option.some.injEq] at h
      subst h
      show (UInt64.ofNat _).toNat = _
      have e : (0 : Id).toUInt64.toNat = 0 := rfl
      rw [e, UInt64.toNat_ofNat', Nat.zero_mul, Nat.zero_add]
      have := hexValue_lt bs
      have h16 : 16 ^ bs.length ≤ 16 ^ 16 := Nat.pow_le_pow_right (by omega) (by omega)
      exact Nat.mod_eq_of_lt (Nat.lt_of_lt_of_le this h16)
    · contradiction

/-- C01: the printed form is 16 lowercase hexadecimal digits denoting the id's 64-bit pattern,
most significant digit first. -/
theorem C01_string_format (id : Id) :
    (idString id).length = 16 ∧ (∀ c ∈ idString id, c ∈ hexDigitsLower) ∧
    hexValue (idString id) = id.toUInt64.toNat := by
  refine ⟨by rw [idString, hexEncode_length]; rfl, hexEncode_lower _, ?_⟩
  rw [idString, hexValue_hexEncode]
  have h := byteOf_shift id
  have h56 := h 56 (by omega); have h48 := h 48 (by omega); have h40 := h 40 (by omega)
  have h32 := h 32 (by omega); have h24 := h 24 (by omega); have h16 := h 16 (by omega)
  have h8 := h 8 (by omega); have h0 := h 0 (by omega)
  have hz : id >>> Int64.ofNat 0 = id := by
    rw [← Int64.toBitVec_inj, Int64.toBitVec_shiftRight]
    have : (Int64.ofNat 0).toBitVec.smod 64 = 0#64 := rfl
    rw [this]; simp
  rw [hz] at h0
  change (byteOf (id >>> 56 &&& 255)).toNat = _ at h56
  change (byteOf (id >>> 48 &&& 255)).toNat = _ at h48
  change (byteOf (id >>> 40 &&& 255)).toNat = _ at h40
  change (byteOf (id >>> 32 &&& 255)).toNat = _ at h32
  change (byteOf (id >>> 24 &&& 255)).toNat = _ at h24
  change (byteOf (id >>> 16 &&& 255)).toNat = _ at h16
  change (byteOf (id >>> 8 &&& 255)).toNat = _ at h8
  simp only [idBytes, beValue, List.length_cons, List.length_nil, h56, h48, h40, h32, h24, h16, h8, h0]
  have : id.toUInt64.toNat < 2 ^ 64 := id.toUInt64.toNat_lt
  omega

/-- C01: parsing a printed id gives the id back. -/
theorem C01_parseId_string (id : Id) : parseId (idString id) = some id := by
  obtain ⟨hl, hd, hv⟩ := C01_string_format id
  have hs := (C02_parseId_accepts_iff (idString id)).mpr ⟨by omega, fun c hc => Or.inl (hd c hc)⟩
  obtain ⟨id', hid⟩ := Option.isSome_iff_exists.mp hs
  rw [hid]
  have := C02_parseId_value _ _ hid
  rw [hv] at this
  rw [int64_ext (UInt64.toNat_inj.mp this)]

/-- C02: `UnmarshalJSON` accepts exactly the quoted forms of what `ParseId` accepts. -/
theorem C02_unmarshal_iff (bs : Str) (id : Id) :
    idUnmarshalJSON bs = some id ↔ ∃ body, bs = b!"\"" ++ body ++ b!"\"" ∧ parseId body = some id := by
  unfold idUnmarshalJSON
  constructor
  · intro h
    split at h
    · contradiction
    · next hc =>
      simp only [not_or, Nat.not_lt, ne_eq, Decidable.not_not] at hc
      obtain ⟨h2, hf, hl⟩ := hc
      refine ⟨_, ?_, h⟩
      match bs, h2 with
      | a :: rest, h2 =>
        simp at hf; subst hf
        have hne : rest ≠ [] := by intro e; subst e; simp at h2
        have hlast : rest.getLast hne = 0x22 := by
          rw [List.getLast_eq_getElem]
          simp only [List.length_cons, Nat.add_sub_cancel] at hl
          have hr : rest.length ≠ 0 := by intro e; exact hne (List.length_eq_zero_iff.mp e)
          rw [List.getElem?_cons] at hl
          simp only [hr, if_false] at hl
          exact (List.getElem?_eq_some_iff.mp hl).2
        have hr : rest.length ≠ 0 := by intro e; exact hne (List.length_eq_zero_iff.mp e)
        have : (List.take (rest.length + 1 - 1) (0x22 :: rest)).drop 1 = rest.dropLast := by
          rw [Nat.add_sub_cancel]
          obtain ⟨n, hn⟩ : ∃ n, rest.length = n + 1 := ⟨rest.length - 1, by omega⟩
          rw [hn, List.take_succ_cons, List.drop_succ_cons, List.drop_zero, List.dropLast_eq_take, hn, Nat.add_sub_cancel]
        simp only [List.length_cons, this]
        have := List.dropLast_concat_getLast hne
        rw [hlast] at this
        simp only [List.cons_append, List.nil_append, this]
  · rintro ⟨body, rfl, hb⟩
    have h1 : ¬ ((b!"\"" ++ body ++ b!"\"").length < 2 ∨ (b!"\"" ++ body ++ b!"\"")[0]? ≠ some 0x22 ∨
        (b!"\"" ++ body ++ b!"\"")[(b!"\"" ++ body ++ b!"\"").length - 1]? ≠ some 0x22) := by
      simp
    rw [if_neg h1, ← hb]
    congr 1
    simp [List.take_append]

/-- C01: unmarshalling a marshalled id gives the id back. -/
theorem C01_json_roundtrip (id : Id) : idUnmarshalJSON (idMarshalJSON id) = some id :=
  (C02_unmarshal_iff _ _).mpr ⟨idString id, rfl, C01_parseId_string id⟩

/-! Non-vacuity and sanity checks (tests, not proofs of the properties). -/

example : idString (-2) = b!"fffffffffffffffe" := by decide +kernel
example : parseId b!"DeadBEEF" = some 0xdeadbeef := by decide +kernel
example : parseId b!"" = some 0 := by decide +kernel
-- 128-bit trace ids are rejected
example : parseId b!"0000000000000000deadbeefdeadbeef" = none := by decide +kernel
example : idUnmarshalJSON b!"\"beaf\"" = some 0xbeaf := by decide +kernel
example : idUnmarshalJSON b!"\"" = none := by decide +kernel

end Verif
