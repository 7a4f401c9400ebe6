import Verif.Model.Binary
import Verif.Proofs.Tags

namespace Verif

/-! ## Variable length integers -/

theorem u64_toNat_shr7 (e : UInt64) : (e >>> 7).toNat = e.toNat / 128 := by
  rw [UInt64.toNat_shiftRight]; simp [Nat.shiftRight_eq_div_pow]

/-- The accumulator argument of the decoding loop, in terms of bits. -/
theorem or_shl_step (v e : UInt64) (s : Nat) (he : e.toNat < 2 ^ (64 - s)) :
    (v ||| goShl (e &&& 127) s) ||| goShl (e >>> 7) (s + 7) = v ||| goShl e s := by
  rw [UInt64.or_assoc]
  congr 1
  by_cases hs : ¬ s < 64
  · have h1 : ¬ s + 7 < 64 := by omega
    simp [goShl, hs, h1]
  replace hs : s < 64 := by omega
  apply UInt64.toBitVec_inj.mp
  have hlt : ∀ i, 64 - s ≤ i → e.toBitVec.getLsbD i = false := by
    intro i hi
    have : e.toNat < 2 ^ i := Nat.lt_of_lt_of_le he (Nat.pow_le_pow_right (by omega) hi)
    exact Nat.testBit_lt_two_pow this
  have hsm : (UInt64.ofNat s).toBitVec % 64 = BitVec.ofNat 64 s := by
    apply BitVec.eq_of_toNat_eq
    show (s % 2 ^ 64) % 64 = s % 2 ^ 64
    omega
  apply BitVec.eq_of_getLsbD_eq
  intro i hi
  have c127 : ∀ j, (127#64).getLsbD j = decide (j < 7) := by
    intro j
    by_cases hj : j < 64
    · revert hj; revert j; decide
    · have : ¬ j < 7 := by omega
      rw [BitVec.getLsbD_of_ge _ _ (by omega)]; simp [this]
  have shl : ∀ (x : UInt64) (k : Nat), k < 64 → (goShl x k).toBitVec = x.toBitVec <<< k := by
    intro x k hk
    have : (UInt64.ofNat k).toBitVec % 64 = BitVec.ofNat 64 k := by
      apply BitVec.eq_of_toNat_eq
      show (k % 2 ^ 64) % 64 = k % 2 ^ 64
      omega
    simp only [goShl, hk, if_true, UInt64.toBitVec_shiftLeft]
    rw [this]
    rw [BitVec.shiftLeft_eq']
    congr 1
    simp; omega
  rw [UInt64.toBitVec_or, BitVec.getLsbD_or, shl _ _ hs, shl _ _ hs]
  by_cases h7 : s + 7 < 64
  · rw [shl _ _ h7]
    have e7 : (e >>> 7).toBitVec = e.toBitVec >>> 7 := rfl
    have e127 : (e &&& 127).toBitVec = e.toBitVec &&& 127#64 := rfl
    rw [e7, e127]
    simp only [BitVec.getLsbD_shiftLeft, BitVec.getLsbD_and, BitVec.getLsbD_ushiftRight, c127]
    by_cases h1 : i < s
    · have : i < s + 7 := by omega
      simp [h1, this]
    · by_cases h2 : i < s + 7
      · have : i - s < 7 := by omega
        simp [h1, h2, this, hi]
      · have h3 : ¬ i - s < 7 := by omega
        have h4 : 7 + (i - (s + 7)) = i - s := by omega
        simp [h1, h2, h3, h4, hi]
  · have hz : goShl (e >>> 7) (s + 7) = 0 := by simp [goShl, h7]
    rw [hz]
    have e127 : (e &&& 127).toBitVec = e.toBitVec &&& 127#64 := rfl
    rw [e127]
    have z : (0 : UInt64).toBitVec.getLsbD i = false := by simp
    rw [z, Bool.or_false]
    simp only [BitVec.getLsbD_shiftLeft, BitVec.getLsbD_and, c127]
    by_cases h1 : i < s
    · simp [h1]
    · have : i - s < 7 := by omega
      simp [h1, this]

theorem byte_facts (e : UInt64) :
    ((e &&& 127).toUInt8 &&& 127).toUInt64 = e &&& 127 ∧
    (((e &&& 127).toUInt8 ||| 128) &&& 127).toUInt64 = e &&& 127 ∧
    ((e &&& 127).toUInt8 &&& 128 = 0) ∧
    (((e &&& 127).toUInt8 ||| 128) &&& 128 ≠ 0) := by
  have h : ∀ x : UInt8, x < 128 → (x &&& 127 = x) ∧ ((x ||| 128) &&& 127 = x) ∧ (x &&& 128 = 0) ∧ ((x ||| 128) &&& 128 ≠ 0) := by
    intro x
    have : ∀ n : Fin 256, UInt8.ofFin n < 128 → (UInt8.ofFin n &&& 127 = UInt8.ofFin n) ∧ ((UInt8.ofFin n ||| 128) &&& 127 = UInt8.ofFin n) ∧ (UInt8.ofFin n &&& 128 = 0) ∧ ((UInt8.ofFin n ||| 128) &&& 128 ≠ 0) := by
      decide +kernel
    exact this x.toFin
  have hm : (e &&& 127).toNat = e.toNat % 128 := by
    rw [UInt64.toNat_and]
    exact Nat.and_two_pow_sub_one_eq_mod e.toNat 7
  have hx : (e &&& 127).toUInt8.toNat = e.toNat % 128 := by
    rw [UInt64.toNat_toUInt8, hm]; omega
  have hlt : (e &&& 127).toUInt8 < 128 := by
    rw [UInt8.lt_iff_toNat_lt, hx]; exact Nat.mod_lt _ (by decide)
  obtain ⟨a, b, c, d⟩ := h _ hlt
  have back : (e &&& 127).toUInt8.toUInt64 = e &&& 127 := by
    apply UInt64.toNat_inj.mp
    rw [UInt8.toNat_toUInt64, hx, hm]
  refine ⟨by rw [a, back], by rw [b, back], c, d⟩

theorem readLongLoop_encodeIntLoop (e : UInt64) (he : e ≠ 0) (v : UInt64) (s : Nat) (rest : List UInt8)
    (hs : e.toNat < 2 ^ (64 - s)) :
    readLongLoop v s (encodeIntLoop e ++ rest) = some (v ||| goShl e s, rest) := by
  have ih : ∀ n, ∀ e : UInt64, e.toNat = n → e ≠ 0 → ∀ (v : UInt64) (s : Nat), e.toNat < 2 ^ (64 - s) →
      readLongLoop v s (encodeIntLoop e ++ rest) = some (v ||| goShl e s, rest) := by
    intro n
    induction n using Nat.strongRecOn with
    | ind n ih =>
      intro e hn he v s hs
      have hpos : 0 < e.toNat := by
        rcases Nat.eq_zero_or_pos e.toNat with h | h
        · exact absurd (UInt64.toNat_inj.mp (by simpa using h)) he
        · exact h
      have hgt : e > 0 := by rw [gt_iff_lt, UInt64.lt_iff_toNat_lt]; simpa using hpos
      have hs64 : s < 64 := by
        rcases Nat.lt_or_ge s 64 with h | h
        · exact h
        · have : 64 - s = 0 := by omega
          rw [this] at hs; omega
      rw [encodeIntLoop]
      simp only [hgt, dite_true, List.cons_append]
      obtain ⟨f1, f2, f3, f4⟩ := byte_facts e
      by_cases h7 : e >>> 7 = 0
      · have hend : encodeIntLoop (e >>> 7) = [] := by
          rw [h7, encodeIntLoop]; simp
        simp only [h7, ne_eq, not_true_eq_false, if_false]
        rw [show encodeIntLoop 0 = [] by rw [encodeIntLoop]; simp]
        simp only [readLongLoop, f1, f3, List.nil_append, beq_self_eq_true, if_true]
        have := or_shl_step v e s hs
        rw [h7] at this
        have z : goShl 0 (s + 7) = 0 := by unfold goShl; split <;> simp
        rw [z, UInt64.or_zero] at this
        rw [this]
      · simp only [ne_eq, h7, not_false_eq_true, if_true]
        simp only [readLongLoop, f2]
        rw [if_neg (by simpa using f4)]
        have hlt : (e >>> 7).toNat < n := by rw [u64_toNat_shr7]; omega
        have hb : (e >>> 7).toNat < 2 ^ (64 - (s + 7)) := by
          rw [u64_toNat_shr7]
          rcases Nat.lt_or_ge s 57 with h | h
          · have : 64 - s = (64 - (s + 7)) + 7 := by omega
            rw [this, Nat.pow_add] at hs
            omega
          · have : e.toNat < 2 ^ 7 := Nat.lt_of_lt_of_le hs (Nat.pow_le_pow_right (by omega) (by omega))
            have h0 : (e >>> 7).toNat = 0 := by rw [u64_toNat_shr7]; omega
            exact absurd (UInt64.toNat_inj.mp (by simpa using h0)) h7
        rw [ih _ hlt (e >>> 7) rfl h7 _ _ hb, or_shl_step v e s hs]
  exact ih _ e rfl he v s hs

theorem readLongLoop_encodeInt (e : UInt64) (rest : List UInt8) :
    readLongLoop 0 0 (encodeInt e ++ rest) = some (e, rest) := by
  unfold encodeInt
  split
  · next h => subst h; simp [readLongLoop, goShl]
  · next h =>
    rw [readLongLoop_encodeIntLoop e h 0 0 rest (by simpa using e.toNat_lt)]
    simp only [goShl]
    simp

theorem zigzag (r : Int64) :
    let v := ((r <<< 1) ^^^ (r >>> 63)).toUInt64
    (v >>> 1).toInt64 ^^^ (-(v &&& 1).toInt64) = r := by
  intro v
  apply Int64.toBitVec_inj.mp
  have hv : v.toBitVec = (r.toBitVec <<< 1) ^^^ (r.toBitVec.sshiftRight 63) := rfl
  have hx : ((v >>> 1).toInt64 ^^^ (-(v &&& 1).toInt64)).toBitVec = (v.toBitVec >>> 1) ^^^ (-(v.toBitVec &&& 1#64)) := rfl
  rw [hx]
  have hb0 : v.toBitVec.getLsbD 0 = r.toBitVec.msb := by
    rw [hv, BitVec.getLsbD_xor, BitVec.getLsbD_shiftLeft, BitVec.getLsbD_sshiftRight, BitVec.msb_eq_getLsbD_last]
    simp
  have h1 : v.toBitVec &&& 1#64 = if r.toBitVec.msb then 1#64 else 0#64 := by
    apply BitVec.eq_of_getLsbD_eq
    intro i hi
    have one : (1#64).getLsbD i = decide (i = 0) := by
      revert hi; revert i; decide
    rw [BitVec.getLsbD_and, one]
    by_cases h0 : i = 0
    · subst h0; rw [hb0]; cases r.toBitVec.msb <;> simp
    · cases r.toBitVec.msb <;> simp [h0, one]
  rw [h1]
  apply BitVec.eq_of_getLsbD_eq
  intro i hi
  have hneg : (-(if r.toBitVec.msb then 1#64 else 0#64)).getLsbD i = r.toBitVec.msb := by
    cases r.toBitVec.msb
    · simp
    · simp only [if_true]
      revert hi; revert i; decide
  rw [BitVec.getLsbD_xor, hneg, BitVec.getLsbD_ushiftRight, hv, BitVec.getLsbD_xor]
  simp only [BitVec.getLsbD_shiftLeft, BitVec.getLsbD_sshiftRight]
  by_cases h63 : i = 63
  · subst h63; simp [BitVec.msb_eq_getLsbD_last]
  · have : 1 + i < 64 := by omega
    have h2 : ¬ (64 ≤ 1 + i) := by omega
    have h3 : ¬ (63 + (1 + i) < 64) := by omega
    rw [decide_eq_false h2]; simp [this, h3]

theorem readLong_writeLong (r : Int64) (rest : List UInt8) :
    readLong (writeLong r ++ rest) = some (r, rest) := by
  unfold readLong writeLong
  rw [readLongLoop_encodeInt]
  simp only [Option.some.injEq, Prod.mk.injEq, and_true]
  exact zigzag r

theorem encodeIntLoop_length (e : UInt64) (k : Nat) (hk : e.toNat < 128 ^ k) : (encodeIntLoop e).length ≤ k := by
  induction k generalizing e with
  | zero =>
    have : e = 0 := UInt64.toNat_inj.mp (by simpa using hk)
    subst this; rw [encodeIntLoop]; simp
  | succ k ih =>
    rw [encodeIntLoop]
    split
    · simp only [List.length_cons]
      have := ih (e >>> 7) (by rw [u64_toNat_shr7]; rw [Nat.pow_succ] at hk; omega)
      omega
    · simp

theorem writeLong_length (r : Int64) : 1 ≤ (writeLong r).length ∧ (writeLong r).length ≤ 10 := by
  unfold writeLong encodeInt
  generalize (r <<< 1 ^^^ r >>> 63).toUInt64 = e
  split
  · simp
  · next h =>
    constructor
    · rw [encodeIntLoop]
      have hgt : e > 0 := by
        rw [gt_iff_lt, UInt64.lt_iff_toNat_lt]
        rcases Nat.eq_zero_or_pos e.toNat with h' | h'
        · exact absurd (UInt64.toNat_inj.mp (by simpa using h')) h
        · simpa using h'
      simp [hgt]
    · exact encodeIntLoop_length e 10 (Nat.lt_of_lt_of_le e.toNat_lt (by decide))

/-! ## Strings and maps -/

theorem int64_ofNat_toNat (n : Nat) (h : n < 2 ^ 63) : (Int64.ofNat n).toInt.toNat = n := by
  rw [Int64.toInt_ofNat_of_lt h]; simp

theorem int64_ofNat_toInt (n : Nat) (h : n < 2 ^ 63) : (Int64.ofNat n).toInt = n :=
  Int64.toInt_ofNat_of_lt h

theorem readString_writeString (s : Str) (rest : List UInt8) (h : s.length < 2 ^ 31) :
    readBinaryString (writeString s ++ rest) = some (s, rest) := by
  unfold readBinaryString writeString
  rw [List.append_assoc, Dec.bind_of_some (readLong_writeLong _ _)]
  have hi := int64_ofNat_toInt s.length (by omega)
  have h1 : ¬ (Int64.ofNat s.length < 0 ∨ Int64.ofNat s.length > 2147483647) := by
    simp only [Int64.lt_iff_toInt_lt, gt_iff_lt, hi]
    have a : Int64.toInt 0 = 0 := rfl
    have b : Int64.toInt 2147483647 = 2147483647 := rfl
    rw [a, b]; omega
  rw [if_neg h1]
  by_cases h0 : s.length = 0
  · have : s = [] := List.length_eq_zero_iff.mp h0
    subst this; rfl
  · have : Int64.ofNat s.length ≠ 0 := by
      intro e
      have := congrArg Int64.toInt e
      rw [hi] at this
      have a : Int64.toInt 0 = 0 := rfl
      rw [a] at this; omega
    rw [if_neg this, int64_ofNat_toNat _ (by omega)]
    simp [readFull]

theorem readEntries_write (l : List (Str × Str)) (m : TagMap) (rest : List UInt8)
    (h : ∀ e ∈ l, e.1.length < 2 ^ 31 ∧ e.2.length < 2 ^ 31) :
    readEntries l.length m (l.flatMap (fun e => writeString e.1 ++ writeString e.2) ++ rest) =
      some (insertAll l m, rest) := by
  induction l generalizing m with
  | nil => rfl
  | cons e l ih =>
    have he := h e (by simp)
    simp only [List.length_cons, readEntries, List.flatMap_cons, List.append_assoc]
    rw [Dec.bind_of_some (readString_writeString _ _ he.1), Dec.bind_of_some (readString_writeString _ _ he.2)]
    rw [ih _ (fun e' h' => h e' (List.mem_cons_of_mem _ h'))]
    rfl

theorem readMapString_write (l : List (Str × Str)) (rest : List UInt8) (hl : l.length < 2 ^ 63)
    (h : ∀ e ∈ l, e.1.length < 2 ^ 31 ∧ e.2.length < 2 ^ 31) :
    readMapString (writeMapString l ++ rest) = some (insertAll l ∅, rest) := by
  unfold readMapString writeMapString
  by_cases h0 : l.length = 0
  · have : l = [] := List.length_eq_zero_iff.mp h0
    subst this
    simp only [List.length_nil, if_true, List.append_nil]
    rw [readBlocks]
    have e := readLong_writeLong (Int64.ofNat 0) rest
    split
    · next hh => rw [e] at hh; contradiction
    · next blk bs1 hh =>
      rw [e] at hh
      simp only [Option.some.injEq, Prod.mk.injEq] at hh
      obtain ⟨rfl, rfl⟩ := hh
      rw [if_pos (by rfl)]; rfl
  · rw [if_neg h0]
    have hpos : Int64.ofNat l.length ≠ 0 := by
      intro e
      have := congrArg Int64.toInt e
      rw [int64_ofNat_toInt _ hl] at this
      have a : Int64.toInt 0 = 0 := rfl
      rw [a] at this; omega
    have hneg : ¬ (Int64.ofNat l.length < 0) := by
      rw [Int64.lt_iff_toInt_lt, int64_ofNat_toInt _ hl]
      have a : Int64.toInt 0 = 0 := rfl
      rw [a]; omega
    rw [List.append_assoc, List.append_assoc, readBlocks]
    have e := readLong_writeLong (Int64.ofNat l.length)
      (l.flatMap (fun e => writeString e.1 ++ writeString e.2) ++ (writeLong 0 ++ rest))
    split
    · next hh => rw [e] at hh; contradiction
    · next blk bs1 hh =>
      rw [e] at hh
      simp only [Option.some.injEq, Prod.mk.injEq] at hh
      obtain ⟨rfl, rfl⟩ := hh
      rw [if_neg hpos, if_neg hneg]
      have e2 := readEntries_write l ∅ (writeLong 0 ++ rest) h
      rw [int64_ofNat_toNat _ hl]
      split
      · next hh => rw [e2] at hh; contradiction
      · next m' bs3 hh =>
        rw [e2] at hh
        simp only [Option.some.injEq, Prod.mk.injEq] at hh
        obtain ⟨rfl, rfl⟩ := hh
        rw [readBlocks]
        have e3 := readLong_writeLong 0 rest
        split
        · next hh => rw [e3] at hh; contradiction
        · next blk bs1 hh =>
          rw [e3] at hh
          simp only [Option.some.injEq, Prod.mk.injEq] at hh
          obtain ⟨rfl, rfl⟩ := hh
          rw [if_pos rfl]

/-! ## Extension stability: a successful decode is not changed by more input -/

/-- A decoder that succeeded still succeeds, with the same value, if more input follows. -/
def Stable {α} (d : Dec α) : Prop :=
  ∀ bs a rest ext, d bs = some (a, rest) → d (bs ++ ext) = some (a, rest ++ ext)

theorem Stable.bind {α β} {d : Dec α} {f : α → Dec β} (hd : Stable d) (hf : ∀ a, Stable (f a)) :
    Stable (d >>= f) := by
  intro bs b rest ext h
  obtain ⟨a, s', h1, h2⟩ := Dec.bind_eq_some.mp h
  rw [Dec.bind_of_some (hd _ _ _ ext h1)]
  exact hf a _ _ _ ext h2

theorem Stable.pure {α} (a : α) : Stable (pure a : Dec α) := by
  intro bs b rest ext h
  have := Dec.pure_eq_some.mp h
  simp only [Prod.mk.injEq] at this
  obtain ⟨rfl, rfl⟩ := this
  rfl

theorem Stable.failure {α} : Stable (failure : Dec α) := by
  intro bs b rest ext h; contradiction

theorem readLongLoop_stable (bs : List UInt8) (v s a rest) (ext : List UInt8)
    (h : readLongLoop v s bs = some (a, rest)) : readLongLoop v s (bs ++ ext) = some (a, rest ++ ext) := by
  induction bs generalizing v s with
  | nil => simp [readLongLoop] at h
  | cons b bs ih =>
    simp only [readLongLoop, List.cons_append] at h ⊢
    split
    · next hb =>
      rw [if_pos hb] at h
      simp only [Option.some.injEq, Prod.mk.injEq] at h
      rw [h.1, h.2]
    · next hb =>
      rw [if_neg hb] at h
      exact ih _ _ h

theorem readLong_stable : Stable readLong := by
  intro bs a rest ext h
  unfold readLong at h ⊢
  split at h
  · contradiction
  · next hl =>
    simp only [Option.some.injEq, Prod.mk.injEq] at h
    obtain ⟨rfl, rfl⟩ := h
    rw [readLongLoop_stable _ _ _ _ _ ext hl]

theorem readFull_stable (n : Nat) : Stable (readFull n) := by
  intro bs a rest ext h
  unfold readFull at h ⊢
  split at h
  · next hn =>
    simp only [Option.some.injEq, Prod.mk.injEq] at h
    obtain ⟨rfl, rfl⟩ := h
    rw [if_pos (by simp; omega), List.take_append_of_le_length hn, List.drop_append_of_le_length hn]
  · contradiction

theorem readString_stable : Stable readBinaryString := by
  unfold readBinaryString
  apply readLong_stable.bind
  intro len
  split
  · exact Stable.failure
  · split
    · exact Stable.pure _
    · exact readFull_stable _

theorem readEntries_stable (n : Nat) (m : TagMap) : Stable (readEntries n m) := by
  induction n generalizing m with
  | zero => exact Stable.pure _
  | succ n ih =>
    apply readString_stable.bind; intro k
    apply readString_stable.bind; intro v
    exact ih _

theorem readBlocks_stable (m : TagMap) (bs : List UInt8) (a rest ext)
    (h : readBlocks m bs = some (a, rest)) : readBlocks m (bs ++ ext) = some (a, rest ++ ext) := by
  induction hn : bs.length using Nat.strongRecOn generalizing m bs with
  | ind n ih =>
    rw [readBlocks] at h
    split at h
    · contradiction
    · next blk bs1 h1 =>
      have l1 := readLong_length h1
      have s1 := readLong_stable _ _ _ ext h1
      rw [readBlocks]
      split
      · next hh => rw [s1] at hh; contradiction
      · next blk' bs1' hh =>
        rw [s1] at hh
        simp only [Option.some.injEq, Prod.mk.injEq] at hh
        obtain ⟨rfl, rfl⟩ := hh
        split
        · next hz =>
          rw [if_pos hz] at h
          simp only [Option.some.injEq, Prod.mk.injEq] at h
          obtain ⟨rfl, rfl⟩ := h
          rfl
        · next hz =>
          rw [if_neg hz] at h
          split
          · next hneg =>
            rw [if_pos hneg] at h
            split at h
            · contradiction
            · next x bs2 h2 =>
              have l2 := readLong_length h2
              have s2 := readLong_stable _ _ _ ext h2
              split
              · next hh => rw [s2] at hh; contradiction
              · next hh =>
                rw [s2] at hh
                simp only [Option.some.injEq, Prod.mk.injEq] at hh
                obtain ⟨rfl, rfl⟩ := hh
                split at h
                · contradiction
                · next m' bs3 h3 =>
                  have l3 := readEntries_length h3
                  have s3 := readEntries_stable _ _ _ _ _ ext h3
                  split
                  · next hh => rw [s3] at hh; contradiction
                  · next hh =>
                    rw [s3] at hh
                    simp only [Option.some.injEq, Prod.mk.injEq] at hh
                    obtain ⟨rfl, rfl⟩ := hh
                    simp only at l1 l2 l3
                    exact ih _ (by omega) _ _ h rfl
          · next hneg =>
            rw [if_neg hneg] at h
            split at h
            · contradiction
            · next m' bs3 h3 =>
              have l3 := readEntries_length h3
              have s3 := readEntries_stable _ _ _ _ _ ext h3
              split
              · next hh => rw [s3] at hh; contradiction
              · next hh =>
                rw [s3] at hh
                simp only [Option.some.injEq, Prod.mk.injEq] at hh
                obtain ⟨rfl, rfl⟩ := hh
                simp only at l1 l3
                exact ih _ (by omega) _ _ h rfl

theorem readMapString_stable : Stable readMapString :=
  fun bs a rest ext h => readBlocks_stable _ bs a rest ext h

theorem binaryDecode_stable : Stable binaryDecode := by
  unfold binaryDecode
  repeat' first
    | exact Stable.pure _
    | (apply readLong_stable.bind; intro _)
    | (apply readString_stable.bind; intro _)
    | (apply readMapString_stable.bind; intro _)

end Verif
