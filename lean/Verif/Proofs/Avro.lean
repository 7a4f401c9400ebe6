import Verif.Spec.Avro
import Verif.Proofs.Binary

/-!
# Reading and writing Avro
-/

namespace Verif

open Spec

/-! ## Numbers -/

/-- One group of bits. -/
theorem or_group (v x : UInt64) (s : Nat) (hv : v.toNat < 2 ^ s) (hx : x.toNat < 128) :
    (v ||| goShl x s).toNat = (v.toNat + x.toNat * 2 ^ s) % 2 ^ 64 ∧ (v ||| goShl x s).toNat < 2 ^ (s + 7) := by
  have hlt : v.toNat + x.toNat * 2 ^ s < 2 ^ (s + 7) := by
    have : x.toNat * 2 ^ s ≤ 127 * 2 ^ s := Nat.mul_le_mul_right _ (by omega)
    rw [Nat.pow_add]
    omega
  by_cases hs : s < 64
  · have hshift : (goShl x s).toNat = 2 ^ s * (x.toNat % 2 ^ (64 - s)) := by
      unfold goShl
      rw [if_pos hs, UInt64.toNat_shiftLeft, UInt64.toNat_ofNat']
      have h1 : s % 2 ^ 64 % 64 = s := by omega
      rw [h1, Nat.shiftLeft_eq, show (2 : Nat) ^ 64 = 2 ^ s * 2 ^ (64 - s) by rw [← Nat.pow_add]; congr 1; omega, Nat.mul_comm, Nat.mul_mod_mul_left]
    have hor : (v ||| goShl x s).toNat = v.toNat + 2 ^ s * (x.toNat % 2 ^ (64 - s)) := by
      rw [UInt64.toNat_or, hshift, Nat.or_comm, ← Nat.two_pow_add_eq_or_of_lt hv, Nat.add_comm]
    have hmod : (v.toNat + x.toNat * 2 ^ s) % 2 ^ 64 = v.toNat + 2 ^ s * (x.toNat % 2 ^ (64 - s)) := by
      have h2 : 2 ^ 64 = 2 ^ s * 2 ^ (64 - s) := by rw [← Nat.pow_add]; congr 1; omega
      have h3 := Nat.div_add_mod x.toNat (2 ^ (64 - s))
      have h4 : v.toNat + x.toNat * 2 ^ s = (v.toNat + 2 ^ s * (x.toNat % 2 ^ (64 - s))) + 2 ^ 64 * (x.toNat / 2 ^ (64 - s)) := by
        rw [h2]
        conv => lhs; rw [← h3]
        rw [Nat.add_mul, Nat.mul_comm (2 ^ (64 - s)), Nat.mul_assoc, Nat.mul_comm (x.toNat / 2 ^ (64 - s)), Nat.mul_comm (2 ^ (64 - s)) (2 ^ s), Nat.mul_comm (x.toNat % 2 ^ (64 - s))]
        omega
      rw [h4, Nat.add_mul_mod_self_left, Nat.mod_eq_of_lt]
      rw [← hor]
      exact (v ||| goShl x s).toNat_lt
    exact ⟨by rw [hor, hmod], by rw [hor, ← hmod]; exact Nat.lt_of_le_of_lt (Nat.mod_le _ _) hlt⟩
  · have h0 : goShl x s = 0 := by unfold goShl; rw [if_neg hs]
    rw [h0, UInt64.or_zero]
    have h2 : 2 ^ s = 2 ^ 64 * 2 ^ (s - 64) := by rw [← Nat.pow_add]; congr 1; omega
    refine ⟨?_, Nat.lt_of_lt_of_le hv (Nat.pow_le_pow_right (by decide) (by omega))⟩
    rw [h2, ← Nat.mul_assoc, Nat.mul_comm x.toNat, Nat.mul_assoc, Nat.add_mul_mod_self_left, Nat.mod_eq_of_lt v.toNat_lt]

theorem group_byte (b : UInt8) : (b < 128 → (b &&& 127).toUInt64.toNat = b.toNat ∧ (b &&& 128 == 0) = true) ∧ (128 ≤ b → (b &&& 127).toUInt64.toNat = b.toNat - 128 ∧ (b &&& 128 == 0) = false) := by
  have key : ∀ b : UInt8, (b < 128 → (b &&& 127).toUInt64.toNat = b.toNat ∧ (b &&& 128 == 0) = true) ∧ (128 ≤ b → (b &&& 127).toUInt64.toNat = b.toNat - 128 ∧ (b &&& 128 == 0) = false) := by
    intro b
    have : ∀ n : Fin 256, (UInt8.ofFin n < 128 → (UInt8.ofFin n &&& 127).toUInt64.toNat = (UInt8.ofFin n).toNat ∧ (UInt8.ofFin n &&& 128 == 0) = true) ∧
        (128 ≤ UInt8.ofFin n → (UInt8.ofFin n &&& 127).toUInt64.toNat = (UInt8.ofFin n).toNat - 128 ∧ (UInt8.ofFin n &&& 128 == 0) = false) := by decide +kernel
    exact this b.toFin
  exact key b

theorem readLongLoop_varint {m : Nat} {c : List UInt8} (h : Varint m c) : ∀ (v : UInt64) (s : Nat) (rest : List UInt8), v.toNat < 2 ^ s →
    readLongLoop v s (c ++ rest) = some (UInt64.ofNat (v.toNat + m * 2 ^ s), rest) := by
  induction h with
  | @last b hb =>
    intro v s rest hv
    obtain ⟨h1, h2⟩ := (group_byte b).1 hb
    have hx : (b &&& 127).toUInt64.toNat < 128 := by rw [h1]; exact UInt8.lt_iff_toNat_lt.mp hb
    obtain ⟨h3, _⟩ := or_group v _ s hv hx
    show readLongLoop v s (b :: rest) = _
    rw [readLongLoop]
    simp only [h2, if_true]
    refine congrArg some (Prod.ext ?_ rfl)
    refine UInt64.toNat_inj.mp ?_
    rw [h3, h1, UInt64.toNat_ofNat']
  | @more b n bs hb _ ih =>
    intro v s rest hv
    obtain ⟨h1, h2⟩ := (group_byte b).2 hb
    have hlt : b.toNat < 256 := b.toNat_lt
    have hx : (b &&& 127).toUInt64.toNat < 128 := by rw [h1]; omega
    obtain ⟨h3, h4⟩ := or_group v _ s hv hx
    show readLongLoop v s (b :: (bs ++ rest)) = _
    rw [readLongLoop]
    simp only [h2, Bool.false_eq_true, if_false]
    rw [ih _ _ _ h4, h3, h1]
    refine congrArg some (Prod.ext ?_ rfl)
    refine UInt64.toNat_inj.mp ?_
    rw [UInt64.toNat_ofNat', UInt64.toNat_ofNat', Nat.mod_add_mod]
    congr 1
    rw [Nat.pow_add, Nat.add_mul]
    have : n * (2 ^ s * 2 ^ 7) = 128 * n * 2 ^ s := by rw [Nat.mul_comm 128 n, Nat.mul_assoc, Nat.mul_comm (2 ^ s)]
    omega

theorem readLongLoop_sound {bs rest : List UInt8} {v u : UInt64} {s : Nat} (h : readLongLoop v s bs = some (u, rest)) : ∃ m c, bs = c ++ rest ∧ Varint m c := by
  induction bs generalizing v s with
  | nil => cases h
  | cons b bs ih =>
    rw [readLongLoop] at h
    by_cases hb : b < 128
    · have h2 := ((group_byte b).1 hb).2
      simp only [h2, if_true] at h
      cases h
      exact ⟨_, [b], rfl, .last hb⟩
    · have hb : 128 ≤ b := by
        rw [UInt8.le_iff_toNat_le]
        rw [UInt8.lt_iff_toNat_lt] at hb
        omega
      have h2 := ((group_byte b).2 hb).2
      simp only [h2, Bool.false_eq_true, if_false] at h
      obtain ⟨m, c, rfl, hm⟩ := ih h
      exact ⟨_, b :: c, rfl, .more hb hm⟩

/-- What a number stands for. -/
theorem unzigzag (v : UInt64) : Spec.zigzag ((v >>> 1).toInt64 ^^^ (-(v &&& 1).toInt64)).toInt = v.toNat := by
  have h1 : (v >>> 1).toNat = v.toNat / 2 := by rw [UInt64.toNat_shiftRight]; simp [Nat.shiftRight_eq_div_pow]
  have hand : (v &&& 1).toNat = v.toNat % 2 := by
    rw [UInt64.toNat_and]
    exact Nat.and_two_pow_sub_one_eq_mod v.toNat 1
  have hv := v.toNat_lt
  have hhalf : (v >>> 1).toInt64.toInt = (v.toNat / 2 : Nat) := by
    show (v >>> 1).toBitVec.toInt = _
    rw [BitVec.toInt_eq_toNat_of_lt]
    · exact congrArg Int.ofNat h1
    · show 2 * (v >>> 1).toNat < 2 ^ 64
      omega
  rcases Nat.mod_two_eq_zero_or_one v.toNat with h0 | h0
  · have e : v &&& 1 = 0 := UInt64.toNat_inj.mp (by rw [hand, h0]; rfl)
    rw [e, show -(0 : UInt64).toInt64 = 0 from by decide, Int64.xor_zero, hhalf]
    unfold Spec.zigzag
    rw [if_pos (by omega)]
    omega
  · have e : v &&& 1 = 1 := UInt64.toNat_inj.mp (by rw [hand, h0]; rfl)
    have hnot : (v >>> 1).toInt64 ^^^ (-(1 : UInt64).toInt64) = ~~~ (v >>> 1).toInt64 := by
      rw [show -(1 : UInt64).toInt64 = -1 from by decide, Int64.xor_neg_one]
    rw [e, hnot]
    have hi : (~~~ (v >>> 1).toInt64).toInt = -(v.toNat / 2 : Nat) - 1 := by
      have : ~~~ (v >>> 1).toInt64 = -(v >>> 1).toInt64 - 1 := by
        rw [Int64.not_eq_neg_sub]
      have hb : (~~~ (v >>> 1).toInt64).toInt = (~~~ (v >>> 1).toBitVec).toInt := rfl
      rw [hb, BitVec.toInt_not]
      have hn : ((v >>> 1).toBitVec.toNat : Int) = (v.toNat / 2 : Nat) := congrArg Int.ofNat h1
      rw [hn]
      rw [Int.bmod_def]
      split <;> omega
    rw [hi]
    unfold Spec.zigzag
    rw [if_neg (by omega)]
    omega

theorem zigzag_inj {n m : Int} (h : Spec.zigzag n = Spec.zigzag m) : n = m := by
  unfold Spec.zigzag at h
  split at h <;> split at h <;> omega

theorem readLong_iff {bs rest : List UInt8} {n : Int64} : readLong bs = some (n, rest) ↔ ∃ c, bs = c ++ rest ∧ Avro.lenient.long n c := by
  have key : ∀ (m : Nat) (c : List UInt8), Varint m c → ∃ k : Int64, readLong (c ++ rest) = some (k, rest) ∧ Spec.zigzag k.toInt = m % 2 ^ 64 := by
    intro m c hc
    have h0 : (0 : UInt64).toNat = 0 := rfl
    have := readLongLoop_varint hc 0 0 rest (by decide)
    rw [h0, Nat.zero_add, Nat.pow_zero, Nat.mul_one] at this
    refine ⟨((UInt64.ofNat m >>> 1).toInt64 ^^^ (-(UInt64.ofNat m &&& 1).toInt64)), ?_, ?_⟩
    · unfold readLong
      rw [this]
    · rw [unzigzag, UInt64.toNat_ofNat']
  constructor
  · intro h
    have h' := h
    unfold readLong at h'
    cases hl : readLongLoop 0 0 bs with
    | none => rw [hl] at h'; cases h'
    | some r =>
      obtain ⟨u, rest'⟩ := r
      rw [hl] at h'
      cases h'
      obtain ⟨m, c, rfl, hc⟩ := readLongLoop_sound hl
      obtain ⟨k, hk, hz⟩ := key m c hc
      rw [h] at hk
      cases hk
      exact ⟨c, rfl, m, hc, hz.symm⟩
  · rintro ⟨c, rfl, m, hc, hz⟩
    obtain ⟨k, hk, hz'⟩ := key m c hc
    rw [hk, Int64.toInt_inj.mp (zigzag_inj (hz'.trans hz))]

/-! ## Writing numbers -/

theorem encodeIntLoop_varint (e : UInt64) (he : e ≠ 0) : Varint e.toNat (encodeIntLoop e) ∧ (encodeIntLoop e).getLast? ≠ some 0 ∧ encodeIntLoop e ≠ [] := by
  have ih : ∀ n, ∀ e : UInt64, e.toNat = n → e ≠ 0 → Varint e.toNat (encodeIntLoop e) ∧ (encodeIntLoop e).getLast? ≠ some 0 ∧ encodeIntLoop e ≠ [] := by
    intro n
    induction n using Nat.strongRecOn with
    | ind n ih =>
      intro e hn he
      have hpos : 0 < e.toNat := by
        rcases Nat.eq_zero_or_pos e.toNat with h | h
        · exact absurd (UInt64.toNat_inj.mp (by simpa using h)) he
        · exact h
      have hgt : e > 0 := by rw [gt_iff_lt, UInt64.lt_iff_toNat_lt]; simpa using hpos
      have hm : (e &&& 127).toNat = e.toNat % 128 := by
        rw [UInt64.toNat_and]
        exact Nat.and_two_pow_sub_one_eq_mod e.toNat 7
      have hx : (e &&& 127).toUInt8.toNat = e.toNat % 128 := by
        rw [UInt64.toNat_toUInt8, hm]; omega
      have h7 := u64_toNat_shr7 e
      rw [encodeIntLoop]
      simp only [hgt, dite_true]
      by_cases hz : e >>> 7 = 0
      · have h0 : e.toNat / 128 = 0 := by rw [← h7, hz]; rfl
        rw [hz, show encodeIntLoop 0 = [] by rw [encodeIntLoop]; simp]
        simp only [ne_eq, not_true_eq_false, if_false]
        refine ⟨?_, ?_, by simp⟩
        · have hlt : (e &&& 127).toUInt8 < 128 := by rw [UInt8.lt_iff_toNat_lt, hx]; exact Nat.mod_lt _ (by decide)
          have := Varint.last hlt
          rw [hx] at this
          rwa [show e.toNat = e.toNat % 128 by omega]
        · intro h
          have h := (List.cons.inj (Option.some.inj (show some [(e &&& 127).toUInt8] = some [0] by simpa using h))).1
          have := congrArg UInt8.toNat h
          rw [hx] at this
          have h0' : (0 : UInt8).toNat = 0 := rfl
          omega
      · simp only [ne_eq, hz, not_false_eq_true, if_true]
        have hlt : (e >>> 7).toNat < n := by rw [h7]; omega
        obtain ⟨i1, i2, i3⟩ := ih _ hlt (e >>> 7) rfl hz
        have hor : ((e &&& 127).toUInt8 ||| 128).toNat = e.toNat % 128 + 128 := by
          have key : ∀ n : Fin 128, (UInt8.ofNat n.val ||| 128).toNat = n.val + 128 := by decide +kernel
          have := key ⟨e.toNat % 128, Nat.mod_lt _ (by decide)⟩
          rw [show UInt8.ofNat (e.toNat % 128) = (e &&& 127).toUInt8 from UInt8.toNat_inj.mp (by rw [hx, UInt8.toNat_ofNat']; omega)] at this
          exact this
        refine ⟨?_, ?_, by simp⟩
        · have := Varint.more (b := (e &&& 127).toUInt8 ||| 128) (by rw [UInt8.le_iff_toNat_le, hor]; show 128 ≤ _; omega) i1
          rw [hor, h7] at this
          rwa [show e.toNat % 128 + 128 - 128 + 128 * (e.toNat / 128) = e.toNat by omega] at this
        · cases hl : encodeIntLoop (e >>> 7) with
          | nil => exact absurd hl i3
          | cons x l =>
            rw [hl] at i2
            simpa using i2
  exact ih _ e rfl he

theorem writeLong_plain (r : Int64) (limit : Nat) : (Avro.plain limit).long r (writeLong r) := by
  have hz := unzigzag ((r <<< 1) ^^^ (r >>> 63)).toUInt64
  rw [Verif.zigzag r] at hz
  show Varint (Spec.zigzag r.toInt) (writeLong r) ∧ Shortest (writeLong r)
  rw [hz]
  unfold writeLong encodeInt
  generalize ((r <<< 1) ^^^ (r >>> 63)).toUInt64 = e
  split
  · next h =>
    subst h
    exact ⟨Varint.last (b := 0) (by decide), .inl rfl⟩
  · next h =>
    obtain ⟨h1, h2, _⟩ := encodeIntLoop_varint e h
    exact ⟨h1, .inr h2⟩

/-! ## Reading everything else -/

/-- The texts that a decoder takes from the input, with the values it makes of them. -/
def Takes {α : Type} (d : Dec α) (P : α → List UInt8 → Prop) : Prop := ∀ (bs rest : List UInt8) (x : α), d bs = some (x, rest) ↔ ∃ c, bs = c ++ rest ∧ P x c

theorem takes_bind {α β : Type} {d : Dec α} {f : α → Dec β} {P : α → List UInt8 → Prop} {Q : α → β → List UInt8 → Prop} (hd : Takes d P) (hf : ∀ x, Takes (f x) (Q x)) :
    Takes (d >>= f) (fun y c => ∃ x c1 c2, c = c1 ++ c2 ∧ P x c1 ∧ Q x y c2) := by
  intro bs rest y
  rw [Dec.bind_eq_some]
  constructor
  · rintro ⟨x, bs', h1, h2⟩
    obtain ⟨c1, rfl, hP⟩ := (hd _ _ _).mp h1
    obtain ⟨c2, rfl, hQ⟩ := (hf x _ _ _).mp h2
    exact ⟨c1 ++ c2, by rw [List.append_assoc], x, c1, c2, rfl, hP, hQ⟩
  · rintro ⟨c, rfl, x, c1, c2, rfl, hP, hQ⟩
    exact ⟨x, c2 ++ rest, (hd _ _ _).mpr ⟨c1, by rw [List.append_assoc], hP⟩, (hf x _ _ _).mpr ⟨c2, rfl, hQ⟩⟩

theorem takes_pure {α : Type} (a : α) : Takes (pure a : Dec α) (fun y c => y = a ∧ c = []) := by
  intro bs rest y
  rw [Dec.pure_eq_some]
  constructor
  · intro h
    cases h
    exact ⟨[], rfl, rfl, rfl⟩
  · rintro ⟨c, rfl, rfl, rfl⟩
    rfl

theorem takes_long : Takes readLong Avro.lenient.long := fun _ _ _ => readLong_iff

theorem takes_text : Takes readBinaryString Avro.lenient.Text := by
  intro bs rest s
  unfold readBinaryString
  rw [Dec.bind_eq_some]
  constructor
  · rintro ⟨len, bs1, h1, h2⟩
    obtain ⟨c, rfl, hc⟩ := readLong_iff.mp h1
    split at h2
    · cases h2
    · next hr =>
      unfold lengthRefused at hr
      rw [not_or, Int64.not_lt, Int64.le_iff_toInt_le] at hr
      have hr2 : ¬ (2147483647 : Int64) < len := hr.2
      rw [Int64.lt_iff_toInt_lt] at hr2
      have e0 : (0 : Int64).toInt = 0 := rfl
      have e1 : (2147483647 : Int64).toInt = 2147483647 := rfl
      rw [e0] at hr
      rw [e1] at hr2
      split at h2
      · next hz =>
        cases Dec.pure_eq_some.mp h2
        subst hz
        exact ⟨c, rfl, by decide, 0, c, hc, rfl, (List.append_nil c).symm⟩
      · unfold readFull at h2
        split at h2
        · next hn =>
          cases h2
          refine ⟨c ++ bs1.take len.toInt.toNat, by rw [List.append_assoc, List.take_append_drop], ?_, len, c, hc, ?_, rfl⟩
          · show _ < 2 ^ 31
            rw [List.length_take]
            omega
          · rw [List.length_take]
            omega
        · cases h2
  · rintro ⟨c, rfl, hlim, n, b, hb, hn, rfl⟩
    have hlim : s.length < 2 ^ 31 := hlim
    refine ⟨n, s ++ rest, readLong_iff.mpr ⟨b, by rw [List.append_assoc], hb⟩, ?_⟩
    have e0 : (0 : Int64).toInt = 0 := rfl
    have e1 : (2147483647 : Int64).toInt = 2147483647 := rfl
    have hr : ¬ lengthRefused n := by
      unfold lengthRefused
      rw [gt_iff_lt, Int64.lt_iff_toInt_lt, Int64.lt_iff_toInt_lt, e0, e1]
      omega
    rw [if_neg hr]
    by_cases hz : n = 0
    · rw [if_pos hz]
      subst hz
      have : s = [] := List.length_eq_zero_iff.mp (by omega)
      subst this
      rfl
    · rw [if_neg hz]
      unfold readFull
      rw [show n.toInt.toNat = s.length by omega, if_pos (by rw [List.length_append]; omega), List.take_left, List.drop_left]

theorem takes_entries (n : Nat) (m : TagMap) : Takes (readEntries n m) (fun m' c => ∃ es, es.length = n ∧ Avro.lenient.Entries es c ∧ m' = insertAll es m) := by
  induction n generalizing m with
  | zero =>
    intro bs rest m'
    rw [show readEntries 0 m = pure m from rfl, takes_pure m bs rest m']
    constructor
    · rintro ⟨c, rfl, rfl, rfl⟩
      exact ⟨[], rfl, [], rfl, .nil, rfl⟩
    · rintro ⟨c, rfl, es, hl, he, rfl⟩
      cases List.length_eq_zero_iff.mp hl
      cases he
      exact ⟨[], rfl, rfl, rfl⟩
  | succ n ih =>
    intro bs rest m'
    rw [show readEntries (n + 1) m = (readBinaryString >>= fun key => readBinaryString >>= fun val => readEntries n (m.insert key val)) from rfl,
      takes_bind takes_text (fun key => takes_bind takes_text fun val => ih (m.insert key val)) bs rest m']
    constructor
    · rintro ⟨c, rfl, k, c1, _, rfl, hk, v, c2, c3, rfl, hv, es, rfl, he, rfl⟩
      exact ⟨_, rfl, (k, v) :: es, rfl, .cons hk hv he, rfl⟩
    · rintro ⟨c, rfl, es, hl, he, rfl⟩
      cases he with
      | nil => cases hl
      | @cons k v es b1 b2 b3 hk hv he => exact ⟨_, rfl, k, b1, _, rfl, hk, v, b2, b3, rfl, hv, es, Nat.succ.inj hl, he, rfl⟩

theorem readBlocks_bind (m : TagMap) : readBlocks m = (readLong >>= fun blk => if blk = 0 then pure m else if blk < 0 then readLong >>= fun _ => readEntries (-blk).toInt.toNat m >>= readBlocks else
    readEntries blk.toInt.toNat m >>= readBlocks : Dec TagMap) := by
  funext bs
  rw [readBlocks]
  show _ = Option.bind _ _
  split
  · next h => rw [h]; rfl
  · next blk bs1 h =>
    rw [h]
    show _ = (if blk = 0 then pure m else if blk < 0 then readLong >>= fun _ => readEntries (-blk).toInt.toNat m >>= readBlocks else readEntries blk.toInt.toNat m >>= readBlocks : Dec TagMap) bs1
    by_cases h0 : blk = 0
    · rw [if_pos h0, if_pos h0]; rfl
    · rw [if_neg h0, if_neg h0]
      by_cases h1 : blk < 0
      · rw [if_pos h1, if_pos h1]
        show _ = Option.bind _ _
        split
        · next h => rw [h]; rfl
        · next bs2 h2 =>
          rw [h2]
          show _ = (readEntries (-blk).toInt.toNat m >>= readBlocks : Dec TagMap) bs2
          show _ = Option.bind _ _
          split
          · next h => rw [h]; rfl
          · next h3 => rw [h3]; rfl
      · rw [if_neg h1, if_neg h1]
        show _ = Option.bind _ _
        split
        · next h => rw [h]; rfl
        · next h3 => rw [h3]; rfl

theorem neg_count (n : Int64) (h : n.toInt < 0) : (-n).toInt.toNat = if n.toInt = -2 ^ 63 then 0 else (-n.toInt).toNat := by
  rw [Int64.toInt_neg]
  have := Int64.le_toInt n
  rw [Int.bmod_def]
  split <;> split <;> omega

theorem insertAll_append (a b : List (Str × Str)) (m : TagMap) : insertAll (a ++ b) m = insertAll b (insertAll a m) := List.foldl_append

theorem takes_blocks (m : TagMap) : Takes (readBlocks m) (fun m' c => ∃ es, Avro.lenient.Blocks es c ∧ m' = insertAll es m) := by
  intro bs rest m'
  have e0 : (0 : Int64).toInt = 0 := rfl
  constructor
  · suffices ∀ k, ∀ (bs : List UInt8) (m : TagMap), bs.length = k → readBlocks m bs = some (m', rest) → ∃ c, bs = c ++ rest ∧ ∃ es, Avro.lenient.Blocks es c ∧ m' = insertAll es m from this _ bs m rfl
    intro k
    induction k using Nat.strongRecOn with
    | ind k ih =>
      intro bs m hk h'
      rw [readBlocks_bind] at h'
      obtain ⟨blk, bs1, h1, h⟩ := Dec.bind_eq_some.mp h'
      clear h'
      have l1 := readLong_length h1
      obtain ⟨b1, rfl, hb1⟩ := readLong_iff.mp h1
      by_cases h0 : blk = 0
      · rw [if_pos h0] at h
        subst h0
        cases Dec.pure_eq_some.mp h
        exact ⟨b1, rfl, [], .last hb1, rfl⟩
      · rw [if_neg h0] at h
        have hne : blk.toInt ≠ 0 := fun h => h0 (Int64.toInt_inj.mp (h.trans e0.symm))
        by_cases hneg : blk < 0
        · rw [if_pos hneg] at h
          rw [Int64.lt_iff_toInt_lt, e0] at hneg
          have h' := h
          clear h
          obtain ⟨size, bs2, h2, h⟩ := Dec.bind_eq_some.mp h'
          clear h'
          have l2 := readLong_length h2
          obtain ⟨b2, rfl, hb2⟩ := readLong_iff.mp h2
          have h' := h
          clear h
          obtain ⟨m1, bs3, h3, h⟩ := Dec.bind_eq_some.mp h'
          clear h'
          have l3 := readEntries_length h3
          obtain ⟨b3, rfl, es, hes, he, rfl⟩ := (takes_entries _ _ _ _ _).mp h3
          obtain ⟨b4, rfl, es', hB, rfl⟩ := ih bs3.length (by simp only at l1 l2 l3; omega) bs3 _ rfl h
          rw [neg_count blk hneg] at hes
          by_cases hl : blk.toInt = -2 ^ 63
          · rw [if_pos hl] at hes
            cases List.length_eq_zero_iff.mp hes
            cases he
            exact ⟨b1 ++ (b2 ++ b4), by simp only [List.append_assoc, List.nil_append], es', .least trivial hl hb1 hb2 hB, rfl⟩
          · rw [if_neg hl] at hes
            exact ⟨b1 ++ (b2 ++ (b3 ++ b4)), by simp only [List.append_assoc], es ++ es', .sized hneg (fun _ => hl) hb1 hb2 trivial he (by omega) hB, (insertAll_append _ _ _).symm⟩
        · rw [if_neg hneg] at h
          rw [Int64.lt_iff_toInt_lt, e0] at hneg
          have h' := h
          clear h
          obtain ⟨m1, bs3, h3, h⟩ := Dec.bind_eq_some.mp h'
          clear h'
          have l3 := readEntries_length h3
          obtain ⟨b3, rfl, es, hes, he, rfl⟩ := (takes_entries _ _ _ _ _).mp h3
          obtain ⟨b4, rfl, es', hB, rfl⟩ := ih bs3.length (by simp only at l1 l3; omega) bs3 _ rfl h
          exact ⟨b1 ++ (b3 ++ b4), by simp only [List.append_assoc], es ++ es', .block (by omega) hb1 he (by omega) hB, (insertAll_append _ _ _).symm⟩
  · rintro ⟨c, rfl, es, hB, rfl⟩
    induction hB generalizing m with
    | last hb =>
      rw [readBlocks_bind, Dec.bind_of_some (readLong_iff.mpr ⟨_, rfl, hb⟩)]
      rfl
    | @block n es es' b1 b2 b3 hn hb1 he hl hB ih =>
      rw [readBlocks_bind, List.append_assoc, Dec.bind_of_some (readLong_iff.mpr ⟨_, rfl, hb1⟩),
        if_neg (show ¬ n = 0 from fun h => by subst h; omega), if_neg (show ¬ n < 0 by rw [Int64.lt_iff_toInt_lt, e0]; omega), List.append_assoc,
        Dec.bind_of_some ((takes_entries _ _ _ _ _).mpr ⟨_, rfl, es, by omega, he, rfl⟩), ih, insertAll_append]
    | @sized n size es es' b1 b2 b3 b4 hn hle hb1 hb2 _ he hl hB ih =>
      have hc := neg_count n hn
      rw [if_neg (hle trivial)] at hc
      rw [readBlocks_bind, List.append_assoc, Dec.bind_of_some (readLong_iff.mpr ⟨_, rfl, hb1⟩),
        if_neg (show ¬ n = 0 from fun h => by subst h; omega), if_pos (show n < 0 by rw [Int64.lt_iff_toInt_lt, e0]; omega), List.append_assoc,
        Dec.bind_of_some (readLong_iff.mpr ⟨_, rfl, hb2⟩), List.append_assoc,
        Dec.bind_of_some ((takes_entries _ _ _ _ _).mpr ⟨_, rfl, es, by omega, he, rfl⟩), ih, insertAll_append]
    | @least n size es' b1 b2 b3 _ hn hb1 hb2 hB ih =>
      have hc := neg_count n (by omega)
      rw [if_pos hn] at hc
      rw [readBlocks_bind, List.append_assoc, Dec.bind_of_some (readLong_iff.mpr ⟨_, rfl, hb1⟩),
        if_neg (show ¬ n = 0 from fun h => by subst h; rw [e0] at hn; omega), if_pos (show n < 0 by rw [Int64.lt_iff_toInt_lt, e0]; omega), List.append_assoc,
        Dec.bind_of_some (readLong_iff.mpr ⟨_, rfl, hb2⟩), hc]
      exact ih m

/-! ## Maps -/

theorem insertAll_says (es : List (Str × Str)) (m : TagMap) (k v : Str) :
    (insertAll es m)[k]? = some v ↔ (∃ before after, es = before ++ (k, v) :: after ∧ ∀ e ∈ after, e.1 ≠ k) ∨ (m[k]? = some v ∧ ∀ e ∈ es, e.1 ≠ k) := by
  induction es generalizing m with
  | nil =>
    constructor
    · intro h; exact .inr ⟨h, by simp⟩
    · rintro (⟨b, a, h, _⟩ | ⟨h, _⟩)
      · cases b <;> cases h
      · exact h
  | cons e es ih =>
    rw [show insertAll (e :: es) m = insertAll es (m.insert e.1 e.2) from rfl, ih]
    constructor
    · rintro (⟨b, a, rfl, h⟩ | ⟨h, hn⟩)
      · exact .inl ⟨e :: b, a, rfl, h⟩
      · rw [Std.ExtTreeMap.getElem?_insert] at h
        by_cases hk : e.1 = k
        · rw [if_pos (by simp [hk])] at h
          refine .inl ⟨[], es, ?_, hn⟩
          rw [← hk, ← Option.some.inj h]
          rfl
        · rw [if_neg (by simpa using hk)] at h
          exact .inr ⟨h, by simpa using ⟨hk, fun a b hab => hn (a, b) hab⟩⟩
    · rintro (⟨b, a, h1, h⟩ | ⟨h, hn⟩)
      · cases b with
        | nil =>
          cases h1
          exact .inr ⟨by simp, h⟩
        | cons x b =>
          cases h1
          exact .inl ⟨b, a, rfl, h⟩
      · have hk : e.1 ≠ k := hn e List.mem_cons_self
        refine .inr ⟨?_, fun x hx => hn x (List.mem_cons_of_mem _ hx)⟩
        rw [Std.ExtTreeMap.getElem?_insert, if_neg (by simpa using hk)]
        exact h

theorem mapOfEntries_iff (es : List (Str × Str)) (m : TagMap) : MapOfEntries es m ↔ m = insertAll es ∅ := by
  have hi : ∀ k v, (insertAll es ∅)[k]? = some v ↔ ∃ before after, es = before ++ (k, v) :: after ∧ ∀ e ∈ after, e.1 ≠ k := by
    intro k v
    rw [insertAll_says]
    constructor
    · rintro (h | ⟨h, _⟩)
      · exact h
      · simp at h
    · exact .inl
  constructor
  · intro h
    apply Std.ExtTreeMap.ext_getElem?
    intro k
    apply Option.ext
    intro v
    rw [h k v, hi k v]
  · rintro rfl
    exact hi

/-! ## Records -/

theorem decode_record (bs rest : List UInt8) (s : Span) : binaryDecode bs = some (s, rest) ↔ ∃ msg, bs = msg ++ rest ∧ Avro.lenient.Record s msg := by
  have h := takes_bind takes_long fun id => takes_bind takes_long fun trace => takes_bind takes_long fun parent => takes_bind takes_text fun name => takes_bind takes_text fun service =>
    takes_bind takes_long fun timestamp => takes_bind takes_long fun duration => takes_bind takes_long fun cs => takes_bind takes_long fun cr => takes_bind takes_long fun ss =>
    takes_bind takes_long fun sr => takes_bind (takes_blocks ∅) fun tags => takes_pure ({ id, trace, parent, name, service, timestamp, duration, timings := { CS := cs, CR := cr, SS := ss, SR := sr }, tags := some tags } : Span)
  refine (h bs rest s).trans (exists_congr fun msg => and_congr_right fun _ => ?_)
  constructor
  · rintro ⟨id, b1, _, rfl, h1, trace, b2, _, rfl, h2, parent, b3, _, rfl, h3, name, b4, _, rfl, h4, service, b5, _, rfl, h5, timestamp, b6, _, rfl, h6, duration, b7, _, rfl, h7,
      cs, b8, _, rfl, h8, cr, b9, _, rfl, h9, ss, b10, _, rfl, h10, sr, b11, _, rfl, h11, tags, b12, _, rfl, ⟨es, h12, rfl⟩, rfl, rfl⟩
    exact ⟨b1, b2, b3, b4, b5, b6, b7, b8, b9, b10, b11, b12, es, _, h1, h2, h3, h4, h5, h6, h7, h8, h9, h10, h11, h12, (mapOfEntries_iff _ _).mpr rfl, rfl, by rw [List.append_nil]⟩
  · rintro ⟨b1, b2, b3, b4, b5, b6, b7, b8, b9, b10, b11, b12, es, m, h1, h2, h3, h4, h5, h6, h7, h8, h9, h10, h11, h12, hm, ht, rfl⟩
    refine ⟨_, b1, _, rfl, h1, _, b2, _, rfl, h2, _, b3, _, rfl, h3, _, b4, _, rfl, h4, _, b5, _, rfl, h5, _, b6, _, rfl, h6, _, b7, _, rfl, h7, _, b8, _, rfl, h8, _, b9, _, rfl, h9, _, b10, _, rfl, h10,
      _, b11, _, rfl, h11, _, b12, [], by rw [List.append_nil], ⟨es, h12, rfl⟩, ?_, rfl⟩
    rw [mapOfEntries_iff] at hm
    subst hm
    cases s
    cases ht
    rfl

/-! ## What a weaker notation allows -/

/-- Whatever is written in the first way is written in the second. -/
structure Avro.Within (a b : Avro) : Prop where
  long : ∀ n bs, a.long n bs → b.long n bs
  limit : a.limit ≤ b.limit
  size : ∀ n k, a.size n k → b.size n k
  least : ¬ a.least

theorem Avro.Within.text {a b : Avro} (h : Verif.Avro.Within a b) {s : Str} {bs : List UInt8} (ht : a.Text s bs) : b.Text s bs := by
  obtain ⟨h1, n, c, h2, h3, h4⟩ := ht
  exact ⟨Nat.lt_of_lt_of_le h1 h.limit, n, c, h.long _ _ h2, h3, h4⟩

theorem Avro.Within.entries {a b : Avro} (h : Verif.Avro.Within a b) {es : List (Str × Str)} {bs : List UInt8} (he : a.Entries es bs) : b.Entries es bs := by
  induction he with
  | nil => exact .nil
  | cons h1 h2 _ ih => exact .cons (h.text h1) (h.text h2) ih

theorem varint_ne_nil {n : Nat} {bs : List UInt8} (h : Varint n bs) : 1 ≤ bs.length := by
  cases h <;> simp

/-- No more entries than bytes. -/
theorem entries_le {a : Avro} (hl : ∀ n bs, a.long n bs → 1 ≤ bs.length) {es : List (Str × Str)} {bs : List UInt8} (he : a.Entries es bs) : es.length ≤ bs.length := by
  induction he with
  | nil => exact Nat.le_refl _
  | cons h1 _ _ ih =>
    obtain ⟨_, n, c, hc, _, rfl⟩ := h1
    have := hl _ _ hc
    simp only [List.length_append, List.length_cons]
    omega

theorem Avro.Within.blocks {a b : Avro} (h : Verif.Avro.Within a b) (hl : ∀ n bs, a.long n bs → 1 ≤ bs.length) {es : List (Str × Str)} {bs : List UInt8} (hB : a.Blocks es bs) (hsz : bs.length < 2 ^ 63) :
    b.Blocks es bs := by
  induction hB with
  | last hb => exact .last (h.long _ _ hb)
  | block h0 h1 h2 h3 _ ih => exact .block h0 (h.long _ _ h1) (h.entries h2) h3 (ih (by simp only [List.length_append] at hsz; omega))
  | sized h0 h1 h2 h3 h4 h5 h6 _ ih =>
    have := entries_le hl h5
    refine .sized h0 (fun _ hc => ?_) (h.long _ _ h2) (h.long _ _ h3) (h.size _ _ h4) (h.entries h5) h6 (ih (by simp only [List.length_append] at hsz; omega))
    simp only [List.length_append] at hsz
    omega
  | least h0 => exact absurd h0 h.least

theorem Avro.Within.record {a b : Avro} (h : Verif.Avro.Within a b) (hl : ∀ n bs, a.long n bs → 1 ≤ bs.length) {s : Span} {bs : List UInt8} (hsz : bs.length < 2 ^ 63) (hr : a.Record s bs) : b.Record s bs := by
  obtain ⟨b1, b2, b3, b4, b5, b6, b7, b8, b9, b10, b11, b12, es, m, h1, h2, h3, h4, h5, h6, h7, h8, h9, h10, h11, h12, hm, ht, rfl⟩ := hr
  exact ⟨b1, b2, b3, b4, b5, b6, b7, b8, b9, b10, b11, b12, es, m, h.long _ _ h1, h.long _ _ h2, h.long _ _ h3, h.text h4, h.text h5, h.long _ _ h6, h.long _ _ h7, h.long _ _ h8, h.long _ _ h9,
    h.long _ _ h10, h.long _ _ h11, h.blocks hl h12 (by simp only [List.length_append] at hsz; omega), hm, ht, rfl⟩

theorem zigzag_lt (n : Int64) : Spec.zigzag n.toInt < 2 ^ 64 := by
  have h1 := Int64.le_toInt n
  have h2 := Int64.toInt_lt n
  unfold Spec.zigzag
  split <;> omega

theorem standard_within : Avro.Within (Avro.standard (2 ^ 31)) Avro.lenient where
  long n _ h := ⟨_, h, Nat.mod_eq_of_lt (zigzag_lt n)⟩
  limit := Nat.le_refl _
  size _ _ _ := trivial
  least h := h

theorem plain_within (limit : Nat) : Avro.Within (Avro.plain limit) (Avro.standard limit) where
  long _ _ h := h.1
  limit := Nat.le_refl _
  size _ _ h := h.elim
  least h := h

/-! ## Writing -/

theorem writeString_plain (s : Str) {limit : Nat} (h : s.length < limit) (hlim : limit ≤ 2 ^ 63) : (Avro.plain limit).Text s (writeString s) :=
  ⟨h, _, _, writeLong_plain _ _, int64_ofNat_toInt _ (by omega), rfl⟩

theorem writeEntries_plain {limit : Nat} (hlim : limit ≤ 2 ^ 63) (ord : List (Str × Str)) (h : ∀ e ∈ ord, e.1.length < limit ∧ e.2.length < limit) :
    (Avro.plain limit).Entries ord (ord.flatMap fun e => writeString e.1 ++ writeString e.2) := by
  induction ord with
  | nil => exact .nil
  | cons e ord ih =>
    have he := h e List.mem_cons_self
    rw [List.flatMap_cons, List.append_assoc]
    exact .cons (writeString_plain _ he.1 hlim) (writeString_plain _ he.2 hlim) (ih fun x hx => h x (List.mem_cons_of_mem _ hx))

theorem writeMapString_plain {limit : Nat} (hlim : limit ≤ 2 ^ 63) (ord : List (Str × Str)) (hn : ord.length < 2 ^ 63) (h : ∀ e ∈ ord, e.1.length < limit ∧ e.2.length < limit) :
    (Avro.plain limit).Blocks ord (writeMapString ord) := by
  unfold writeMapString
  by_cases h0 : ord.length = 0
  · rw [if_pos h0]
    cases List.length_eq_zero_iff.mp h0
    rw [List.append_nil]
    exact .last (writeLong_plain 0 limit)
  · rw [if_neg h0]
    have := Avro.Blocks.block (a := Avro.plain limit) (n := Int64.ofNat ord.length) (by rw [int64_ofNat_toInt _ hn]; omega) (writeLong_plain _ limit) (writeEntries_plain hlim ord h) (int64_ofNat_toInt _ hn)
      (.last (writeLong_plain 0 limit))
    rwa [List.append_nil] at this

end Verif
