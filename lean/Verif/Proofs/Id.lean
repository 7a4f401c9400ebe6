import Verif.Model.Id
import Verif.Spec.Id
import Mathlib.Tactic.IntervalCases

namespace Verif

/-- A statement about all bytes is a statement about `Fin 256` (so it can be checked exhaustively). -/
theorem forall_uint8 {p : UInt8 → Prop} (h : ∀ n : Fin 256, p (UInt8.ofFin n)) : ∀ c, p c := by
  intro c; have := h c.toFin; simpa using this

theorem int64_ext {a b : Int64} (h : a.toUInt64 = b.toUInt64) : a = b := by
  cases a; cases b; simp at h; rw [h]

open Spec

theorem hexDigitValue_lt : ∀ c : UInt8, ∀ n, hexDigitValue c = some n → n < 16 := by
  have : ∀ c : UInt8, ((hexDigitValue c).getD 0) < 16 := by
    apply forall_uint8; decide +kernel
  intro c n h; have := this c; rw [h] at this; simpa using this

theorem hexDigitValue_isSome : ∀ c : UInt8, (hexDigitValue c).isSome = true ↔ IsHexDigit c := by
  unfold IsHexDigit
  apply forall_uint8; decide +kernel

/-- The digit branch of the model and the spec's digit table agree. -/
theorem parseIdStep_eq (r : Id) (c : UInt8) :
    parseIdStep r c = (hexDigitValue c).map fun d => Int64.ofNat (16 * r.toUInt64.toNat + d) := by
  have key1 : ∀ c : UInt8, (48 ≤ c ∧ c ≤ 57) →
      hexDigitValue c = some (c - 48).toNat ∧ (c - 48).toNat < 16 := by
    apply forall_uint8; decide +kernel
  have key2 : ∀ c : UInt8, (97 ≤ c ∧ c ≤ 102) →
      hexDigitValue c = some ((c - 97).toNat + 10) ∧ (c - 97).toNat < 6 := by
    apply forall_uint8; decide +kernel
  have key3 : ∀ c : UInt8, (65 ≤ c ∧ c ≤ 70) →
      hexDigitValue c = some ((c - 65).toNat + 10) ∧ (c - 65).toNat < 6 := by
    apply forall_uint8; decide +kernel
  have key4 : ∀ c : UInt8, (48 ≤ c ∧ c ≤ 57) ∨ (97 ≤ c ∧ c ≤ 102) ∨ (65 ≤ c ∧ c ≤ 70) ∨
      hexDigitValue c = none := by
    apply forall_uint8; decide +kernel
  have lowOr : ∀ (k : UInt8), k.toNat < 16 →
      ((r <<< 4) ||| idOfByte k) = Int64.ofNat (16 * r.toUInt64.toNat + k.toNat) := by
    intro k hk
    apply int64_ext
    apply UInt64.toNat_inj.mp
    have e0 : (r <<< 4).toUInt64 = r.toUInt64 <<< (4 : UInt64) := rfl
    rw [Int64.toUInt64_or, e0, UInt64.toNat_or, UInt64.toNat_shiftLeft]
    simp only [idOfByte, UInt64.toUInt64_toInt64, UInt8.toNat_toUInt64]
    have e1 : (4 : UInt64).toNat % 64 = 4 := by decide
    have e2 : (Int64.ofNat (16 * r.toUInt64.toNat + k.toNat)).toUInt64 = UInt64.ofNat (16 * r.toUInt64.toNat + k.toNat) := rfl
    rw [e1, e2, UInt64.toNat_ofNat']
    have : r.toUInt64.toNat <<< 4 % 2 ^ 64 = 2 ^ 4 * (r.toUInt64.toNat % 2 ^ 60) := by
      rw [Nat.shiftLeft_eq]; omega
    rw [this, ← Nat.two_pow_add_eq_or_of_lt hk]; omega
  have ofNat_add : ∀ a : Nat, Int64.ofNat a + 10 = Int64.ofNat (a + 10) := by
    intro a; exact (Int64.ofNat_add a 10).symm
  unfold parseIdStep
  split
  · next h => rw [(key1 c h).1, lowOr _ (key1 c h).2]; rfl
  · split
    · next h h2 =>
      have := key2 c h2
      rw [this.1, lowOr _ (by omega), ofNat_add]; simp [Nat.add_assoc]
    · split
      · next h h2 h3 =>
        have := key3 c h3
        rw [this.1, lowOr _ (by omega), ofNat_add]; simp [Nat.add_assoc]
      · next h h2 h3 =>
        rcases key4 c with h' | h' | h' | h'
        · exact absurd h' h
        · exact absurd h' h2
        · exact absurd h' h3
        · rw [h']; rfl

theorem foldlM_parseIdStep (bs : Str) (r : Id) :
    bs.foldlM parseIdStep r =
      if ∀ c ∈ bs, IsHexDigit c then
        some (Int64.ofNat (r.toUInt64.toNat * 16 ^ bs.length + hexValue bs)) else none := by
  induction bs generalizing r with
  | nil =>
    simp only [List.foldlM_nil, List.not_mem_nil, false_implies, implies_true, if_true, hexValue]
    show some r = _
    congr 1
    apply int64_ext
    show _ = UInt64.ofNat _
    simp
  | cons c cs ih =>
    rw [List.foldlM_cons, parseIdStep_eq]
    cases hc : hexDigitValue c with
    | none =>
      have : ¬ IsHexDigit c := by
        rw [← hexDigitValue_isSome, hc]; simp
      simp [this]
    | some d =>
      have hd : IsHexDigit c := by rw [← hexDigitValue_isSome, hc]; rfl
      simp only [Option.map_some, Option.bind_eq_bind, Option.bind_some, ih, List.mem_cons,
        forall_eq_or_imp, hd, true_and]
      split
      · congr 1
        apply int64_ext
        apply UInt64.toNat_inj.mp
        show (UInt64.ofNat _).toNat = (UInt64.ofNat _).toNat
        have e2 : (Int64.ofNat (16 * r.toUInt64.toNat + d)).toUInt64 = UInt64.ofNat (16 * r.toUInt64.toNat + d) := rfl
        rw [e2, UInt64.toNat_ofNat', UInt64.toNat_ofNat', UInt64.toNat_ofNat']
        simp only [hexValue, hc, Option.getD_some, List.length_cons]
        have : r.toUInt64.toNat * 16 ^ (cs.length + 1) + (d * 16 ^ cs.length + hexValue cs)
          = (16 * r.toUInt64.toNat + d) * 16 ^ cs.length + hexValue cs := by
            rw [Nat.pow_succ]; grind
        rw [this, Nat.add_mod, Nat.mod_mul_mod, ← Nat.add_mod]
      · rfl

theorem hexEncode_length (bs : List UInt8) : (hexEncode bs).length = 2 * bs.length := by
  induction bs with
  | nil => rfl
  | cons b bs ih => simp only [hexEncode, List.flatMap_cons, List.length_append] at *; simp [ih]; omega

theorem hexTable_facts : ∀ b : UInt8,
    hexDigitValue (hexTable (b >>> 4)) = some (b.toNat / 16) ∧
    hexDigitValue (hexTable (b &&& 0x0f)) = some (b.toNat % 16) ∧
    hexTable (b >>> 4) ∈ hexDigitsLower ∧ hexTable (b &&& 0x0f) ∈ hexDigitsLower := by
  apply forall_uint8; decide +kernel

/-- Value of a big-endian byte string. -/
def beValue : List UInt8 → Nat
  | [] => 0
  | b :: bs => b.toNat * 256 ^ bs.length + beValue bs

theorem hexValue_hexEncode (bs : List UInt8) : hexValue (hexEncode bs) = beValue bs := by
  induction bs with
  | nil => rfl
  | cons b bs ih =>
    have e : hexEncode (b :: bs) = hexTable (b >>> 4) :: hexTable (b &&& 0x0f) :: hexEncode bs := rfl
    rw [e]
    simp only [hexValue, (hexTable_facts b).1, (hexTable_facts b).2.1, Option.getD_some, ih,
      List.length_cons, hexEncode_length, beValue]
    have : (256 : Nat) ^ bs.length = 16 ^ (2 * bs.length) := by
      rw [Nat.pow_mul]
    rw [this, Nat.pow_succ]
    have h := Nat.div_add_mod b.toNat 16
    generalize 16 ^ (2 * bs.length) = K
    grind

theorem hexEncode_lower (bs : List UInt8) : ∀ c ∈ hexEncode bs, c ∈ hexDigitsLower := by
  induction bs with
  | nil => simp [hexEncode]
  | cons b bs ih =>
    have e : hexEncode (b :: bs) = hexTable (b >>> 4) :: hexTable (b &&& 0x0f) :: hexEncode bs := rfl
    rw [e]; intro c hc
    rcases List.mem_cons.mp hc with rfl | hc
    · exact (hexTable_facts b).2.2.1
    · rcases List.mem_cons.mp hc with rfl | hc
      · exact (hexTable_facts b).2.2.2
      · exact ih c hc

theorem byteOf_shift (id : Id) (k : Nat) (hk8 : k ≤ 56) :
    (byteOf ((id >>> Int64.ofNat k) &&& 0xff)).toNat = id.toUInt64.toNat / 2 ^ k % 256 := by
  unfold byteOf
  rw [UInt64.toNat_toUInt8]
  have hk : ((Int64.ofNat k).toBitVec.smod 64).toNat = k := by
    have : (Int64.ofNat k).toBitVec = BitVec.ofNat 64 k := rfl
    rw [this]
    interval_cases k <;> rfl
  have h1 : ((id >>> Int64.ofNat k) &&& 0xff).toUInt64.toNat = ((id.toBitVec.sshiftRight k) &&& 0xff#64).toNat := by
    show ((id >>> Int64.ofNat k) &&& 0xff).toBitVec.toNat = _
    rw [Int64.toBitVec_and, Int64.toBitVec_shiftRight]
    rw [BitVec.sshiftRight', hk]
    rfl
  rw [h1]
  have : id.toUInt64.toNat = id.toBitVec.toNat := rfl
  rw [this]
  apply Nat.eq_of_testBit_eq
  intro i
  have h256 : (256 : Nat) = 2 ^ 8 := rfl
  rw [h256, Nat.testBit_mod_two_pow, Nat.testBit_mod_two_pow, Nat.testBit_div_two_pow]
  by_cases hi : i < 8
  · simp only [hi, decide_true, Bool.true_and]
    rw [BitVec.toNat_and, Nat.testBit_and]
    have : (0xff#64).toNat.testBit i = true := by
      match i, hi with
      | 0, _ | 1, _ | 2, _ | 3, _ | 4, _ | 5, _ | 6, _ | 7, _ => rfl
    rw [this, Bool.and_true]
    show (id.toBitVec.sshiftRight k).getLsbD i = id.toBitVec.getLsbD (i + k)
    rw [BitVec.getLsbD_sshiftRight]
    have h1 : ¬ (64 ≤ i) := by omega
    have h2 : k + i < 64 := by omega
    simp [h1, h2, Nat.add_comm]
  · simp [hi]
end Verif
