import Verif.Spec.Partition
import Verif.Props.Balance
import Mathlib.Data.Int.GCD

/-!
# C158: the partitions of the topic get even shares of the trace ids
-/

namespace Verif
open Spec

/-! ## Counting -/

theorem countBelow_congr {p q : Nat → Bool} : ∀ {n : Nat}, (∀ j, j < n → p j = q j) → countBelow p n = countBelow q n
  | 0, _ => rfl
  | n + 1, h => by
    show countBelow p n + _ = countBelow q n + _
    rw [countBelow_congr fun j hj => h j (by omega), h n (by omega)]

theorem countBelow_add (p : Nat → Bool) (a : Nat) : ∀ b : Nat, countBelow p (a + b) = countBelow p a + countBelow (fun j => p (a + j)) b
  | 0 => rfl
  | b + 1 => by
    show countBelow p (a + b) + _ = countBelow p a + (countBelow _ b + _)
    rw [countBelow_add p a b, Nat.add_assoc]; rfl

/-- The sum of the values below `n`. -/
def sumBelow (f : Nat → Nat) : Nat → Nat
  | 0 => 0
  | n + 1 => sumBelow f n + f n

theorem sumBelow_congr {f g : Nat → Nat} : ∀ {n : Nat}, (∀ j, j < n → f j = g j) → sumBelow f n = sumBelow g n
  | 0, _ => rfl
  | n + 1, h => by
    show sumBelow f n + _ = sumBelow g n + _
    rw [sumBelow_congr fun j hj => h j (by omega), h n (by omega)]

theorem sumBelow_add (f g : Nat → Nat) : ∀ n : Nat, sumBelow (fun j => f j + g j) n = sumBelow f n + sumBelow g n
  | 0 => rfl
  | n + 1 => by
    show sumBelow _ n + (f n + g n) = sumBelow f n + f n + (sumBelow g n + g n)
    rw [sumBelow_add f g n]; omega

theorem countBelow_eq_sum (p : Nat → Bool) : ∀ n : Nat, countBelow p n = sumBelow (fun j => if p j then 1 else 0) n
  | 0 => rfl
  | n + 1 => by
    show countBelow p n + _ = sumBelow _ n + _
    rw [countBelow_eq_sum p n]

theorem countBelow_mul (p : Nat → Bool) (M : Nat) : ∀ k : Nat, countBelow p (k * M) = sumBelow (fun b => countBelow (fun l => p (b * M + l)) M) k
  | 0 => by rw [Nat.zero_mul]; rfl
  | k + 1 => by
    rw [Nat.succ_mul, countBelow_add, countBelow_mul p M k]; rfl

theorem sumBelow_swap (f : Nat → Nat → Bool) (M : Nat) : ∀ k : Nat,
    sumBelow (fun b => countBelow (fun l => f b l) M) k = sumBelow (fun l => countBelow (fun b => f b l) k) M
  | 0 => by
    show 0 = sumBelow (fun _ => 0) M
    induction M with
    | zero => rfl
    | succ M ih => show 0 = sumBelow _ M + 0; exact ih
  | k + 1 => by
    show sumBelow _ k + countBelow (fun l => f k l) M = sumBelow (fun l => countBelow (fun b => f b l) k + if f k l then 1 else 0) M
    rw [sumBelow_swap f M k, countBelow_eq_sum, sumBelow_add]

theorem sumBelow_le {f : Nat → Nat} {c : Nat} (h : ∀ j, f j ≤ c) : ∀ n : Nat, sumBelow f n ≤ c * n
  | 0 => Nat.le_refl 0
  | n + 1 => by
    have h1 := sumBelow_le h n
    have h2 := h n
    show sumBelow f n + f n ≤ c * n + c
    omega

theorem le_sumBelow {f : Nat → Nat} {c : Nat} (h : ∀ j, c ≤ f j) : ∀ n : Nat, c * n ≤ sumBelow f n
  | 0 => Nat.le_refl 0
  | n + 1 => by
    have h1 := le_sumBelow h n
    have h2 := h n
    show c * n + c ≤ sumBelow f n + f n
    omega

/-- Those that are `c` modulo `n`. -/
theorem countBelow_mod (n c : Nat) (hc : c < n) : ∀ b : Nat,
    n * countBelow (fun j => j % n = c) b ≤ b + (n - 1 - c) ∧ b ≤ n * countBelow (fun j => j % n = c) b + c := by
  have key : ∀ b, countBelow (fun j => j % n = c) b = (b + (n - 1 - c)) / n := by
    intro b
    induction b with
    | zero => rw [Nat.div_eq_of_lt (by omega)]; rfl
    | succ b ih =>
      show countBelow _ b + (if decide (b % n = c) = true then 1 else 0) = _
      rw [ih]
      have hd := Nat.div_add_mod b n
      have hm := Nat.mod_lt b (show 0 < n by omega)
      generalize hq : b / n = q at hd
      generalize hr : b % n = r at hd hm ⊢
      have e1 : b + (n - 1 - c) = n * q + (r + (n - 1 - c)) := by omega
      have e2 : b + 1 + (n - 1 - c) = n * q + (r + 1 + (n - 1 - c)) := by omega
      rw [e1, e2, Nat.mul_add_div (by omega), Nat.mul_add_div (by omega)]
      by_cases hrc : r = c
      · subst hrc
        simp only [decide_true, if_true]
        rw [Nat.div_eq_of_lt (by omega), show r + 1 + (n - 1 - r) = n by omega, Nat.div_self (by omega)]
      · simp only [hrc, decide_false, Bool.false_eq_true, if_false, Nat.add_zero]
        by_cases hlt : r < c
        · rw [Nat.div_eq_of_lt (by omega), Nat.div_eq_of_lt (by omega)]
        · have f : ∀ x, n ≤ x → x < 2 * n → x / n = 1 := fun x h1 h2 => by
            rw [show x = n * 1 + (x - n) by omega, Nat.mul_add_div (by omega), Nat.div_eq_of_lt (by omega)]
          rw [f _ (by omega) (by omega), f _ (by omega) (by omega)]
  intro b
  rw [key b]
  have h1 := Nat.div_add_mod (b + (n - 1 - c)) n
  have h2 := Nat.mod_lt (b + (n - 1 - c)) (show 0 < n by omega)
  omega

/-- In a segment. -/
theorem countBelow_segment {n c : Nat} (hc : c < n) (a b : Nat) :
    n * countBelow (fun j => (a + j) % n = c) b ≤ b + (n - 1) ∧ b ≤ n * countBelow (fun j => (a + j) % n = c) b + (n - 1) := by
  have h1 := countBelow_mod n c hc a
  have h2 := countBelow_mod n c hc (a + b)
  rw [countBelow_add, Nat.mul_add] at h2
  omega

/-! ## Exclusive or -/

theorem two_pow_add_xor {k a b : Nat} (ha : a < 2 ^ k) (hb : b < 2 ^ k) (q : Nat) : (2 ^ k * q + a) ^^^ b = 2 ^ k * q + (a ^^^ b) := by
  have hpos : 0 < 2 ^ k := Nat.two_pow_pos k
  have h1 := Nat.div_add_mod ((2 ^ k * q + a) ^^^ b) (2 ^ k)
  rw [Nat.xor_div_two_pow, Nat.xor_mod_two_pow, Nat.mul_add_div hpos, Nat.div_eq_of_lt ha, Nat.div_eq_of_lt hb, Nat.mul_add_mod,
    Nat.mod_eq_of_lt ha, Nat.mod_eq_of_lt hb, Nat.add_zero, Nat.xor_zero] at h1
  exact h1.symm

theorem countBelow_xor : ∀ (k : Nat) (p : Nat → Bool) (r : Nat), r < 2 ^ k → countBelow (fun j => p (r ^^^ j)) (2 ^ k) = countBelow p (2 ^ k)
  | 0, p, r, h => by
    obtain rfl : r = 0 := by simpa using h
    show 0 + (if p (0 ^^^ 0) then 1 else 0) = 0 + if p 0 then 1 else 0
    rfl
  | k + 1, p, r, h => by
    rw [Nat.pow_succ, Nat.mul_two] at h ⊢
    rw [countBelow_add, countBelow_add]
    by_cases hr : r < 2 ^ k
    · rw [countBelow_xor k p r hr]
      have : countBelow (fun j => p (r ^^^ (2 ^ k + j))) (2 ^ k) = countBelow (fun j => p (2 ^ k + (r ^^^ j))) (2 ^ k) := by
        refine countBelow_congr fun j hj => ?_
        have := two_pow_add_xor (k := k) hj hr 1
        rw [Nat.mul_one] at this
        rw [Nat.xor_comm, this, Nat.xor_comm]
      rw [this, countBelow_xor k (fun j => p (2 ^ k + j)) r hr]
    · have h1 : countBelow (fun j => p (r ^^^ j)) (2 ^ k) = countBelow (fun j => p (2 ^ k + ((r - 2 ^ k) ^^^ j))) (2 ^ k) := by
        refine countBelow_congr fun j hj => ?_
        have := two_pow_add_xor (k := k) (a := r - 2 ^ k) (by omega) hj 1
        rw [Nat.mul_one, show 2 ^ k + (r - 2 ^ k) = r by omega] at this
        rw [this]
      have h2 : countBelow (fun j => p (r ^^^ (2 ^ k + j))) (2 ^ k) = countBelow (fun j => p ((r - 2 ^ k) ^^^ j)) (2 ^ k) := by
        refine countBelow_congr fun j hj => ?_
        have h3 := two_pow_add_xor (k := k) (a := r - 2 ^ k) (b := j) (by omega) hj 1
        have h4 := two_pow_add_xor (k := k) (a := (r - 2 ^ k) ^^^ j) (b := 0) (Nat.xor_lt_two_pow (by omega) hj) (Nat.two_pow_pos k) 1
        have h5 : (2 ^ k + j) = 2 ^ k ^^^ j := by
          have := two_pow_add_xor (k := k) (a := 0) (Nat.two_pow_pos k) hj 1
          rw [Nat.mul_one, Nat.add_zero, Nat.zero_xor] at this
          exact this.symm
        have h6 : r = 2 ^ k ^^^ (r - 2 ^ k) := by
          have := two_pow_add_xor (k := k) (a := 0) (b := r - 2 ^ k) (Nat.two_pow_pos k) (by omega) 1
          rw [Nat.mul_one, Nat.add_zero, Nat.zero_xor] at this
          omega
        have h7 : r ^^^ (2 ^ k + j) = (r - 2 ^ k) ^^^ j := by
          rw [h5]
          conv => lhs; rw [h6]
          rw [Nat.xor_comm (2 ^ k) (r - 2 ^ k), Nat.xor_assoc, ← Nat.xor_assoc (2 ^ k), Nat.xor_self, Nat.zero_xor]
        rw [h7]
      rw [h1, h2, countBelow_xor k (fun j => p (2 ^ k + j)) _ (by omega), countBelow_xor k p _ (by omega), Nat.add_comm]

/-! ## The last byte of the key -/

/-- Where an affine function has a given residue. -/
theorem affine_residue {n : Nat} (hn : 0 < n) {Q β : Int} (hb : (n : Int) ∣ Q * β - 1) (A : Int) {r : Nat} (hr : r < n) :
    ∃ c, c < n ∧ ∀ j : Nat, (A + Q * j) % n = r ↔ j % n = c := by
  have hpos : (0 : Int) < n := by omega
  refine ⟨((β * (r - A)) % n).toNat, ?_, ?_⟩
  · have := Int.emod_lt_of_pos (β * (r - A)) hpos
    have := Int.emod_nonneg (β * (r - A)) (show (n : Int) ≠ 0 by omega)
    omega
  · intro j
    have e0 := Int.emod_nonneg (β * (r - A)) (show (n : Int) ≠ 0 by omega)
    have e1 : j % n = ((β * (r - A)) % n).toNat ↔ (j : Int) % n = (β * (r - A)) % n := by omega
    have e2 : ((r : Int)) % n = r := Int.emod_eq_of_lt (by omega) (by omega)
    rw [e1]
    conv => lhs; rhs; rw [← e2]
    rw [Int.emod_eq_emod_iff_emod_sub_eq_zero, Int.emod_eq_emod_iff_emod_sub_eq_zero, ← Int.dvd_iff_emod_eq_zero, ← Int.dvd_iff_emod_eq_zero]
    obtain ⟨d, hd⟩ := hb
    constructor
    · rintro ⟨x, hx⟩
      exact ⟨β * x - d * j, by grind⟩
    · rintro ⟨x, hx⟩
      exact ⟨Q * x + d * (r - A), by grind⟩

/-- The absolute value of a number of 32 bits that is taken for a signed one. -/
def absSigned (v : Nat) : Nat := if v < 2 ^ 31 then v else 2 ^ 32 - v

/-- The prime of FNV is invertible. -/
def Invertible (n : Nat) : Prop := ∃ β : Int, (n : Int) ∣ 16777619 * β - 1

theorem invertible_of_coprime {n : Nat} (h : Nat.gcd 16777619 n = 1) : Invertible n := by
  refine ⟨Nat.gcdA 16777619 n, -Nat.gcdB 16777619 n, ?_⟩
  have h1 := Nat.gcd_eq_gcd_ab 16777619 n
  rw [h] at h1
  have h2 := Int.mul_neg (n : Int) (Nat.gcdB 16777619 n)
  omega

theorem segment_share {n C u a L r : Nat} (hn : 0 < n) (hi : Invertible n) (hr : r < n)
    (hu : ∀ j, j < L → (C + 16777619 * (a + j)) / 2 ^ 31 = u) (hb : u < 4) :
    n * countBelow (fun j => absSigned ((C + 16777619 * (a + j)) % 2 ^ 32) % n = r) L ≤ L + (n - 1) ∧
    L ≤ n * countBelow (fun j => absSigned ((C + 16777619 * (a + j)) % 2 ^ 32) % n = r) L + (n - 1) := by
  obtain ⟨β, hβ⟩ := hi
  have : ∃ c, c < n ∧ ∀ j, j < L → (absSigned ((C + 16777619 * (a + j)) % 2 ^ 32) % n = r ↔ (a + j) % n = c) := by
    by_cases he : u % 2 = 0
    · obtain ⟨c, h1, h2⟩ := affine_residue hn hβ ((C : Int) - 2 ^ 31 * u) hr
      refine ⟨c, h1, fun j hj => ?_⟩
      rw [← h2]
      have h3 := hu j hj
      have h4 : ((absSigned ((C + 16777619 * (a + j)) % 2 ^ 32) : Nat) : Int) = (C : Int) - 2 ^ 31 * u + 16777619 * ((a + j : Nat) : Int) := by
        unfold absSigned
        split <;> omega
      rw [← h4]
      omega
    · obtain ⟨c, h1, h2⟩ := affine_residue (Q := -16777619) (β := -β) hn (by rw [show (-16777619 : Int) * -β = 16777619 * β by omega]; exact hβ) (2 ^ 31 * (u + 1) - (C : Int)) hr
      refine ⟨c, h1, fun j hj => ?_⟩
      rw [← h2]
      have h3 := hu j hj
      have h4 : ((absSigned ((C + 16777619 * (a + j)) % 2 ^ 32) : Nat) : Int) = 2 ^ 31 * (u + 1) - (C : Int) + -16777619 * ((a + j : Nat) : Int) := by
        unfold absSigned
        split <;> omega
      rw [← h4]
      omega
  obtain ⟨c, h1, h2⟩ := this
  rw [countBelow_congr (q := fun j => (a + j) % n = c) fun j hj => by simp only [h2 j hj]]
  exact countBelow_segment h1 a L

theorem cut {C K X : Nat} : ∃ j1, j1 ≤ K ∧ ∀ j, j < K → (C + 16777619 * j < X ↔ j < j1) := by
  induction K with
  | zero => exact ⟨0, Nat.le_refl 0, fun j hj => by omega⟩
  | succ K ih =>
    obtain ⟨j1, h1, h2⟩ := ih
    by_cases h : C + 16777619 * K < X
    · exact ⟨K + 1, Nat.le_refl _, fun j hj => by omega⟩
    · refine ⟨j1, by omega, fun j hj => ?_⟩
      by_cases hj' : j < K
      · exact h2 j hj'
      · omega

theorem byte_share {n C K r : Nat} (hn : 0 < n) (hi : Invertible n) (hr : r < n) (hC : C < 2 ^ 32) (hK : K ≤ 256) :
    n * countBelow (fun j => absSigned ((C + 16777619 * j) % 2 ^ 32) % n = r) K ≤ K + 3 * (n - 1) ∧
    K ≤ n * countBelow (fun j => absSigned ((C + 16777619 * j) % 2 ^ 32) % n = r) K + 3 * (n - 1) := by
  obtain ⟨u, hu⟩ : ∃ u, C / 2 ^ 31 = u := ⟨_, rfl⟩
  obtain ⟨j1, hj1, h1⟩ := cut (C := C) (K := K) (X := 2 ^ 31 * (u + 1))
  obtain ⟨j2, hj2, h2⟩ := cut (C := C) (K := K) (X := 2 ^ 31 * (u + 2))
  have hle : j1 ≤ j2 := by
    by_cases h : j1 ≤ j2
    · exact h
    · have := h1 j2 (by omega)
      have := h2 j2 (by omega)
      omega
  obtain ⟨L2, rfl⟩ : ∃ L, j2 = j1 + L := ⟨j2 - j1, by omega⟩
  obtain ⟨L3, rfl⟩ : ∃ L, K = j1 + L2 + L := ⟨K - (j1 + L2), by omega⟩
  have s1 := segment_share (a := 0) (L := j1) (u := u) (C := C) hn hi hr (fun j hj => by have := (h1 j (by omega)).mpr hj; omega) (by omega)
  have s2 := segment_share (a := j1) (L := L2) (u := u + 1) (C := C) hn hi hr (fun j hj => by
    have := h1 (j1 + j) (by omega)
    have := (h2 (j1 + j) (by omega)).mpr (by omega)
    omega) (by omega)
  have s3 : ∀ r', r' = r → _ := fun r' _ => segment_share (a := j1 + L2) (L := L3) (u := u + 2) (C := C) (r := r') hn hi (by omega) (fun j hj => by
    have := h2 (j1 + L2 + j) (by omega)
    omega)
  rw [countBelow_add, countBelow_add, Nat.mul_add, Nat.mul_add]
  simp only [Nat.zero_add] at s1
  by_cases hL : L3 = 0
  · subst hL
    simp only [countBelow, Nat.mul_zero]
    omega
  · have := h2 (j1 + L2) (by omega)
    have s3 := s3 r rfl (by omega)
    omega

/-! ## The partition -/

theorem hashPartition_eq (key : List UInt8) {n r : Int32} (hn : 0 < n.toInt) (hr : 0 ≤ r.toInt) :
    hashPartition key n = r ↔ absSigned (fnv32a key).toNat % n.toInt.toNat = r.toInt.toNat := by
  have hv := (fnv32a key).toNat_lt
  have hs : ((fnv32a key).toInt32).toInt = if (fnv32a key).toNat < 2 ^ 31 then ((fnv32a key).toNat : Int) else (fnv32a key).toNat - 2 ^ 32 := by
    have : ((fnv32a key).toInt32).toInt = ((fnv32a key).toNat : Int).bmod (2 ^ 32) := by
      show (fnv32a key).toBitVec.toInt = _
      rw [BitVec.toInt_eq_toNat_bmod]; rfl
    rw [this, Int.bmod_def]
    split <;> split <;> omega
  have hm := Int32.toInt_mod (fnv32a key).toInt32 n
  rw [hs] at hm
  have hlt : (0 : Int32).toInt = 0 := rfl
  rw [← Int32.toInt_inj]
  unfold hashPartition
  dsimp only
  generalize (fnv32a key).toInt32 % n = p at *
  generalize (fnv32a key).toNat = v at *
  obtain ⟨N, hN⟩ : ∃ N : Nat, n.toInt = N := ⟨n.toInt.toNat, by omega⟩
  rw [hN] at hm ⊢
  have hn2 := n.toInt_lt
  rw [Int.toNat_natCast]
  unfold absSigned
  by_cases h : v < 2 ^ 31
  · rw [if_pos h] at hm ⊢
    rw [Int.tmod_eq_emod_of_nonneg (by omega)] at hm
    rw [if_neg (by rw [Int32.lt_iff_toInt_lt]; omega), hm]
    omega
  · rw [if_neg h] at hm ⊢
    have h2 : (v : Int) - 2 ^ 32 = - ((2 ^ 32 - v : Nat) : Int) := by omega
    rw [h2, Int.neg_tmod, Int.tmod_eq_emod_of_nonneg (by omega)] at hm
    have h3 := Nat.mod_lt (2 ^ 32 - v) (show N > 0 by omega)
    split
    · have : (-p).toInt = - p.toInt := by
        rw [Int32.toInt_neg, Int.bmod_eq_of_le (by omega) (by omega)]
      rw [this, hm]
      omega
    · rename_i h4
      rw [Int32.lt_iff_toInt_lt] at h4
      omega

theorem fnv32a_snoc (front : List UInt8) (b : UInt8) : (fnv32a (front ++ [b])).toNat = (((fnv32a front).toNat ^^^ b.toNat) * 16777619) % 2 ^ 32 := by
  unfold fnv32a
  rw [List.foldl_append]
  simp [UInt32.toNat_mul, UInt32.toNat_xor]

/-- C158: whatever the first bytes of the key are, of the `2 ^ k` smallest last bytes each partition gets an even share. -/
theorem C158_last_byte (front : List UInt8) (n r : Int32) (hn : 0 < n.toInt) (hi : Nat.gcd 16777619 n.toInt.toNat = 1)
    (hr : 0 ≤ r.toInt) (hrn : r.toInt < n.toInt) (k : Nat) (hk : k ≤ 8) :
    n.toInt.toNat * countBelow (fun b => hashPartition (front ++ [UInt8.ofNat b]) n = r) (2 ^ k) ≤ 2 ^ k + 3 * (n.toInt.toNat - 1) ∧
    2 ^ k ≤ n.toInt.toNat * countBelow (fun b => hashPartition (front ++ [UInt8.ofNat b]) n = r) (2 ^ k) + 3 * (n.toInt.toNat - 1) := by
  have hk2 : 2 ^ k ≤ 256 := Nat.pow_le_pow_right (n := 2) (by omega) hk
  have hpos : 0 < 2 ^ k := Nat.two_pow_pos k
  obtain ⟨h, hh⟩ : ∃ h, (fnv32a front).toNat = h := ⟨_, rfl⟩
  let q := fun j : Nat => decide (absSigned (((2 ^ k * (h / 2 ^ k) + j) * 16777619) % 2 ^ 32) % n.toInt.toNat = r.toInt.toNat)
  have e1 : countBelow (fun b => decide (hashPartition (front ++ [UInt8.ofNat b]) n = r)) (2 ^ k) = countBelow (fun b => q ((h % 2 ^ k) ^^^ b)) (2 ^ k) := by
    refine countBelow_congr fun b hb => ?_
    dsimp only [q]
    rw [← two_pow_add_xor (Nat.mod_lt h hpos) hb, Nat.div_add_mod]
    have := hashPartition_eq (front ++ [UInt8.ofNat b]) hn hr
    rw [fnv32a_snoc, hh, UInt8.toNat_ofNat', Nat.mod_eq_of_lt (show b < 2 ^ 8 by omega)] at this
    simp only [this]
  have e2 : countBelow q (2 ^ k) = countBelow (fun j => absSigned (((2 ^ k * (h / 2 ^ k) * 16777619) % 2 ^ 32 + 16777619 * j) % 2 ^ 32) % n.toInt.toNat = r.toInt.toNat) (2 ^ k) := by
    refine countBelow_congr fun j hj => ?_
    dsimp only [q]
    rw [Nat.add_mul, Nat.mul_comm j, Nat.mod_add_mod]
  rw [e1, countBelow_xor k q _ (Nat.mod_lt h hpos), e2]
  exact byte_share (by omega) (invertible_of_coprime hi) (by omega) (Nat.mod_lt _ (by omega)) hk2

/-! ## Trace ids -/

/-- The bytes of the key before the last one. -/
def keyFront (l : Nat) : List UInt8 := (littleEndian (UInt64.ofNat l)).take 7

theorem littleEndian_last {b l : Nat} (hb : b < 256) (hl : l < 2 ^ 56) : littleEndian (UInt64.ofNat (b * 2 ^ 56 + l)) = keyFront l ++ [UInt8.ofNat b] := by
  unfold keyFront littleEndian
  simp only [List.take_succ_cons, List.take_zero, List.cons_append, List.nil_append, List.cons.injEq, and_true]
  refine ⟨?_, ?_, ?_, ?_, ?_, ?_, ?_, ?_⟩ <;> apply UInt8.toNat.inj <;>
    simp [UInt64.toNat_shiftRight, Nat.shiftRight_eq_div_pow] <;> omega

/-- C158: of the trace ids of 56 and `k` bits, each partition gets an even share. -/
theorem C158_ids (n r : Int32) (hn : 0 < n.toInt) (hi : Nat.gcd 16777619 n.toInt.toNat = 1) (hr : 0 ≤ r.toInt) (hrn : r.toInt < n.toInt)
    (k : Nat) (hk : k ≤ 8) :
    (2 ^ k - 2 * (n.toInt.toNat - 1)) / n.toInt.toNat * 2 ^ 56 ≤ countBelow (belongs n r) (2 ^ k * 2 ^ 56) ∧
    countBelow (belongs n r) (2 ^ k * 2 ^ 56) ≤ (2 ^ k + 3 * (n.toInt.toNat - 1)) / n.toInt.toNat * 2 ^ 56 := by
  have hk2 : 2 ^ k ≤ 256 := Nat.pow_le_pow_right (n := 2) (by omega) hk
  have e : countBelow (belongs n r) (2 ^ k * 2 ^ 56) =
      sumBelow (fun l => countBelow (fun b => hashPartition (keyFront l ++ [UInt8.ofNat b]) n = r) (2 ^ k)) (2 ^ 56) := by
    rw [countBelow_mul]
    refine (sumBelow_congr fun b hb => countBelow_congr fun l hl => ?_).trans
      (sumBelow_swap (fun b l => hashPartition (keyFront l ++ [UInt8.ofNat b]) n = r) (2 ^ 56) (2 ^ k))
    unfold belongs
    rw [littleEndian_last (by omega) hl]
  rw [e]
  have hN : 0 < n.toInt.toNat := by omega
  constructor
  · refine le_sumBelow (fun l => ?_) _
    have := (C158_last_byte (keyFront l) n r hn hi hr hrn k hk).2
    refine Nat.lt_succ_iff.mp ((Nat.div_lt_iff_lt_mul hN).mpr ?_)
    have h1 := Nat.succ_mul (countBelow (fun b => hashPartition (keyFront l ++ [UInt8.ofNat b]) n = r) (2 ^ k)) n.toInt.toNat
    have h2 := Nat.mul_comm (countBelow (fun b => hashPartition (keyFront l ++ [UInt8.ofNat b]) n = r) (2 ^ k)) n.toInt.toNat
    omega
  · refine sumBelow_le (fun l => ?_) _
    have := (C158_last_byte (keyFront l) n r hn hi hr hrn k hk).1
    rw [Nat.le_div_iff_mul_le hN, Nat.mul_comm]
    exact this

/-- C158: of all trace ids, each of the 12 partitions that main.go asks for gets between 7.4 and 9.4 percent. -/
theorem C158_share (r : Int32) (hr : 0 ≤ r.toInt) (hrn : r.toInt < 12) :
    19 * 2 ^ 56 ≤ countBelow (belongs 12 r) (2 ^ 64) ∧ countBelow (belongs 12 r) (2 ^ 64) ≤ 24 * 2 ^ 56 :=
  C158_ids 12 r (by decide) (by decide) hr hrn 8 (by decide)

/-- C158: of the trace ids that are positive as signed numbers, between 6.2 and 10.2 percent. -/
theorem C158_share_positive (r : Int32) (hr : 0 ≤ r.toInt) (hrn : r.toInt < 12) :
    8 * 2 ^ 56 ≤ countBelow (belongs 12 r) (2 ^ 63) ∧ countBelow (belongs 12 r) (2 ^ 63) ≤ 13 * 2 ^ 56 :=
  C158_ids 12 r (by decide) (by decide) hr hrn 7 (by decide)

/-- C158: these are the partitions of the messages. -/
theorem C158_messages (p : Pool) (hp : p.Reachable) (x : Span × List (Str × Str) × Message) (hx : x ∈ p.sent) (n : Int32) :
    belongs n (hashPartition (p.heap.deref x.2.2.key) n) x.1.trace.toUInt64.toNat = true := by
  unfold belongs
  rw [(hp.inv.sent x hx).key, UInt64.ofNat_toNat, decide_eq_true_eq]

theorem fnv32a_parity (key : List UInt8) : (fnv32a key).toNat % 2 = (1 + key.countP fun b => b.toNat % 2 = 1) % 2 := by
  refine list_snoc_induction (P := fun key => (fnv32a key).toNat % 2 = (1 + key.countP fun b => b.toNat % 2 = 1) % 2) rfl ?_ key
  intro front b ih
  rw [fnv32a_snoc, List.countP_append]
  have h1 := Nat.xor_mod_two_pow (a := (fnv32a front).toNat) (b := b.toNat) (n := 1)
  rw [Nat.pow_one] at h1
  have h2 : (((fnv32a front).toNat % 2) ^^^ (b.toNat % 2)) = ((fnv32a front).toNat % 2 + b.toNat % 2) % 2 := by
    rcases Nat.mod_two_eq_zero_or_one (fnv32a front).toNat with h | h <;> rcases Nat.mod_two_eq_zero_or_one b.toNat with h' | h' <;> rw [h, h'] <;> rfl
  rw [h2] at h1
  have h3 : [b].countP (fun b => decide (b.toNat % 2 = 1)) = b.toNat % 2 := by
    rw [List.countP_singleton]
    rcases Nat.mod_two_eq_zero_or_one b.toNat with h' | h' <;> simp [h']
  rw [h3]
  omega

theorem hashPartition_value (key : List UInt8) {n : Int32} (hn : 0 < n.toInt) :
    (hashPartition key n).toInt = (absSigned (fnv32a key).toNat % n.toInt.toNat : Nat) := by
  have h1 := Nat.mod_lt (absSigned (fnv32a key).toNat) (show n.toInt.toNat > 0 by omega)
  have h2 := n.toInt_lt
  have h3 : (Int32.ofNat (absSigned (fnv32a key).toNat % n.toInt.toNat)).toInt = (absSigned (fnv32a key).toNat % n.toInt.toNat : Nat) :=
    Int32.toInt_ofNat_of_lt (by omega)
  rw [(hashPartition_eq key hn (r := Int32.ofNat (absSigned (fnv32a key).toNat % n.toInt.toNat)) (by omega)).mpr (by rw [h3]; rfl), h3]

/-- C158: the partition exists. -/
theorem C158_range (key : List UInt8) (n : Int32) (hn : 0 < n.toInt) : 0 ≤ (hashPartition key n).toInt ∧ (hashPartition key n).toInt < n.toInt := by
  rw [hashPartition_value key hn]
  have h1 := Nat.mod_lt (absSigned (fnv32a key).toNat) (show n.toInt.toNat > 0 by omega)
  omega

/-- C158: if the number of partitions is even, the number of odd bytes of a trace id decides whether its partition is even. -/
theorem C158_parity (key : List UInt8) (n : Int32) (hn : 0 < n.toInt) (he : n.toInt % 2 = 0) :
    (hashPartition key n).toInt % 2 = ((1 + key.countP fun b => b.toNat % 2 = 1) % 2 : Nat) := by
  rw [hashPartition_value key hn, ← fnv32a_parity]
  have h1 : absSigned (fnv32a key).toNat % 2 = (fnv32a key).toNat % 2 := by
    have := (fnv32a key).toNat_lt
    unfold absSigned
    split <;> omega
  have h2 : absSigned (fnv32a key).toNat % n.toInt.toNat % 2 = absSigned (fnv32a key).toNat % 2 :=
    Nat.mod_mod_of_dvd _ (Nat.dvd_of_mod_eq_zero (by omega))
  omega

/-- C158: so ids that consist of the same 32 bits twice only get to odd partitions. -/
theorem C158_repeated (x : Nat) (hx : x < 2 ^ 32) (n : Int32) (hn : 0 < n.toInt) (he : n.toInt % 2 = 0) :
    (hashPartition (littleEndian (UInt64.ofNat (x * 2 ^ 32 + x))) n).toInt % 2 = 1 := by
  rw [C158_parity _ n hn he]
  have e : littleEndian (UInt64.ofNat (x * 2 ^ 32 + x)) = (littleEndian (UInt64.ofNat x)).take 4 ++ (littleEndian (UInt64.ofNat x)).take 4 := by
    have h1 : (x * 4294967296 + x) % 18446744073709551616 = x * 4294967296 + x := Nat.mod_eq_of_lt (by omega)
    have h2 : x % 18446744073709551616 = x := Nat.mod_eq_of_lt (by omega)
    have d1 : (x * 4294967296 + x) / 256 = x * 16777216 + x / 256 := by omega
    have d2 : (x * 4294967296 + x) / 65536 = x * 65536 + x / 65536 := by omega
    have d3 : (x * 4294967296 + x) / 16777216 = x * 256 + x / 16777216 := by omega
    have d4 : (x * 4294967296 + x) / 4294967296 = x := by omega
    have d5 : (x * 4294967296 + x) / 1099511627776 = x / 256 := by rw [show 1099511627776 = 4294967296 * 256 from rfl, ← Nat.div_div_eq_div_mul, d4]
    have d6 : (x * 4294967296 + x) / 281474976710656 = x / 65536 := by rw [show 281474976710656 = 4294967296 * 65536 from rfl, ← Nat.div_div_eq_div_mul, d4]
    have d7 : (x * 4294967296 + x) / 72057594037927936 = x / 16777216 := by rw [show 72057594037927936 = 4294967296 * 16777216 from rfl, ← Nat.div_div_eq_div_mul, d4]
    unfold littleEndian
    simp only [List.take_succ_cons, List.take_zero, List.cons_append, List.nil_append, List.cons.injEq, and_true]
    refine ⟨?_, ?_, ?_, ?_, ?_, ?_, ?_, ?_⟩ <;> apply UInt8.toNat.inj <;>
      simp [UInt64.toNat_shiftRight, Nat.shiftRight_eq_div_pow] <;> (try simp only [h1, h2, d1, d2, d3, d4, d5, d6, d7]) <;> clear h1 h2 d1 d2 d3 d4 d5 d6 d7 hn he <;> omega
  rw [e, List.countP_append]
  omega

/-- Witness: partitions of some traces, and how many there are in each partition if only the last byte differs. -/
example : (List.range 8).map (fun t => (hashPartition (littleEndian (UInt64.ofNat (t * 2 ^ 56 + 77))) 12).toInt) = [4, 3, 2, 1, 0, 11, 10, 9] := by decide +kernel

example : (List.range 12).map (fun r => countBelow (fun t => belongs 12 (Int32.ofNat r) (t * 2 ^ 56 + 77)) 256) =
    [20, 22, 22, 22, 22, 22, 22, 22, 22, 20, 20, 20] := by decide +kernel

/-- Witness: the theorems hold for numbers of partitions other than 12. -/
example : Invertible 30 := invertible_of_coprime (by decide)

end Verif
