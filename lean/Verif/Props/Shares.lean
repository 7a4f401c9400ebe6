import Verif.Props.Partition

/-!
# C159: proxies get even shares of the traces
-/

namespace Verif
open Spec

theorem rangeBound_succ {n k : Nat} (hk : 0 < k) (i : Nat) :
    rangeBound n k i + n / k ≤ rangeBound n k (i + 1) ∧ rangeBound n k (i + 1) ≤ rangeBound n k i + (n + k - 1) / k := by
  have e : 2 * (i + 1) * n + k = (2 * i * n + k + 2 * (n % k)) + 2 * k * (n / k) := by
    have h1 := Nat.div_add_mod n k
    have h2 : 2 * (i + 1) * n = 2 * i * n + 2 * n := by rw [Nat.mul_add, Nat.add_mul]
    have h3 : 2 * k * (n / k) = 2 * (k * (n / k)) := Nat.mul_assoc _ _ _
    omega
  have hr := Nat.mod_lt n hk
  unfold rangeBound
  rw [e, Nat.add_mul_div_left _ _ (by omega)]
  generalize 2 * i * n + k = A
  refine ⟨by have := Nat.div_le_div_right (c := 2 * k) (Nat.le_add_right A (2 * (n % k))); omega, ?_⟩
  have hc : (n + k - 1) / k = n / k + (n % k + k - 1) / k := by
    have h1 := Nat.div_add_mod n k
    rw [show n + k - 1 = (n % k + k - 1) + k * (n / k) by omega, Nat.add_mul_div_left _ _ hk]
    omega
  rw [hc]
  by_cases h0 : n % k = 0
  · rw [h0, Nat.mul_zero, Nat.add_zero, Nat.zero_add, Nat.div_eq_of_lt (show k - 1 < k by omega)]; omega
  · rw [show n % k + k - 1 = (n % k - 1) + k by omega, Nat.add_div_right _ hk, Nat.div_eq_of_lt (show n % k - 1 < k by omega)]
    have := Nat.div_le_div_right (c := 2 * k) (show A + 2 * (n % k) ≤ A + 2 * k by omega)
    rw [Nat.add_div_right _ (by omega)] at this
    omega

/-- C159: the numbers of partitions of two members differ by at most one. -/
theorem C159_even (n k i : Nat) (hk : 0 < k) : n / k ≤ (rangePlan n k i).length ∧ (rangePlan n k i).length ≤ (n + k - 1) / k := by
  have := rangeBound_succ (n := n) hk i
  unfold rangePlan
  rw [List.length_range']
  generalize n / k = q at *
  generalize (n + k - 1) / k = q' at *
  omega

theorem rangeBound_mono {n k : Nat} (hk : 0 < k) {i j : Nat} (h : i ≤ j) : rangeBound n k i ≤ rangeBound n k j := by
  induction j with
  | zero => rw [Nat.le_zero.mp h]
  | succ j ih =>
    by_cases hij : i = j + 1
    · rw [hij]
    · have := ih (by omega)
      have := Nat.le_trans (Nat.le_add_right _ _) (rangeBound_succ (n := n) hk j).1
      omega

theorem rangeBound_zero {n k : Nat} (hk : 0 < k) : rangeBound n k 0 = 0 := by
  unfold rangeBound
  rw [Nat.mul_zero, Nat.zero_mul, Nat.zero_add]
  exact Nat.div_eq_of_lt (by omega)

theorem rangeBound_last {n k : Nat} (hk : 0 < k) : rangeBound n k k = n := by
  unfold rangeBound
  rw [Nat.add_comm, Nat.add_mul_div_left _ _ (by omega), Nat.div_eq_of_lt (by omega), Nat.zero_add]

/-- C159: every partition is read by exactly one member. -/
theorem C159_one (n k r : Nat) (hk : 0 < k) (hr : r < n) :
    ∃ i, i < k ∧ r ∈ rangePlan n k i ∧ ∀ j, r ∈ rangePlan n k j → j = i := by
  have hm : ∀ i, r ∈ rangePlan n k i ↔ rangeBound n k i ≤ r ∧ r < rangeBound n k (i + 1) := by
    intro i
    have := Nat.le_trans (Nat.le_add_right _ _) (rangeBound_succ (n := n) hk i).1
    unfold rangePlan
    rw [List.mem_range'_1]
    omega
  have : ∀ m, r < rangeBound n k m → ∃ i, i < m ∧ rangeBound n k i ≤ r ∧ r < rangeBound n k (i + 1) := by
    intro m
    induction m with
    | zero => intro h; rw [rangeBound_zero hk] at h; omega
    | succ m ih =>
      intro h
      by_cases hm : r < rangeBound n k m
      · obtain ⟨i, h1, h2⟩ := ih hm
        exact ⟨i, by omega, h2⟩
      · exact ⟨m, by omega, by omega, h⟩
  obtain ⟨i, h1, h2⟩ := this k (by rw [rangeBound_last hk]; exact hr)
  refine ⟨i, h1, (hm i).mpr h2, fun j hj => ?_⟩
  have h3 := (hm j).mp hj
  by_cases hij : j < i
  · have := rangeBound_mono (n := n) hk (show j + 1 ≤ i from hij); omega
  · by_cases hji : i < j
    · have := rangeBound_mono (n := n) hk (show i + 1 ≤ j from hji); omega
    · omega

theorem countBelow_or (p q : Nat → Bool) (h : ∀ t, ¬ (p t = true ∧ q t = true)) : ∀ n, countBelow (fun t => p t || q t) n = countBelow p n + countBelow q n
  | 0 => rfl
  | n + 1 => by
    show countBelow _ n + (if (p n || q n) = true then 1 else 0) = (countBelow p n + if p n = true then 1 else 0) + (countBelow q n + if q n = true then 1 else 0)
    rw [countBelow_or p q h n]
    have := h n
    cases hp : p n <;> cases hq : q n <;> simp_all <;> omega

theorem count_any {n : Int32} {M lo hi : Nat} : ∀ l : List Nat, l.Nodup → (∀ r ∈ l, r < 2 ^ 31) →
    (∀ r ∈ l, lo ≤ countBelow (belongs n (Int32.ofNat r)) M ∧ countBelow (belongs n (Int32.ofNat r)) M ≤ hi) →
    l.length * lo ≤ countBelow (fun t => l.any fun r => belongs n (Int32.ofNat r) t) M ∧
    countBelow (fun t => l.any fun r => belongs n (Int32.ofNat r) t) M ≤ l.length * hi
  | [], _, _, _ => by
    have : ∀ M, countBelow (fun _ => false) M = 0 := fun M => by
      induction M with
      | zero => rfl
      | succ M ih => show countBelow _ M + 0 = 0; rw [ih]
    simp only [List.any_nil, this, List.length_nil, Nat.zero_mul]
    omega
  | r :: l, hn, hs, h => by
    have h1 := count_any l (List.nodup_cons.mp hn).2 (fun x hx => hs x (by simp [hx])) fun x hx => h x (by simp [hx])
    have h2 := h r (by simp)
    simp only [List.any_cons]
    rw [countBelow_or, List.length_cons, Nat.succ_mul, Nat.succ_mul]
    · omega
    · rintro t ⟨h3, h4⟩
      obtain ⟨x, hx, h5⟩ := List.any_eq_true.mp h4
      unfold belongs at h3 h5
      rw [decide_eq_true_eq] at h3 h5
      have h6 := congrArg Int32.toInt (h3.symm.trans h5)
      rw [Int32.toInt_ofNat_of_lt (hs r (by simp)), Int32.toInt_ofNat_of_lt (hs x (by simp [hx]))] at h6
      have : r = x := by omega
      exact (List.nodup_cons.mp hn).1 (this ▸ hx)

theorem rangePlan_lt {n k i r : Nat} (hk : 0 < k) (hi : i < k) (h : r ∈ rangePlan n k i) : r < n := by
  have h1 := Nat.le_trans (Nat.le_add_right _ _) (rangeBound_succ (n := n) hk i).1
  have h2 := rangeBound_mono (n := n) hk (show i + 1 ≤ k from hi)
  rw [rangeBound_last hk] at h2
  unfold rangePlan at h
  rw [List.mem_range'_1] at h
  omega

/-- C159: of all trace ids, each of `k` proxies reads those of its part of the 12 partitions, with the shares of C158. -/
theorem C159_share (k i : Nat) (hk : 0 < k) (hi : i < k) :
    (12 / k) * (19 * 2 ^ 56) ≤ countBelow (readBy 12 k i) (2 ^ 64) ∧ countBelow (readBy 12 k i) (2 ^ 64) ≤ ((12 + k - 1) / k) * (24 * 2 ^ 56) := by
  have h1 := C159_even 12 k i hk
  have h2 := count_any (n := 12) (M := 2 ^ 64) (lo := 19 * 2 ^ 56) (hi := 24 * 2 ^ 56) (rangePlan 12 k i) List.nodup_range'
    (fun r hr => by have := rangePlan_lt hk hi hr; omega) fun r hr => by
      have h3 := rangePlan_lt hk hi hr
      have h4 : (Int32.ofNat r).toInt = r := Int32.toInt_ofNat_of_lt (by omega)
      exact C158_share (Int32.ofNat r) (by omega) (by omega)
  exact ⟨Nat.le_trans (Nat.mul_le_mul_right _ h1.1) h2.1, Nat.le_trans h2.2 (Nat.mul_le_mul_right _ h1.2)⟩

/-- C159: if there are at most as many proxies as partitions, every proxy reads; if there are more, no proxy reads more than one partition, so that
some read nothing. -/
theorem C159_busy (n k : Nat) (hk : 0 < k) :
    (k ≤ n → ∀ i, rangePlan n k i ≠ []) ∧ (n ≤ k → ∀ i, (rangePlan n k i).length ≤ 1) := by
  refine ⟨fun h i h0 => ?_, fun h i => ?_⟩
  · have h1 := (C159_even n k i hk).1
    rw [h0] at h1
    have := Nat.div_pos h hk
    simp at h1
    omega
  · have h1 := (C159_even n k i hk).2
    have : (n + k - 1) / k ≤ 1 := by
      have : (n + k - 1) / k < 2 := (Nat.div_lt_iff_lt_mul hk).mpr (by omega)
      omega
    omega

/-- Witness: five proxies. -/
example : (List.range 5).map (rangePlan 12 5) = [[0, 1], [2, 3, 4], [5, 6], [7, 8, 9], [10, 11]] := by decide

end Verif
