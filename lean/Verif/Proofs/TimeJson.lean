import Verif.Model.TimeJson
import Verif.Spec.TimeJson
import Verif.Proofs.Maps

namespace Verif

open Spec

/-! ## Calendar -/

theorem daysBeforeYear_eq (y : Nat) : daysBeforeYear y + (y + 99) / 100 = 365 * y + (y + 3) / 4 + (y + 399) / 400 := by
  induction y with
  | zero => rfl
  | succ y ih =>
    unfold daysBeforeYear yearLength leapYear
    simp only [Bool.and_eq_true, Bool.or_eq_true, decide_eq_true_eq, ne_eq]
    split <;> omega

theorem isLeap_natCast (y : Nat) : isLeap y = leapYear y := by
  unfold isLeap leapYear
  rw [Bool.eq_iff_iff]
  simp only [Bool.and_eq_true, Bool.or_eq_true, decide_eq_true_eq, ne_eq]
  omega

theorem absYear_spec (k : Nat) : ∃ y yday : Nat, absYear (730692556 * 146097 + k) = ((y : Int), yday) ∧ 1 ≤ y ∧ daysBeforeYear y + yday = k + 366 ∧ yday < yearLength y := by
  have hd := daysBeforeYear_eq
  unfold absYear absoluteZeroYear
  simp only
  generalize hn0 : (730692556 * 146097 + k) / 146097 = n0
  generalize hd0 : (730692556 * 146097 + k) - 146097 * n0 = d0
  generalize hn1 : d0 / 36524 - d0 / 36524 / 4 = n1
  generalize hd1 : d0 - 36524 * n1 = d1
  generalize hn2 : d1 / 1461 = n2
  generalize hd2 : d1 - 1461 * n2 = d2
  generalize hn3 : d2 / 365 - d2 / 365 / 4 = n3
  generalize hd3 : d2 - 365 * n3 = d3
  have b0 : 730692556 ≤ n0 := by omega
  have e0 : d0 + 146097 * n0 = 730692556 * 146097 + k := by omega
  have l0 : d0 < 146097 := by omega
  have l1 : n1 ≤ 3 := by omega
  have l1' : d1 < 36525 ∧ (d1 = 36524 → n1 = 3) := by omega
  have e1 : d1 + 36524 * n1 = d0 := by omega
  have l2 : n2 ≤ 24 := by omega
  have e2 : d2 + 1461 * n2 = d1 := by omega
  have l2' : d2 < 1461 := by omega
  have l3 : n3 ≤ 3 := by omega
  have e3 : d3 + 365 * n3 = d2 := by omega
  have l3' : d3 < 366 ∧ (d3 = 365 → n3 = 3) := by omega
  refine ⟨400 * n0 + 100 * n1 + 4 * n2 + n3 + 1 - 400 * 730692556, d3, ?_, ?_, ?_, ?_⟩
  · rw [Prod.mk.injEq]
    refine ⟨?_, rfl⟩
    omega
  · omega
  · have := hd (400 * n0 + 100 * n1 + 4 * n2 + n3 + 1 - 400 * 730692556)
    generalize daysBeforeYear (400 * n0 + 100 * n1 + 4 * n2 + n3 + 1 - 400 * 730692556) = z at *
    obtain ⟨m, rfl⟩ : ∃ m, n0 = 730692556 + m := ⟨n0 - 730692556, by omega⟩
    have h1 : 400 * (730692556 + m) + 100 * n1 + 4 * n2 + n3 + 1 - 400 * 730692556 = 400 * m + 100 * n1 + 4 * n2 + n3 + 1 := by omega
    rw [h1] at this
    have h2 : (400 * m + 100 * n1 + 4 * n2 + n3 + 1 + 99) / 100 = 4 * m + n1 + 1 := by omega
    have h3 : (400 * m + 100 * n1 + 4 * n2 + n3 + 1 + 3) / 4 = 100 * m + 25 * n1 + n2 + 1 := by omega
    have h4 : (400 * m + 100 * n1 + 4 * n2 + n3 + 1 + 399) / 400 = m + 1 := by omega
    omega
  · unfold yearLength leapYear
    simp only [Bool.and_eq_true, Bool.or_eq_true, decide_eq_true_eq, ne_eq]
    obtain ⟨m, rfl⟩ : ∃ m, n0 = 730692556 + m := ⟨n0 - 730692556, by omega⟩
    have h1 : 400 * (730692556 + m) + 100 * n1 + 4 * n2 + n3 + 1 - 400 * 730692556 = 400 * m + 100 * n1 + 4 * n2 + n3 + 1 := by omega
    rw [h1]
    split
    · omega
    · next h =>
      by_cases h365 : d3 = 365
      · have := l3'.2 h365
        subst this
        exfalso
        apply h
        refine ⟨by omega, ?_⟩
        by_cases h24 : n2 = 24
        · right
          have : d1 = 36524 := by omega
          have := l1'.2 this
          omega
        · left; omega
      · omega

theorem monthDay_spec : ∀ (leap : Bool) (yday : Nat), yday < (if leap then 366 else 365) →
    1 ≤ (monthDay leap yday).1 ∧ (monthDay leap yday).1 ≤ 12 ∧ 1 ≤ (monthDay leap yday).2 ∧ (monthDay leap yday).2 ≤ monthLength leap (monthDay leap yday).1 ∧
    daysBeforeMonth leap ((monthDay leap yday).1 - 1) + ((monthDay leap yday).2 - 1) = yday := by
  have key : ∀ leap : Bool, ∀ yday : Fin (if leap then 366 else 365),
    1 ≤ (monthDay leap yday).1 ∧ (monthDay leap yday).1 ≤ 12 ∧ 1 ≤ (monthDay leap yday).2 ∧ (monthDay leap yday).2 ≤ monthLength leap (monthDay leap yday).1 ∧
    daysBeforeMonth leap ((monthDay leap yday).1 - 1) + ((monthDay leap yday).2 - 1) = yday := by decide +kernel
  intro leap yday h
  exact key leap ⟨yday, h⟩

theorem daysIn_spec {m : Nat} (h1 : 1 ≤ m) (h2 : m ≤ 12) (y : Nat) : daysIn m y = monthLength (leapYear y) m := by
  unfold daysIn
  rw [isLeap_natCast]
  have key : ∀ leap : Bool, ∀ m : Fin 13, 1 ≤ m.val → (if m.val = 2 ∧ leap = true then 29 else daysBefore m - daysBefore (m - 1)) = monthLength leap m := by decide +kernel
  exact key (leapYear y) ⟨m, by omega⟩ h1

theorem dateUnix_spec {y m : Nat} (hy : y ≤ 9999) (h1 : 1 ≤ m) (h2 : m ≤ 12) {d h mi s : Nat} :
    dateUnix y m d h mi s =
      ((daysBeforeYear y + daysBeforeMonth (leapYear y) (m - 1) + (d - 1) : Nat) - (daysBeforeYear 1970 : Nat) : Int) * 86400 + (h * 3600 + mi * 60 + s : Nat) := by
  unfold dateUnix absoluteZeroYear unixToAbsolute
  simp only [isLeap_natCast]
  have hm : ∀ (x : Nat), (if leapYear y = true ∧ m ≥ 3 then x + daysBefore (m - 1) + 1 else x + daysBefore (m - 1)) = x + daysBeforeMonth (leapYear y) (m - 1) := by
    have key : ∀ leap : Bool, ∀ m : Fin 13, 1 ≤ m.val → (if leap = true ∧ m.val ≥ 3 then daysBefore (m - 1) + 1 else daysBefore (m - 1)) = daysBeforeMonth leap (m - 1) := by decide +kernel
    intro x
    have := key (leapYear y) ⟨m, by omega⟩ h1
    simp only at this
    rw [← this]
    split <;> omega
  rw [hm]
  have h1970 : daysBeforeYear 1970 = 719528 := by
    have := daysBeforeYear_eq 1970
    omega
  rw [h1970]
  have hd := daysBeforeYear_eq y
  generalize daysBeforeYear y = z at *
  generalize daysBeforeMonth (leapYear y) (m - 1) = w at *
  have hcast : ((y : Int) - -292277022399).toNat = y + 292277022399 := by omega
  rw [hcast]
  generalize hn0 : (y + 292277022399) / 400 = n0
  generalize hy0 : y + 292277022399 - 400 * n0 = y0
  generalize hn1 : y0 / 100 = n1
  generalize hy1 : y0 - 100 * n1 = y1
  generalize hn2 : y1 / 4 = n2
  generalize hy2 : y1 - 4 * n2 = y2
  have b1 : n1 ≤ 3 := by omega
  have b2 : n2 ≤ 24 := by omega
  have b3 : y2 ≤ 3 := by omega
  have e : 400 * n0 + 100 * n1 + 4 * n2 + y2 = y + 292277022399 := by omega
  have h2 : (y + 99) / 100 + 4 * 730692556 = 4 * n0 + n1 + 1 := by omega
  have h3 : (y + 3) / 4 + 100 * 730692556 = 100 * n0 + 25 * n1 + n2 + 1 := by omega
  have h4 : (y + 399) / 400 + 730692556 = n0 + 1 := by omega
  omega

/-! ## Numerals -/

theorem decimalValue_append (a : Str) (c : UInt8) : decimalValue (a ++ [c]) = 10 * decimalValue a + (c.toNat - 48) := by
  unfold decimalValue
  rw [List.foldl_append]
  rfl

theorem digit_ofNat (x : Nat) : c!"0" ≤ UInt8.ofNat (48 + x % 10) ∧ UInt8.ofNat (48 + x % 10) ≤ c!"9" ∧ (UInt8.ofNat (48 + x % 10)).toNat = 48 + x % 10 := by
  have key : ∀ i : Fin 10, c!"0" ≤ UInt8.ofNat (48 + i.val) ∧ UInt8.ofNat (48 + i.val) ≤ c!"9" ∧ (UInt8.ofNat (48 + i.val)).toNat = 48 + i.val := by decide +kernel
  exact key ⟨x % 10, Nat.mod_lt _ (by decide)⟩

theorem numeral_digitsW (w x : Nat) : Numeral w (digitsW w x) (x % 10 ^ w) := by
  induction w generalizing x with
  | zero => exact ⟨rfl, by simp [digitsW], by simp [digitsW, decimalValue, Nat.mod_one]⟩
  | succ w ih =>
    obtain ⟨h1, h2, h3⟩ := ih (x / 10)
    obtain ⟨d1, d2, d3⟩ := digit_ofNat x
    refine ⟨?_, ?_, ?_⟩
    · rw [digitsW, List.length_append, h1]; rfl
    · intro c hc
      rw [digitsW, List.mem_append, List.mem_singleton] at hc
      rcases hc with hc | rfl
      · exact h2 c hc
      · exact ⟨d1, d2⟩
    · rw [digitsW, decimalValue_append, h3, d3, Nat.pow_succ, Nat.mul_comm (10 ^ w) 10, Nat.mod_mul]
      omega

theorem numeral_appendInt {w x : Nat} (h : x < 10 ^ w) : Numeral w (appendInt x w) x := by
  have := numeral_digitsW w x
  rw [Nat.mod_eq_of_lt h] at this
  exact this

theorem digitsVal_eq (s : Str) : digitsVal s = decimalValue s := by
  unfold digitsVal decimalValue digitVal
  congr 1
  funext x c
  show x * 10 + (c.toNat - 48) = 10 * x + (c.toNat - 48)
  omega

theorem isDigit_iff {c : UInt8} : isDigit c = true ↔ c!"0" ≤ c ∧ c ≤ c!"9" := by
  unfold isDigit; simp

theorem all_digits {w n : Nat} {s : Str} (h : Numeral w s n) : s.all isDigit = true := by
  rw [List.all_eq_true]
  intro c hc
  exact isDigit_iff.mpr (h.2.1 c hc)

theorem not_sign {c : UInt8} (h : c!"0" ≤ c ∧ c ≤ c!"9") : c ≠ c!"-" ∧ c ≠ c!"+" ∧ c ≠ c!"Z" ∧ c ≠ c!"." := by
  refine ⟨?_, ?_, ?_, ?_⟩ <;> rintro rfl <;> revert h <;> decide

theorem atoi_numeral {w n : Nat} {s : Str} (h : Numeral w s n) : atoi s = some (n : Int) := by
  unfold atoi
  cases s with
  | nil =>
    have : n = 0 := by rw [← h.2.2]; rfl
    rw [this]; rfl
  | cons c rest =>
    obtain ⟨h1, h2, _⟩ := not_sign (h.2.1 c (by simp))
    simp only [h1, h2, if_false, all_digits h, if_true]
    rw [digitsVal_eq, h.2.2]

theorem getnum_numeral {n : Nat} {s rest : Str} {fixed : Bool} (h : Numeral 2 s n) : getnum fixed (s ++ rest) = some (n, rest) := by
  obtain ⟨hl, hd, hv⟩ := h
  match s, hl with
  | [a, b], _ =>
    simp only [List.cons_append, List.nil_append, getnum, isDigit_iff.mpr (hd a (by simp)), isDigit_iff.mpr (hd b (by simp)), if_true]
    rw [← hv]
    congr 2
    show (a.toNat - 48) * 10 + (b.toNat - 48) = 10 * (10 * 0 + (a.toNat - 48)) + (b.toNat - 48)
    omega

theorem parseYear_numeral {n : Nat} {s rest : Str} (h : Numeral 4 s n) : parseYear (s ++ rest) = some ((n : Int), rest) := by
  have h' := h
  obtain ⟨hl, hd, hv⟩ := h
  match s, hl with
  | [a, b, c, d], _ =>
    simp only [List.cons_append, List.nil_append, parseYear, isDigit_iff.mpr (hd a (by simp))]
    have : ¬ (((a :: b :: c :: d :: rest).length < 4) ∨ ¬ True) := by simp
    rw [if_neg (by simp)]
    simp only [List.take_succ_cons, List.take_zero, List.drop_succ_cons, List.drop_zero]
    rw [atoi_numeral h']
    rfl

theorem skipByte_cons (c : UInt8) (s : Str) : skipByte c (c :: s) = some s := by simp [skipByte]

theorem takeWhile_digits {a b : Str} (ha : ∀ c ∈ a, isDigit c = true) (hb : ∀ c, b.head? = some c → isDigit c = false) :
    (a ++ b).takeWhile isDigit = a ∧ (a ++ b).dropWhile isDigit = b := by
  induction a with
  | nil =>
    cases b with
    | nil => simp
    | cons c b => have := hb c rfl; simp [this]
  | cons x a ih =>
    have := ih fun c hc => ha c (by simp [hc])
    simp only [List.cons_append, List.takeWhile_cons, List.dropWhile_cons, ha x (by simp), if_true]
    exact ⟨by rw [this.1], this.2⟩

theorem decimalValue_lt {s : Str} (h : ∀ c ∈ s, c!"0" ≤ c ∧ c ≤ c!"9") : decimalValue s < 10 ^ s.length := by
  induction s using list_snoc_induction with
  | h0 => decide
  | h1 s c ih =>
    rw [decimalValue_append, List.length_append, List.length_singleton, Nat.pow_succ]
    have h1 := ih fun x hx => h x (by simp [hx])
    have h2 := h c (by simp)
    simp only [UInt8.le_iff_toNat_le] at h2
    have h3 : c.toNat ≤ 57 := h2.2
    omega

theorem parseFraction_spec {s rest : Str} {nano : Nat} (h : Fraction s nano) (hr : ∀ c, rest.head? = some c → isDigit c = false ∧ c ≠ c!".") :
    parseFraction (s ++ rest) = some (nano, rest) := by
  rcases h with ⟨rfl, rfl⟩ | ⟨digits, k, rfl, hk, n, hn, rfl⟩
  · rw [List.nil_append]
    match rest with
    | [] => rfl
    | [c] => rfl
    | c :: d :: l =>
      have := (hr c rfl).2
      simp only [parseFraction]
      rw [if_neg (by simp [this])]
  · have hlt := decimalValue_lt hn.2.1
    rw [hn.2.2, hn.1] at hlt
    have hdig := all_digits hn
    obtain ⟨h1, h2⟩ := takeWhile_digits (a := digits) (b := rest) (fun c hc => List.all_eq_true.mp hdig c hc) fun c hc => (hr c hc).1
    match digits, hn.1 with
    | d :: ds, _ =>
      have hd : isDigit d = true := List.all_eq_true.mp hdig d (by simp)
      rw [List.cons_append, List.cons_append] at *
      simp only [parseFraction, hd, and_self, if_true]
      rw [h1, h2, digitsVal_eq, hn.2.2, hn.1]
      have hle : 10 ^ (k + 1) ≤ 10 ^ 9 := Nat.pow_le_pow_right (by decide) (by omega)
      rw [if_neg (by omega)]
      have : 9 - (k + 1) = 8 - k := by omega
      rw [this]

theorem parseZone_spec {s rest : Str} {zone : Int} (h : ZoneText s zone) : parseZone (s ++ rest) = some (zone * 60, rest) := by
  rcases h with ⟨rfl, rfl⟩ | ⟨h, m, hs, ms, hh, hm, _, hcase⟩
  · rfl
  · have h1 := atoi_numeral hh
    have h2 := atoi_numeral hm
    match hs, hh.1, ms, hm.1 with
    | [a, b], _, [c, d], _ =>
      rcases hcase with ⟨rfl, rfl⟩ | ⟨rfl, rfl⟩
      · simp only [List.cons_append, List.nil_append, parseZone]
        rw [if_neg (by decide), if_neg (by simp), h1, h2]
        simp
      · simp only [List.cons_append, List.nil_append, parseZone]
        rw [if_neg (by decide), if_neg (by simp), h1, h2]
        simp only [Option.bind_eq_bind, Option.bind_some]
        rw [if_neg (by decide), if_pos trivial]
        congr 2
        push_cast
        omega

theorem zone_head {s : Str} {zone : Int} (h : ZoneText s zone) (rest : Str) : ∀ c, (s ++ rest).head? = some c → isDigit c = false ∧ c ≠ c!"." := by
  intro c hc
  rcases h with ⟨rfl, _⟩ | ⟨_, _, _, _, _, _, _, ⟨rfl, _⟩ | ⟨rfl, _⟩⟩ <;> (cases hc; decide)

/-! ## Formatting -/

theorem formatNano_spec {n : Nat} (h : n < 1000000000) : Fraction (formatNano n) n := by
  unfold formatNano
  have hnum := numeral_digitsW 9 n
  rw [Nat.mod_eq_of_lt h] at hnum
  simp only
  -- the digits that are removed are zeros
  have key : ∀ (s : Str), (∀ c ∈ s, c!"0" ≤ c ∧ c ≤ c!"9") →
      ∃ j, s = (s.reverse.dropWhile (· = c!"0")).reverse ++ List.replicate j c!"0" := by
    intro s _
    refine ⟨(s.reverse.takeWhile (· = c!"0")).length, ?_⟩
    have h1 : s.reverse.takeWhile (· = c!"0") = List.replicate (s.reverse.takeWhile (· = c!"0")).length c!"0" := by
      generalize s.reverse = l
      induction l with
      | nil => rfl
      | cons x l ih =>
        rw [List.takeWhile_cons]
        split
        · next hx =>
          have : x = c!"0" := by simpa using hx
          rw [List.length_cons, List.replicate_succ, ← ih, this]
        · rfl
    have h2 : s = (s.reverse.dropWhile (· = c!"0")).reverse ++ (s.reverse.takeWhile (· = c!"0")).reverse := by
      rw [← List.reverse_append, List.takeWhile_append_dropWhile, List.reverse_reverse]
    rw [h1, List.reverse_replicate] at h2
    exact h2
  obtain ⟨j, hj⟩ := key _ hnum.2.1
  generalize ((digitsW 9 n).reverse.dropWhile (· = c!"0")).reverse = kept at *
  have hval : ∀ (s : Str) (j : Nat), decimalValue (s ++ List.replicate j c!"0") = decimalValue s * 10 ^ j := by
    intro s j
    induction j with
    | zero => simp
    | succ j ih =>
      rw [List.replicate_succ', ← List.append_assoc, decimalValue_append, ih, Nat.pow_succ]
      show 10 * (decimalValue s * 10 ^ j) + (48 - 48) = _
      rw [← Nat.mul_assoc, Nat.mul_comm 10, Nat.add_zero, Nat.mul_right_comm, Nat.mul_assoc]
  have hlen := hnum.1
  have hv := hnum.2.2
  rw [hj] at hlen hv
  rw [hval] at hv
  rw [List.length_append, List.length_replicate] at hlen
  split
  · next h0 =>
    left
    refine ⟨rfl, ?_⟩
    rw [← hv, h0]
    simp [decimalValue]
  · next h0 =>
    right
    have hpos : 0 < kept.length := List.length_pos_iff.mpr h0
    refine ⟨kept, kept.length - 1, rfl, by omega, decimalValue kept, ⟨by omega, ?_, rfl⟩, ?_⟩
    · intro c hc
      apply hnum.2.1
      rw [hj]
      exact List.mem_append_left _ hc
    · have : 8 - (kept.length - 1) = j := by omega
      rw [this]; exact hv.symm

theorem formatZone_spec {zone : Int} (h1 : -1440 < zone) (h2 : zone < 1440) : ZoneText (formatZone (zone * 60)) zone := by
  unfold formatZone
  by_cases h0 : zone = 0
  · subst h0; exact .inl ⟨rfl, rfl⟩
  · rw [if_neg (by omega)]
    have e : (zone * 60).tdiv 60 = zone := Int.mul_tdiv_cancel _ (by decide)
    simp only [e]
    right
    refine ⟨zone.natAbs / 60, zone.natAbs % 60, _, _, numeral_appendInt (by omega), numeral_appendInt (by omega), by omega, ?_⟩
    by_cases hn : zone < 0
    · right; rw [if_pos hn]; exact ⟨rfl, by omega⟩
    · left; rw [if_neg hn]; exact ⟨rfl, by omega⟩

end Verif
