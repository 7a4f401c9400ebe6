import Verif.Spec.TimeRead
import Verif.Props.TimeJson

/-!
# Which texts are read as timestamps: C112
-/

namespace Verif

open Spec

/-! ## The parts -/

theorem skipByte_iff {c : UInt8} {s r : Str} : skipByte c s = some r ↔ s = c :: r := by
  constructor
  · intro h
    match s with
    | [] => cases h
    | x :: s =>
      unfold skipByte at h
      dsimp only at h
      by_cases e : x = c
      · rw [if_pos e] at h; cases h; rw [e]
      · rw [if_neg e] at h; cases h
  · rintro rfl; exact skipByte_cons _ _

theorem numeral1_iff {d : Str} {k : Nat} : Numeral 1 d k ↔ ∃ c, d = [c] ∧ isDigit c = true ∧ k = digitVal c := by
  constructor
  · rintro ⟨h1, h2, h3⟩
    match d, h1 with
    | [c], _ =>
      refine ⟨c, rfl, isDigit_iff.mpr (h2 c (by simp)), ?_⟩
      rw [← h3]
      show 10 * 0 + (c.toNat - 48) = c.toNat - 48
      omega
  · rintro ⟨c, rfl, hc, rfl⟩
    refine ⟨rfl, fun x hx => by rw [List.mem_singleton.mp hx]; exact isDigit_iff.mp hc, ?_⟩
    show 10 * 0 + (c.toNat - 48) = c.toNat - 48
    omega

theorem numeral2_iff {s : Str} {k : Nat} : Numeral 2 s k ↔ ∃ a b, s = [a, b] ∧ isDigit a = true ∧ isDigit b = true ∧ k = digitVal a * 10 + digitVal b := by
  have val : ∀ a b : UInt8, decimalValue [a, b] = digitVal a * 10 + digitVal b := fun a b => by
    show 10 * (10 * 0 + (a.toNat - 48)) + (b.toNat - 48) = (a.toNat - 48) * 10 + (b.toNat - 48)
    omega
  constructor
  · rintro ⟨h1, h2, h3⟩
    match s, h1 with
    | [a, b], _ => exact ⟨a, b, rfl, isDigit_iff.mpr (h2 a (by simp)), isDigit_iff.mpr (h2 b (by simp)), by rw [← h3, val]⟩
  · rintro ⟨a, b, rfl, ha, hb, rfl⟩
    refine ⟨rfl, fun x hx => ?_, val a b⟩
    simp only [List.mem_cons, List.not_mem_nil, or_false] at hx
    rcases hx with rfl | rfl
    · exact isDigit_iff.mp ha
    · exact isDigit_iff.mp hb

/-- Two digits. -/
theorem getnum_fixed {s r : Str} {n : Nat} : getnum true s = some (n, r) ↔ ∃ x, Numeral 2 x n ∧ s = x ++ r := by
  constructor
  · intro h
    match s with
    | [] => cases h
    | [c] => simp [getnum] at h
    | c :: c2 :: s =>
      unfold getnum at h
      dsimp only at h
      by_cases h1 : isDigit c = true
      · by_cases h2 : isDigit c2 = true
        · rw [if_pos h1, if_pos h2] at h
          cases h
          exact ⟨[c, c2], numeral2_iff.mpr ⟨c, c2, rfl, h1, h2, rfl⟩, rfl⟩
        · rw [if_pos h1, if_neg h2, if_pos rfl] at h; cases h
      · rw [if_neg h1] at h; cases h
  · rintro ⟨x, hx, rfl⟩; exact getnum_numeral hx

/-- One or two digits, as many as there are. -/
theorem getnum_any {s r : Str} {n : Nat} : getnum false s = some (n, r) ↔ (∃ x, Numeral 2 x n ∧ s = x ++ r) ∨ ∃ x, Numeral 1 x n ∧ s = x ++ r ∧ ∀ c, r.head? = some c → isDigit c = false := by
  constructor
  · intro h
    match s with
    | [] => cases h
    | [c] =>
      unfold getnum at h
      dsimp only at h
      by_cases h1 : isDigit c = true
      · rw [if_pos ⟨h1, by decide⟩] at h
        cases h
        exact .inr ⟨[c], numeral1_iff.mpr ⟨c, rfl, h1, rfl⟩, rfl, fun _ h => by cases h⟩
      · rw [if_neg (fun e => h1 e.1)] at h; cases h
    | c :: c2 :: s =>
      unfold getnum at h
      dsimp only at h
      by_cases h1 : isDigit c = true
      · by_cases h2 : isDigit c2 = true
        · rw [if_pos h1, if_pos h2] at h
          cases h
          exact .inl ⟨[c, c2], numeral2_iff.mpr ⟨c, c2, rfl, h1, h2, rfl⟩, rfl⟩
        · rw [if_pos h1, if_neg h2, if_neg (by decide)] at h
          cases h
          exact .inr ⟨[c], numeral1_iff.mpr ⟨c, rfl, h1, rfl⟩, rfl, fun x hx => by cases hx; simpa using h2⟩
      · rw [if_neg h1] at h; cases h
  · rintro (⟨x, hx, rfl⟩ | ⟨x, hx, rfl, hr⟩)
    · exact getnum_numeral hx
    · obtain ⟨c, rfl, hc, rfl⟩ := numeral1_iff.mp hx
      match r with
      | [] => show (if isDigit c = true ∧ ¬ false = true then _ else _) = _; rw [if_pos ⟨hc, by decide⟩]
      | c2 :: r =>
        have := hr c2 rfl
        show (if isDigit c = true then if isDigit c2 = true then _ else if false = true then _ else _ else _) = _
        rw [if_pos hc, if_neg (by rw [this]; decide), if_neg (by decide)]

theorem atoi_digits {c : UInt8} {s : Str} {x : Int} (hc : isDigit c = true) : atoi (c :: s) = some x ↔ ∃ n : Nat, Numeral (s.length + 1) (c :: s) n ∧ x = n := by
  constructor
  · intro h
    obtain ⟨h1, h2, _⟩ := not_sign (isDigit_iff.mp hc)
    unfold atoi at h
    simp only [h1, h2, if_false] at h
    by_cases ha : (c :: s).all isDigit = true
    · rw [if_pos ha] at h
      cases h
      exact ⟨_, ⟨rfl, fun x hx => isDigit_iff.mp (List.all_eq_true.mp ha x hx), (digitsVal_eq _).symm⟩, rfl⟩
    · rw [if_neg ha] at h; cases h
  · rintro ⟨n, hn, rfl⟩; exact atoi_numeral hn

theorem parseYear_iff {s r : Str} {y : Int} : parseYear s = some (y, r) ↔ ∃ x, ∃ n : Nat, Numeral 4 x n ∧ s = x ++ r ∧ y = n := by
  constructor
  · intro h
    match s with
    | [] => cases h
    | c :: s =>
      unfold parseYear at h
      by_cases e : (c :: s).length < 4 ∨ ¬ isDigit c = true
      · simp only [e, if_true] at h; cases h
      · simp only [e, if_false] at h
        obtain ⟨e1, e2⟩ := not_or.mp e
        have e2 : isDigit c = true := Classical.not_not.mp e2
        rw [List.take_succ_cons, Option.map_eq_some_iff] at h
        obtain ⟨x, hx, hxy⟩ := h
        obtain ⟨n, hn, rfl⟩ := (atoi_digits e2).mp hx
        have hlen : (s.take 3).length + 1 = 4 := by rw [List.length_take]; simp only [List.length_cons] at e1; omega
        rw [hlen] at hn
        cases hxy
        exact ⟨c :: s.take 3, n, hn, by rw [List.drop_succ_cons, List.cons_append, List.take_append_drop], rfl⟩
  · rintro ⟨x, n, hx, rfl, rfl⟩; exact parseYear_numeral hx

/-- What is not a digit is followed by the zone. -/
theorem parseFraction_iff {s r : Str} {nano : Nat} (hr : ∀ c, r.head? = some c → isDigit c = false ∧ c ≠ c!".") : parseFraction s = some (nano, r) ↔ ∃ f, LongFraction f nano ∧ s = f ++ r := by
  constructor
  · intro h
    match s with
    | [] => cases h; exact ⟨[], .inl ⟨rfl, rfl⟩, rfl⟩
    | [p] => cases h; exact ⟨[], .inl ⟨rfl, rfl⟩, rfl⟩
    | p :: d :: s =>
      unfold parseFraction at h
      dsimp only at h
      by_cases e : p = c!"." ∧ isDigit d = true
      · rw [if_pos e] at h
        by_cases hn : digitsVal ((d :: s).takeWhile isDigit) ≥ 1000000000
        · rw [if_pos hn] at h; cases h
        · rw [if_neg hn] at h
          cases h
          refine ⟨c!"." :: (d :: s).takeWhile isDigit, .inr ⟨_, _, rfl, ?_, ⟨rfl, fun c hc => ?_, rfl⟩, ?_, ?_⟩, ?_⟩
          · rw [List.takeWhile_cons, if_pos e.2]; exact Nat.succ_pos _
          · exact isDigit_iff.mp (List.all_eq_true.mp List.all_takeWhile c hc)
          · rw [← digitsVal_eq]; omega
          · rw [digitsVal_eq]
          · rw [List.cons_append, List.takeWhile_append_dropWhile, e.1]
      · rw [if_neg e] at h
        cases h
        exact ⟨[], .inl ⟨rfl, rfl⟩, rfl⟩
  · rintro ⟨f, hf, rfl⟩
    rcases hf with ⟨rfl, rfl⟩ | ⟨digits, n, rfl, h0, hn, hlt, rfl⟩
    · rw [List.nil_append]
      match r with
      | [] => rfl
      | [c] => rfl
      | c :: d :: l =>
        have := (hr c rfl).2
        simp only [parseFraction]
        rw [if_neg (by simp [this])]
    · have hdig := all_digits hn
      obtain ⟨h1, h2⟩ := takeWhile_digits (a := digits) (b := r) (fun c hc => List.all_eq_true.mp hdig c hc) fun c hc => (hr c hc).1
      match digits, h0 with
      | d :: ds, _ =>
        have hd : isDigit d = true := List.all_eq_true.mp hdig d (by simp)
        rw [List.cons_append, List.cons_append] at *
        simp only [parseFraction, hd, and_self, if_true]
        rw [h1, h2, digitsVal_eq, hn.2.2, if_neg (by omega)]

theorem atoi_pair {a b : UInt8} {x : Int} : atoi [a, b] = some x ↔ ZoneNumber [a, b] x := by
  have one : ∀ {c : UInt8}, digitsVal [c] = digitVal c := fun {c} => by show 0 * 10 + digitVal c = _; omega
  constructor
  · intro h
    unfold atoi at h
    simp only at h
    by_cases h1 : a = c!"-"
    · rw [if_pos h1] at h
      by_cases hb : [b].all isDigit = true
      · rw [if_pos hb, one] at h
        cases h
        exact .inr ⟨[b], _, numeral1_iff.mpr ⟨b, rfl, by simpa using hb, rfl⟩, .inr ⟨by rw [h1], rfl⟩⟩
      · rw [if_neg hb] at h; cases h
    · rw [if_neg h1] at h
      by_cases h2 : a = c!"+"
      · rw [if_pos h2] at h
        by_cases hb : [b].all isDigit = true
        · rw [if_pos hb, one] at h
          cases h
          exact .inr ⟨[b], _, numeral1_iff.mpr ⟨b, rfl, by simpa using hb, rfl⟩, .inl ⟨by rw [h2], rfl⟩⟩
        · rw [if_neg hb] at h; cases h
      · rw [if_neg h2] at h
        by_cases ha : [a, b].all isDigit = true
        · rw [if_pos ha] at h
          cases h
          exact .inl ⟨_, ⟨rfl, fun c hc => isDigit_iff.mp (List.all_eq_true.mp ha c hc), (digitsVal_eq _).symm⟩, rfl⟩
        · rw [if_neg ha] at h; cases h
  · rintro (⟨k, hk, rfl⟩ | ⟨d, k, hd, ⟨e, rfl⟩ | ⟨e, rfl⟩⟩)
    · exact atoi_numeral hk
    · obtain ⟨c, rfl, hc, rfl⟩ := numeral1_iff.mp hd
      cases e
      unfold atoi
      simp only
      rw [if_neg (by decide), if_pos trivial, if_pos (by simp [hc]), one]
    · obtain ⟨c, rfl, hc, rfl⟩ := numeral1_iff.mp hd
      cases e
      unfold atoi
      simp only
      rw [if_pos trivial, if_pos (by simp [hc]), one]

theorem zoneNumber_pair {s : Str} {n : Int} (h : ZoneNumber s n) : ∃ a b, s = [a, b] := by
  rcases h with ⟨k, hk, _⟩ | ⟨d, k, hd, h⟩
  · obtain ⟨a, b, rfl, _⟩ := numeral2_iff.mp hk; exact ⟨a, b, rfl⟩
  · obtain ⟨c, rfl, _⟩ := numeral1_iff.mp hd
    rcases h with ⟨rfl, _⟩ | ⟨rfl, _⟩ <;> exact ⟨_, _, rfl⟩

theorem parseZone_iff {s r : Str} {offset : Int} : parseZone s = some (offset, r) ↔ ∃ z zone, AnyZone z zone ∧ s = z ++ r ∧ offset = zone * 60 := by
  constructor
  · intro h
    match s with
    | [] => cases h
    | sign :: s =>
      unfold parseZone at h
      by_cases hz : sign = c!"Z"
      · simp only [hz, if_true] at h
        cases h
        exact ⟨b!"Z", 0, .inl ⟨rfl, rfl⟩, by rw [hz]; rfl, rfl⟩
      · simp only [hz, if_false] at h
        match s with
        | [] => cases h
        | [_] => cases h
        | [_, _] => cases h
        | [_, _, _] => cases h
        | [_, _, _, _] => cases h
        | h1 :: h2 :: colon :: m1 :: m2 :: s =>
          simp only at h
          by_cases hc : colon = c!":"
          · subst hc
            rw [if_neg (by simp)] at h
            cases hh : atoi [h1, h2] with
            | none => rw [hh] at h; cases h
            | some hr =>
              cases hm : atoi [m1, m2] with
              | none => rw [hh, hm] at h; cases h
              | some mm =>
                rw [hh, hm] at h
                simp only [Option.bind_eq_bind, Option.bind_some] at h
                by_cases hp : sign = c!"+"
                · rw [if_pos hp] at h
                  cases h
                  exact ⟨_, _, .inr ⟨hr, mm, [h1, h2], [m1, m2], atoi_pair.mp hh, atoi_pair.mp hm, .inl ⟨rfl, rfl⟩⟩, by rw [hp]; rfl, rfl⟩
                · rw [if_neg hp] at h
                  by_cases hn : sign = c!"-"
                  · rw [if_pos hn] at h
                    cases h
                    exact ⟨_, _, .inr ⟨hr, mm, [h1, h2], [m1, m2], atoi_pair.mp hh, atoi_pair.mp hm, .inr ⟨rfl, rfl⟩⟩, by rw [hn]; rfl, (Int.neg_mul _ _).symm⟩
                  · rw [if_neg hn] at h; cases h
          · rw [if_pos hc] at h; cases h
  · rintro ⟨z, zone, hz, rfl, rfl⟩
    rcases hz with ⟨rfl, rfl⟩ | ⟨h, m, hs, ms, hh, hm, hcase⟩
    · rfl
    · obtain ⟨a, b, rfl⟩ := zoneNumber_pair hh
      obtain ⟨c, d, rfl⟩ := zoneNumber_pair hm
      have h1 := atoi_pair.mpr hh
      have h2 := atoi_pair.mpr hm
      rcases hcase with ⟨rfl, rfl⟩ | ⟨rfl, rfl⟩
      · simp only [List.cons_append, List.nil_append, parseZone]
        rw [if_neg (by decide), if_neg (by simp), h1, h2]
        simp
      · simp only [List.cons_append, List.nil_append, parseZone]
        rw [if_neg (by decide), if_neg (by simp), h1, h2]
        simp only [Option.bind_eq_bind, Option.bind_some]
        rw [if_neg (by decide), if_pos trivial, Int.neg_mul]

theorem anyZone_head {s : Str} {zone : Int} (h : AnyZone s zone) (rest : Str) : ∀ c, (s ++ rest).head? = some c → isDigit c = false ∧ c ≠ c!"." := by
  intro c hc
  rcases h with ⟨rfl, _⟩ | ⟨_, _, _, _, _, _, ⟨rfl, _⟩ | ⟨rfl, _⟩⟩ <;> (cases hc; decide)

/-! ## The whole -/

theorem longFraction_lt {f : Str} {nano : Nat} (h : LongFraction f nano) : nano < 1000000000 := by
  rcases h with ⟨_, rfl⟩ | ⟨digits, n, _, h0, hn, hlt, rfl⟩
  · decide
  · by_cases hl : digits.length ≤ 9
    · have h1 := decimalValue_lt hn.2.1
      rw [hn.2.2] at h1
      calc n * 10 ^ (9 - digits.length) < 10 ^ digits.length * 10 ^ (9 - digits.length) := Nat.mul_lt_mul_of_pos_right h1 (Nat.pow_pos (by decide))
        _ = 1000000000 := by rw [← Nat.pow_add, show digits.length + (9 - digits.length) = 9 by omega]
    · rw [show 9 - digits.length = 0 by omega, Nat.pow_zero, Nat.mul_one]
      exact hlt

/-- **C112**: exactly these texts are read, and this is their value. -/
theorem C112_exact (s : Str) (v : Timestamp) : timestampUnmarshal s = some v ↔
    s = b!"null" ∧ v = Int64.ofInt (-62135596800000000000) ∨ ∃ t : DateTime, t.OnCalendar ∧ t.AnyText s ∧ v = Int64.ofInt t.instant := by
  constructor
  · intro h
    unfold timestampUnmarshal at h
    by_cases hnull : s = b!"null"
    · rw [if_pos hnull] at h
      cases h
      exact .inl ⟨hnull, rfl⟩
    · rw [if_neg hnull, Option.map_eq_some_iff] at h
      obtain ⟨x, hx, rfl⟩ := h
      right
      unfold parseTime at hx
      simp only [Option.bind_eq_bind, Option.bind_none, Option.ite_none_left_eq_some, Option.bind_eq_some_iff] at hx
      obtain ⟨s1, e1, ⟨year, s2⟩, e2, s3, e3, ⟨month, s4⟩, e4, c1, s5, e5, ⟨day, s6⟩, e6, s7, e7, ⟨hour, s8⟩, e8, c2, s9, e9, ⟨min, s10⟩, e10, c3, s11, e11, ⟨sec, s12⟩, e12, c4,
        ⟨nsec, s13⟩, e13, ⟨offset, s14⟩, e14, s15, e15, c5, c6, hx⟩ := hx
      dsimp only at *
      rw [skipByte_iff] at e1 e3 e5 e7 e9 e11 e15
      obtain ⟨y, yn, hy, rfl, rfl⟩ := parseYear_iff.mp e2
      obtain ⟨mo, hmo, rfl⟩ := getnum_fixed.mp e4
      obtain ⟨d, hd, rfl⟩ := getnum_fixed.mp e6
      obtain ⟨mi, hmi, rfl⟩ := getnum_fixed.mp e10
      obtain ⟨se, hse, rfl⟩ := getnum_fixed.mp e12
      obtain ⟨z, zone, hz, rfl, rfl⟩ := parseZone_iff.mp e14
      obtain ⟨f, hf, rfl⟩ := (parseFraction_iff (anyZone_head hz _)).mp e13
      have hs15 : s15 = [] := Classical.not_not.mp c5
      have hh : ∃ h, (Numeral 2 h hour ∨ Numeral 1 h hour) ∧ s7 = h ++ s8 := by
        rcases getnum_any.mp e8 with ⟨h, hh, e⟩ | ⟨h, hh, e, _⟩
        · exact ⟨h, .inl hh, e⟩
        · exact ⟨h, .inr hh, e⟩
      obtain ⟨h, hh, rfl⟩ := hh
      obtain ⟨v1, v2⟩ : 1 ≤ month ∧ month ≤ 12 := by omega
      rw [daysIn_spec v1 v2] at c6
      have hy9 : yn ≤ 9999 := by
        have := decimalValue_lt hy.2.1
        rw [hy.2.2, hy.1] at this
        omega
      refine ⟨⟨yn, month, day, hour, min, sec, nsec, zone⟩, ⟨v1, v2, ?_, ?_, ?_, ?_, ?_⟩, ⟨y, mo, d, h, mi, se, f, z, hy, hmo, hd, hh, hmi, hse, hf, hz, ?_⟩, ?_⟩
      · show 1 ≤ day; omega
      · show day ≤ monthLength (leapYear yn) month; omega
      · show hour < 24; omega
      · show min < 60; omega
      · show sec < 60; omega
      · rw [e1, e3, e5, e7, e9, e11, e15, hs15]
      · rw [dateUnix_spec hy9 v1 v2] at hx
        rw [← Option.some.inj hx]
        refine congrArg Int64.ofInt ?_
        exact instant_arith ..
  · rintro (⟨rfl, rfl⟩ | ⟨t, hc, hs, rfl⟩)
    · rfl
    · obtain ⟨y, mo, d, h, mi, sec, frac, zone, hy, hmo, hd, hh, hmi, hsec, hfrac, hzone, rfl⟩ := hs
      obtain ⟨v2, v3, v4, v5, v6, v7, v8⟩ := hc
      have v1 : t.year ≤ 9999 := by
        have := decimalValue_lt hy.2.1
        rw [hy.2.2, hy.1] at this
        omega
      unfold timestampUnmarshal
      rw [if_neg (by intro h; cases h)]
      unfold parseTime
      have c1 : ¬ (t.month = 0 ∨ 12 < t.month) := by omega
      have c2 : ¬ 24 ≤ t.hour := by omega
      have c3 : ¬ 60 ≤ t.minute := by omega
      have c4 : ¬ 60 ≤ t.second := by omega
      have c5 : ¬ (t.day < 1 ∨ t.day > daysIn t.month t.year) := by rw [daysIn_spec v2 v3]; omega
      have hhour : ∀ r : Str, getnum false (h ++ c!":" :: r) = some (t.hour, c!":" :: r) := fun r =>
        getnum_any.mpr (hh.imp (fun hh => ⟨h, hh, rfl⟩) fun hh => ⟨h, hh, rfl, fun c hc => by cases hc; rfl⟩)
      have hz : ∀ r : Str, parseZone (zone ++ r) = some (t.zone * 60, r) := fun r => parseZone_iff.mpr ⟨zone, t.zone, hzone, rfl, rfl⟩
      have hf : ∀ r : Str, parseFraction (frac ++ (zone ++ r)) = some (t.nano, zone ++ r) := fun r => (parseFraction_iff (anyZone_head hzone r)).mpr ⟨frac, hfrac, rfl⟩
      simp only [skipByte_cons, Option.bind_eq_bind, Option.bind_some, parseYear_numeral hy, getnum_numeral hmo, getnum_numeral hd, hhour, getnum_numeral hmi,
        getnum_numeral hsec, hf, hz, c1, c2, c3, c4, c5, if_false, ne_eq, not_true_eq_false,
        Option.map_some, dateUnix_spec v1 v2 v3]
      refine congrArg some (congrArg Int64.ofInt ?_)
      exact instant_arith ..

/-- A text of RFC 3339 with a date of the calendar, and a fraction of at most nine digits, is among them. -/
theorem C112_standard {t : DateTime} (hv : t.Valid) {s : Str} (h : t.Text s) : t.OnCalendar ∧ t.AnyText s := by
  obtain ⟨y, mo, d, h, mi, sec, frac, zone, hy, hmo, hd, hh, hmi, hsec, hfrac, hzone, rfl⟩ := h
  obtain ⟨v1, v2, v3, v4, v5, v6, v7, v8, v9, v10, v11⟩ := hv
  refine ⟨⟨v2, v3, v4, v5, v6, v7, v8⟩, y, mo, d, h, mi, sec, frac, zone, hy, hmo, hd, .inl hh, hmi, hsec, ?_, ?_, rfl⟩
  · rcases hfrac with h | ⟨digits, k, e, hk, n, hn, e'⟩
    · exact .inl h
    · have hlt := decimalValue_lt hn.2.1
      rw [hn.2.2, hn.1] at hlt
      have hle : 10 ^ (k + 1) ≤ 10 ^ 9 := Nat.pow_le_pow_right (by decide) (by omega)
      exact .inr ⟨digits, n, e, by rw [hn.1]; exact Nat.succ_pos _, by rw [hn.1]; exact hn, by omega, by rw [e', hn.1, show 9 - (k + 1) = 8 - k by omega]⟩
  · rcases hzone with h | ⟨h, m, hs, ms, hh, hm, _, h' | h'⟩
    · exact .inl h
    · exact .inr ⟨h, m, hs, ms, .inl ⟨h, hh, rfl⟩, .inl ⟨m, hm, rfl⟩, .inl ⟨h'.1, by rw [h'.2]; push_cast; rfl⟩⟩
    · exact .inr ⟨h, m, hs, ms, .inl ⟨h, hh, rfl⟩, .inl ⟨m, hm, rfl⟩, .inr ⟨h'.1, by rw [h'.2]; push_cast; rfl⟩⟩

/-- Not only dates of RFC 3339 are read: an hour may have one digit, a zone may be 99 hours and 99 minutes away or have signs in it. And with more than nine digits, a fraction is not what it says: a twentieth of
a second is read as half a second. -/
theorem C112_examples : timestampUnmarshal b!"\"2020-01-01T7:00:00Z\"" = some 1577862000000000000 ∧
    timestampUnmarshal b!"\"2020-01-01T00:00:00+99:99\"" = some 1577474460000000000 ∧
    timestampUnmarshal b!"\"2020-01-01T00:00:00+-1:+5\"" = some 1577840100000000000 ∧
    timestampUnmarshal b!"\"2020-01-01T00:00:00.05Z\"" = some 1577836800050000000 ∧
    timestampUnmarshal b!"\"2020-01-01T00:00:00.0500000000Z\"" = some 1577836800500000000 ∧
    timestampUnmarshal b!"\"2020-01-01T00:00:00.1500000000Z\"" = none := by
  decide +kernel

/-- And these are not: one digit for a month, a year with a sign, the 29th of February 2021, a leap second, small letters, a space instead of the T, no seconds, anything after the date. -/
theorem C112_rejected : ([b!"\"2020-1-01T00:00:00Z\"", b!"\"+202-01-01T00:00:00Z\"", b!"\"2021-02-29T00:00:00Z\"", b!"\"2016-12-31T23:59:60Z\"", b!"\"2020-01-01t00:00:00z\"", b!"\"2020-01-01 00:00:00Z\"",
    b!"\"2020-01-01T00:00Z\"", b!"\"2020-01-01T00:00:00Z\" ", b!"1577836800000000"].map timestampUnmarshal).all (·.isNone) = true := by
  decide +kernel

/-- A date is a text for at most one time. -/
theorem C112_unique {s : Str} {t t' : DateTime} (hc : t.OnCalendar) (hs : t.AnyText s) (hc' : t'.OnCalendar) (hs' : t'.AnyText s) : Int64.ofInt t.instant = Int64.ofInt t'.instant := by
  have h := (C112_exact s _).mpr (.inr ⟨t, hc, hs, rfl⟩)
  rw [(C112_exact s _).mpr (.inr ⟨t', hc', hs', rfl⟩)] at h
  exact (Option.some.inj h).symm

end Verif
