import Verif.Proofs.TimeJson

/-!
# C74: times in JSON
-/

namespace Verif

open Spec

theorem int64_bounds (x : Int64) : -9223372036854775808 ≤ x.toInt ∧ x.toInt ≤ 9223372036854775807 :=
  ⟨by have := x.le_toInt; omega, by have := x.toInt_lt; omega⟩

/-- **C74**: A time is written as a valid date, and the date denotes this time exactly, to the nanosecond, in every time zone whose offset is a number of minutes. -/
theorem C74_text (zone : Int → Int) (ts : Timestamp) {z : Int} (hz : zone (ts.toInt / 1000000000) = z * 60) (h1 : -1440 < z) (h2 : z < 1440) :
    ∃ s t, timestampMarshal zone ts = some s ∧ DateTime.Valid t ∧ t.Text s ∧ t.instant = ts.toInt := by
  have hb := int64_bounds ts
  unfold timestampMarshal
  simp only [hz]
  generalize hu : ts.toInt / 1000000000 = unix
  generalize hn : (ts.toInt % 1000000000).toNat = nsec
  have hts : ts.toInt = unix * 1000000000 + nsec := by omega
  have hns : nsec < 1000000000 := by omega
  have hul : -9223372037 ≤ unix ∧ unix ≤ 9223372036 := by omega
  generalize habs : (unix + z * 60 + unixToAbsolute).toNat = abs
  have habs' : (abs : Int) = unix + z * 60 + unixToAbsolute := by
    unfold unixToAbsolute at *; omega
  obtain ⟨k, hk⟩ : ∃ k, abs / 86400 = 730692556 * 146097 + k := ⟨abs / 86400 - 730692556 * 146097, by unfold unixToAbsolute at *; omega⟩
  obtain ⟨y, yday, he, hy1, hdays, hlt⟩ := absYear_spec k
  rw [hk, he]
  simp only [isLeap_natCast]
  obtain ⟨m1, m2, m3, m4, m5⟩ := monthDay_spec (leapYear y) yday (by unfold yearLength at hlt; exact hlt)
  generalize (monthDay (leapYear y) yday).1 = month at *
  generalize (monthDay (leapYear y) yday).2 = day at *
  have hk2 : k < 2 * 719528 := by unfold unixToAbsolute at *; omega
  have hyear : y ≤ 9999 := by
    have := daysBeforeYear_eq y
    omega
  rw [if_neg (by omega)]
  refine ⟨_, ⟨y, month, day, abs % 86400 / 3600, abs % 86400 % 3600 / 60, abs % 86400 % 60, nsec, z⟩, rfl, ?_, ?_, ?_⟩
  · exact ⟨hyear, m1, m2, m3, m4, by dsimp only; omega, by dsimp only; omega, by dsimp only; omega, hns, h1, h2⟩
  · have hml : monthLength (leapYear y) month ≤ 31 := by
      have key : ∀ leap : Bool, ∀ m : Fin 13, monthLength leap m ≤ 31 := by decide +kernel
      exact key (leapYear y) ⟨month, by omega⟩
    refine ⟨_, _, _, _, _, _, _, _, numeral_appendInt ?_, numeral_appendInt ?_, numeral_appendInt ?_, numeral_appendInt ?_, numeral_appendInt ?_,
      numeral_appendInt ?_, formatNano_spec hns, formatZone_spec h1 h2, rfl⟩
    all_goals dsimp only
    all_goals omega
  · unfold DateTime.instant
    dsimp only
    have h1970 : daysBeforeYear 1970 = 719528 := by
      have := daysBeforeYear_eq 1970
      omega
    rw [h1970, Nat.add_assoc, m5, hdays, hts]
    unfold unixToAbsolute at *
    omega

theorem instant_arith (a w h mi s n : Nat) (z : Int) :
    (((a : Int) - (w : Nat)) * 86400 + ((h * 3600 + mi * 60 + s : Nat) : Int) - z * 60) * 1000000000 + n =
      ((((a : Int) - (w : Nat)) * 24 + h) * 60 + mi - z) * 60 * 1000000000 + s * 1000000000 + n := by
  omega

/-- **C74**: Every valid date in the syntax of RFC 3339 is read as the time that it denotes. -/
theorem C74_parse {t : DateTime} (hv : DateTime.Valid t) {s : Str} (hs : t.Text s) : timestampUnmarshal s = some (Int64.ofInt t.instant) := by
  obtain ⟨y, mo, d, h, mi, sec, frac, zone, hy, hmo, hd, hh, hmi, hsec, hfrac, hzone, rfl⟩ := hs
  obtain ⟨v1, v2, v3, v4, v5, v6, v7, v8, v9, v10, v11⟩ := hv
  unfold timestampUnmarshal
  rw [if_neg (by intro h; cases h)]
  unfold parseTime
  have c1 : ¬ (t.month = 0 ∨ 12 < t.month) := by omega
  have c2 : ¬ 24 ≤ t.hour := by omega
  have c3 : ¬ 60 ≤ t.minute := by omega
  have c4 : ¬ 60 ≤ t.second := by omega
  have c5 : ¬ (t.day < 1 ∨ t.day > daysIn t.month t.year) := by rw [daysIn_spec v2 v3]; omega
  simp only [skipByte_cons, Option.bind_eq_bind, Option.bind_some, parseYear_numeral hy, getnum_numeral hmo, getnum_numeral hd, getnum_numeral hh, getnum_numeral hmi,
    getnum_numeral hsec, parseFraction_spec hfrac (zone_head hzone _), parseZone_spec hzone, c1, c2, c3, c4, c5, if_false, ne_eq, not_true_eq_false,
    Option.map_some, dateUnix_spec v1 v2 v3]
  refine congrArg some (congrArg Int64.ofInt ?_)
  exact instant_arith ..

/-- **C74**, partial: A time that is written as JSON and read again is the same, in every time zone whose offset is a number of minutes. -/
theorem C74_roundtrip_partial (zone : Int → Int) (ts : Timestamp) {z : Int} (hz : zone (ts.toInt / 1000000000) = z * 60) (h1 : -1440 < z) (h2 : z < 1440) :
    (timestampMarshal zone ts).bind timestampUnmarshal = some ts := by
  obtain ⟨s, t, hs, hv, ht, hi⟩ := C74_text zone ts hz h1 h2
  rw [hs, Option.bind_some, C74_parse hv ht, hi, Int64.ofInt_toInt]

/-- **C74** is false without the assumption: Berlin before April 1893 was 53 minutes and 28 seconds ahead. A time is written and read again as one 28 seconds later. -/
theorem C74_fails : timestampMarshal (fun _ => 3208) (Int64.ofInt (-2500000000000000000)) = some b!"\"1890-10-11T20:26:48+00:53\"" ∧
    timestampUnmarshal b!"\"1890-10-11T20:26:48+00:53\"" = some (Int64.ofInt (-2499999972000000000)) := by
  decide +kernel

/-- `null` is not ignored: the timestamp becomes a time in 1754 (the beginning of the year 1 does not fit). -/
theorem C74_null : timestampUnmarshal b!"null" = some (-6795364578871345152) := by decide +kernel

theorem C74_witness : timestampMarshal (fun _ => 19800) 1600000000123450000 = some b!"\"2020-09-13T17:56:40.12345+05:30\"" ∧
    timestampUnmarshal b!"\"2020-09-13T17:56:40.12345+05:30\"" = some 1600000000123450000 := by
  decide +kernel

end Verif
