import Verif.Spec.Json

/-!
# Specification of dates (RFC 3339, Gregorian calendar)
-/

namespace Verif.Spec

/-- RFC 3339, appendix C. -/
def leapYear (y : Nat) : Bool := y % 4 = 0 && (y % 100 ≠ 0 || y % 400 = 0)

def yearLength (y : Nat) : Nat := if leapYear y then 366 else 365

/-- The number of days from the beginning of the year 0 to the beginning of the given year. -/
def daysBeforeYear : Nat → Nat
  | 0 => 0
  | y + 1 => daysBeforeYear y + yearLength y

/-- The lengths of the months, January is 1. -/
def monthLength (leap : Bool) : Nat → Nat
  | 1 => 31 | 2 => if leap then 29 else 28 | 3 => 31 | 4 => 30 | 5 => 31 | 6 => 30
  | 7 => 31 | 8 => 31 | 9 => 30 | 10 => 31 | 11 => 30 | 12 => 31 | _ => 0

/-- The days of a year before the month `m + 1`. -/
def daysBeforeMonth (leap : Bool) : Nat → Nat
  | 0 => 0
  | m + 1 => daysBeforeMonth leap m + monthLength leap (m + 1)

/-- A date and time with its zone, in minutes east. -/
structure DateTime where
  year : Nat
  month : Nat
  day : Nat
  hour : Nat
  minute : Nat
  second : Nat
  nano : Nat
  zone : Int

def DateTime.Valid (t : DateTime) : Prop :=
  t.year ≤ 9999 ∧ 1 ≤ t.month ∧ t.month ≤ 12 ∧ 1 ≤ t.day ∧ t.day ≤ monthLength (leapYear t.year) t.month ∧
  t.hour < 24 ∧ t.minute < 60 ∧ t.second < 60 ∧ t.nano < 1000000000 ∧ -1440 < t.zone ∧ t.zone < 1440

/-- The nanoseconds since 1970-01-01T00:00:00Z; leap seconds do not exist. -/
def DateTime.instant (t : DateTime) : Int :=
  (((((daysBeforeYear t.year + daysBeforeMonth (leapYear t.year) (t.month - 1) + (t.day - 1) : Nat) : Int) - (daysBeforeYear 1970 : Nat)) * 24 + t.hour) * 60 +
    t.minute - t.zone) * 60 * 1000000000 + t.second * 1000000000 + t.nano

/-- `s` is the number `n` written with `width` digits. -/
def Numeral (width : Nat) (s : Str) (n : Nat) : Prop :=
  s.length = width ∧ (∀ c ∈ s, c!"0" ≤ c ∧ c ≤ c!"9") ∧ decimalValue s = n

/-- An optional fraction of a second, at most nine digits. -/
def Fraction (s : Str) (nano : Nat) : Prop :=
  (s = [] ∧ nano = 0) ∨ ∃ digits k, s = c!"." :: digits ∧ k < 9 ∧ ∃ n, Numeral (k + 1) digits n ∧ nano = n * 10 ^ (8 - k)

/-- The zone: `Z` or a sign with hours and minutes. -/
def ZoneText (s : Str) (zone : Int) : Prop :=
  (s = b!"Z" ∧ zone = 0) ∨
  ∃ h m hs ms, Numeral 2 hs h ∧ Numeral 2 ms m ∧ m < 60 ∧
    ((s = c!"+" :: (hs ++ c!":" :: ms) ∧ zone = (h * 60 + m : Nat)) ∨ (s = c!"-" :: (hs ++ c!":" :: ms) ∧ zone = -((h * 60 + m : Nat) : Int)))

/-- RFC 3339, section 5.6: `date-time` in quotes, with capital letters `T` and `Z`. -/
def DateTime.Text (t : DateTime) (s : Str) : Prop :=
  ∃ y mo d h mi sec frac zone,
    Numeral 4 y t.year ∧ Numeral 2 mo t.month ∧ Numeral 2 d t.day ∧ Numeral 2 h t.hour ∧ Numeral 2 mi t.minute ∧ Numeral 2 sec t.second ∧
    Fraction frac t.nano ∧ ZoneText zone t.zone ∧
    s = c!"\"" :: (y ++ c!"-" :: (mo ++ c!"-" :: (d ++ c!"T" :: (h ++ c!":" :: (mi ++ c!":" :: (sec ++ (frac ++ (zone ++ b!"\""))))))))

end Verif.Spec
