import Verif.Spec.TimeJson

/-!
# Which texts are read as dates

As in RFC 3339 (Spec/TimeJson), but not quite.
-/

namespace Verif.Spec

/-- A fraction of a second with any number of digits. It counts in nanoseconds if there are more than nine; it has to be less than a second then, too. -/
def LongFraction (s : Str) (nano : Nat) : Prop :=
  (s = [] ∧ nano = 0) ∨ ∃ digits n, s = c!"." :: digits ∧ 0 < digits.length ∧ Numeral digits.length digits n ∧ n < 1000000000 ∧ nano = n * 10 ^ (9 - digits.length)

/-- Two characters of a zone: two digits, or a sign and a digit. -/
def ZoneNumber (s : Str) (n : Int) : Prop :=
  (∃ k : Nat, Numeral 2 s k ∧ n = k) ∨ ∃ d, ∃ k : Nat, Numeral 1 d k ∧ (s = c!"+" :: d ∧ n = k ∨ s = c!"-" :: d ∧ n = -(k : Int))

/-- A zone, with any numbers of hours and minutes. -/
def AnyZone (s : Str) (zone : Int) : Prop :=
  (s = b!"Z" ∧ zone = 0) ∨
  ∃ h m hs ms, ZoneNumber hs h ∧ ZoneNumber ms m ∧
    ((s = c!"+" :: (hs ++ c!":" :: ms) ∧ zone = h * 60 + m) ∨ (s = c!"-" :: (hs ++ c!":" :: ms) ∧ zone = -(h * 60 + m)))

/-- As `DateTime.Text`, with these fractions and zones, and hours with one digit. -/
def DateTime.AnyText (t : DateTime) (s : Str) : Prop :=
  ∃ y mo d h mi sec frac zone,
    Numeral 4 y t.year ∧ Numeral 2 mo t.month ∧ Numeral 2 d t.day ∧ (Numeral 2 h t.hour ∨ Numeral 1 h t.hour) ∧ Numeral 2 mi t.minute ∧ Numeral 2 sec t.second ∧
    LongFraction frac t.nano ∧ AnyZone zone t.zone ∧
    s = c!"\"" :: (y ++ c!"-" :: (mo ++ c!"-" :: (d ++ c!"T" :: (h ++ c!":" :: (mi ++ c!":" :: (sec ++ (frac ++ (zone ++ b!"\""))))))))

/-- A date of the calendar and a time of the day, in any zone. -/
def DateTime.OnCalendar (t : DateTime) : Prop :=
  1 ≤ t.month ∧ t.month ≤ 12 ∧ 1 ≤ t.day ∧ t.day ≤ monthLength (leapYear t.year) t.month ∧ t.hour < 24 ∧ t.minute < 60 ∧ t.second < 60

end Verif.Spec
