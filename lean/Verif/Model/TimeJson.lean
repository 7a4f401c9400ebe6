import Verif.Model.Span

/-!
# proxy/timestamp.go: timestamps as JSON

`MarshalJSON` and `UnmarshalJSON` of `Timestamp` delegate to those of `time.Time`, whose source (package `time` of Go 1.15) is modelled here. Seconds and days are unbounded
numbers: there is no overflow for times that are 64-bit numbers of nanoseconds. The time zone of the process (`time.Local`) is any function from seconds since 1970 to the
offset in seconds.
-/

namespace Verif

/-! ## Calendar -/

/-- `daysBefore` of time/time.go: the days before each month of a year that is not a leap year. -/
def daysBefore (month : Nat) : Nat :=
  [0, 31, 59, 90, 120, 151, 181, 212, 243, 273, 304, 334, 365].getD month 0

/-- `isLeap` of time/time.go. -/
def isLeap (year : Int) : Bool := year % 4 = 0 && (year % 100 ≠ 0 || year % 400 = 0)

/-- `absoluteZeroYear` of time/time.go. -/
def absoluteZeroYear : Int := -292277022399

/-- `unixToInternal + internalToAbsolute` of time/time.go: the seconds from the beginning of `absoluteZeroYear` to 1970. -/
def unixToAbsolute : Int := 9223372028715321600

/-- `absDate` of time/time.go, its first part: year and day of the year for a number of days since `absoluteZeroYear`. -/
def absYear (d : Nat) : Int × Nat :=
  let n := d / 146097
  let y := 400 * n
  let d := d - 146097 * n
  let n := d / 36524
  let n := n - n / 4
  let y := y + 100 * n
  let d := d - 36524 * n
  let n := d / 1461
  let y := y + 4 * n
  let d := d - 1461 * n
  let n := d / 365
  let n := n - n / 4
  let y := y + n
  let d := d - 365 * n
  ((y : Int) + absoluteZeroYear, d)

/-- `absDate` of time/time.go, its second part: month and day. -/
def monthDay (leap : Bool) (yday : Nat) : Nat × Nat :=
  if leap ∧ yday = 31 + 29 - 1 then (2, 29)
  else
    let day := if leap ∧ yday > 31 + 29 - 1 then yday - 1 else yday
    let month := day / 31
    let last := daysBefore (month + 1)
    if day ≥ last then (month + 1 + 1, day - last + 1) else (month + 1, day - daysBefore month + 1)

/-- `Date` of time/time.go with `daysSinceEpoch`: the seconds since 1970 of a date and time (all fields are in their range). -/
def dateUnix (year : Int) (month day hour min sec : Nat) : Int :=
  let y := (year - absoluteZeroYear).toNat
  let n := y / 400
  let y := y - 400 * n
  let d := 146097 * n
  let n := y / 100
  let y := y - 100 * n
  let d := d + 36524 * n
  let n := y / 4
  let y := y - 4 * n
  let d := d + 1461 * n
  let d := d + 365 * y
  let d := d + daysBefore (month - 1)
  let d := if isLeap year ∧ month ≥ 3 then d + 1 else d
  let d := d + (day - 1)
  let abs := d * 86400 + (hour * 3600 + min * 60 + sec)
  (abs : Int) - unixToAbsolute

/-- `daysIn` of time/time.go. -/
def daysIn (month : Nat) (year : Int) : Nat :=
  if month = 2 ∧ isLeap year then 29 else daysBefore month - daysBefore (month - 1)

/-! ## Formatting -/

/-- The last `width` decimal digits of a number. -/
def digitsW : (width : Nat) → Nat → Str
  | 0, _ => []
  | width + 1, x => digitsW width (x / 10) ++ [UInt8.ofNat (48 + x % 10)]

/-- `appendInt` of time/format.go; all numbers here have at most `width` digits. -/
def appendInt (x width : Nat) : Str := digitsW width x

/-- `formatNano` of time/format.go for `.999999999`: trailing zeros are removed, and the point if nothing is left. -/
def formatNano (nanosec : Nat) : Str :=
  let kept := ((digitsW 9 nanosec).reverse.dropWhile (· = c!"0")).reverse
  if kept = [] then [] else c!"." :: kept

/-- The zone in the format `Z07:00` (time/format.go `AppendFormat`). Division truncates. -/
def formatZone (offset : Int) : Str :=
  if offset = 0 then b!"Z"
  else
    let zone := offset.tdiv 60
    let sign := if zone < 0 then c!"-" else c!"+"
    let zone := zone.natAbs
    sign :: (appendInt (zone / 60) 2 ++ c!":" :: appendInt (zone % 60) 2)

/-- proxy/timestamp.go:36-38 `Timestamp.MarshalJSON`, with `time.Unix(0, ns)` (line 25), `Time.MarshalJSON` and `AppendFormat(RFC3339Nano)`; `none` is an error. -/
def timestampMarshal (zone : Int → Int) (ts : Timestamp) : Option Str :=
  let unix := ts.toInt / 1000000000
  let nsec := (ts.toInt % 1000000000).toNat
  let offset := zone unix
  let abs := (unix + offset + unixToAbsolute).toNat
  let (year, yday) := absYear (abs / 86400)
  let (month, day) := monthDay (isLeap year) yday
  let rest := abs % 86400
  if year < 0 ∨ year ≥ 10000 then none
  else some (c!"\"" :: (appendInt year.toNat 4 ++ c!"-" :: (appendInt month 2 ++ c!"-" :: (appendInt day 2 ++ c!"T" ::
    (appendInt (rest / 3600) 2 ++ c!":" :: (appendInt (rest % 3600 / 60) 2 ++ c!":" :: (appendInt (rest % 60) 2 ++ (formatNano nsec ++
      (formatZone offset ++ b!"\"")))))))))

/-! ## Parsing -/

/-- `isDigit` of time/format.go for one byte. -/
def isDigit (c : UInt8) : Bool := decide (c!"0" ≤ c ∧ c ≤ c!"9")

/-- The value of a digit. -/
def digitVal (c : UInt8) : Nat := c.toNat - 48

/-- `getnum` of time/format.go: one or two digits, or exactly two. -/
def getnum (fixed : Bool) : Str → Option (Nat × Str)
  | c :: c2 :: rest =>
    if isDigit c then
      if isDigit c2 then some (digitVal c * 10 + digitVal c2, rest)
      else if fixed then none else some (digitVal c, c2 :: rest)
    else none
  | [c] => if isDigit c ∧ ¬ fixed then some (digitVal c, []) else none
  | [] => none

/-- `skip` of time/format.go for a literal byte of the layout. -/
def skipByte (c : UInt8) : Str → Option Str
  | c' :: rest => if c' = c then some rest else none
  | [] => none

/-- The number denoted by digits. -/
def digitsVal (s : Str) : Nat := s.foldl (fun x c => x * 10 + digitVal c) 0

/-- `atoi` of time/format.go. -/
def atoi (s : Str) : Option Int :=
  match s with
  | c :: rest =>
    if c = c!"-" then if rest.all isDigit then some (-(digitsVal rest : Int)) else none
    else if c = c!"+" then if rest.all isDigit then some (digitsVal rest) else none
    else if s.all isDigit then some (digitsVal s) else none
  | [] => some 0

/-- The special case for fractional seconds in `Parse` of time/format.go, with `parseNanoseconds`. (`atoi` fails for numbers that do not fit, which are out of range
anyway.) -/
def parseFraction : Str → Option (Nat × Str)
  | p :: d :: rest =>
    if p = c!"." ∧ isDigit d then
      let digits := (d :: rest).takeWhile isDigit
      let ns := digitsVal digits
      if ns ≥ 1000000000 then none
      else some (ns * 10 ^ (9 - digits.length), (d :: rest).dropWhile isDigit)
    else some (0, p :: d :: rest)
  | s => some (0, s)

/-- The zone in the format `Z07:00` in `Parse` of time/format.go: the offset in seconds. -/
def parseZone : Str → Option (Int × Str)
  | sign :: rest =>
    if sign = c!"Z" then some (0, rest)
    else
      match rest with
      | h1 :: h2 :: colon :: m1 :: m2 :: rest =>
        if colon ≠ c!":" then none
        else do
          let hr ← atoi [h1, h2]
          let mm ← atoi [m1, m2]
          let zoneOffset := (hr * 60 + mm) * 60
          if sign = c!"+" then some (zoneOffset, rest) else if sign = c!"-" then some (-zoneOffset, rest) else none
      | _ => none
  | [] => none

/-- The year in `Parse` of time/format.go. -/
def parseYear (s : Str) : Option (Int × Str) :=
  match s with
  | c :: _ => if s.length < 4 ∨ ¬ isDigit c then none else (atoi (s.take 4)).map fun y => (y, s.drop 4)
  | [] => none

/-- `Parse` of time/format.go for the layout `"2006-01-02T15:04:05Z07:00"` (with quotes): the nanoseconds since 1970. -/
def parseTime (s : Str) : Option Int := do
  let s ← skipByte c!"\"" s
  let (year, s) ← parseYear s
  let s ← skipByte c!"-" s
  let (month, s) ← getnum true s
  if month = 0 ∨ 12 < month then none
  let s ← skipByte c!"-" s
  let (day, s) ← getnum true s
  let s ← skipByte c!"T" s
  let (hour, s) ← getnum false s
  if 24 ≤ hour then none
  let s ← skipByte c!":" s
  let (min, s) ← getnum true s
  if 60 ≤ min then none
  let s ← skipByte c!":" s
  let (sec, s) ← getnum true s
  if 60 ≤ sec then none
  let (nsec, s) ← parseFraction s
  let (offset, s) ← parseZone s
  let s ← skipByte c!"\"" s
  if s ≠ [] then none
  if day < 1 ∨ day > daysIn month year then none
  some ((dateUnix year month day hour min sec - offset) * 1000000000 + nsec)

/-- The zero `time.Time` is the beginning of the year 1, in nanoseconds since 1970. -/
def zeroTime : Int := -62135596800 * 1000000000

/-- proxy/timestamp.go:40-48 `Timestamp.UnmarshalJSON`: the new value. `Time.UnmarshalJSON` does nothing for `null`; `UnixNano` wraps around. -/
def timestampUnmarshal (encoded : Str) : Option Timestamp :=
  if encoded = b!"null" then some (Int64.ofInt zeroTime)
  else (parseTime encoded).map Int64.ofInt

end Verif
