import Verif.Model.Go

/-!
# What a JSON string literal stands for

`unescape` is the reading of escapes the parser is meant to have (every escaped character other than `u` stands for itself); it works on
immutable lists and produces a new list. `JsonString` is the reading of the JSON standard (RFC 8259, section 7).
Both are about the bytes between the quotes. Neither uses a definition of the model.
-/

namespace Verif.Spec

/-- A hexadecimal digit and its value. -/
def hexDigits : List (UInt8 × Nat) :=
  [(c!"0", 0), (c!"1", 1), (c!"2", 2), (c!"3", 3), (c!"4", 4), (c!"5", 5), (c!"6", 6), (c!"7", 7), (c!"8", 8),
    (c!"9", 9), (c!"a", 10), (c!"b", 11), (c!"c", 12), (c!"d", 13), (c!"e", 14), (c!"f", 15), (c!"A", 10),
    (c!"B", 11), (c!"C", 12), (c!"D", 13), (c!"E", 14), (c!"F", 15)]

/-- The number written by four hexadecimal digits. -/
def hex4 (a b c d : UInt8) : Option Nat := do
  let a ← hexDigits.lookup a
  let b ← hexDigits.lookup b
  let c ← hexDigits.lookup c
  let d ← hexDigits.lookup d
  return ((a * 16 + b) * 16 + c) * 16 + d

/-- A code point that is half of a surrogate pair. -/
def Surrogate (r : Nat) : Prop := 0xD800 ≤ r ∧ r < 0xE000

instance (r : Nat) : Decidable (Surrogate r) := inferInstanceAs (Decidable (_ ∧ _))

/-- The UTF-8 encoding of a code point (RFC 3629, section 3). -/
def utf8 (r : Nat) : List UInt8 :=
  if r ≤ 0x7F then [UInt8.ofNat r]
  else if r ≤ 0x7FF then [UInt8.ofNat (0b11000000 + r / 0x40), UInt8.ofNat (0b10000000 + r % 0x40)]
  else if r ≤ 0xFFFF then
    [UInt8.ofNat (0b11100000 + r / 0x1000), UInt8.ofNat (0b10000000 + r / 0x40 % 0x40), UInt8.ofNat (0b10000000 + r % 0x40)]
  else
    [UInt8.ofNat (0b11110000 + r / 0x40000), UInt8.ofNat (0b10000000 + r / 0x1000 % 0x40),
      UInt8.ofNat (0b10000000 + r / 0x40 % 0x40), UInt8.ofNat (0b10000000 + r % 0x40)]

/-- The bytes of a `\u` escape: half of a surrogate pair becomes the replacement character U+FFFD. -/
def runeBytes (r : Nat) : List UInt8 := if Surrogate r then utf8 0xFFFD else utf8 r

/-- The escapes of the literal resolved in fresh memory; `none` if an escape is incomplete or not hexadecimal. -/
def unescape : List UInt8 → Option (List UInt8)
  | [] => some []
  | c :: rest =>
    if c ≠ c!"\\" then (unescape rest).map (c :: ·)
    else match rest with
      | [] => none
      | e :: rest =>
        if e ≠ c!"u" then (unescape rest).map (e :: ·)
        else match rest with
          | h1 :: h2 :: h3 :: h4 :: rest =>
            match hex4 h1 h2 h3 h4 with
            | none => none
            | some r => (unescape rest).map (runeBytes r ++ ·)
          | _ => none

/-- The two-character escapes of the standard, with the character each stands for. -/
def shortEscapes : List (UInt8 × UInt8) :=
  [(c!"\"", 0x22), (c!"\\", 0x5C), (c!"/", 0x2F), (c!"b", 0x08), (c!"f", 0x0C), (c!"n", 0x0A), (c!"r", 0x0D),
    (c!"t", 0x09)]

/-- `JsonString lit v`: by the standard, the literal with the bytes `lit` between its quotes stands for the text with the UTF-8
encoding `v`. The standard gives no meaning to an unpaired surrogate, so neither does this relation. -/
inductive JsonString : List UInt8 → List UInt8 → Prop
  | nil : JsonString [] []
  /-- an unescaped character: anything but a quote, a backslash or a control character -/
  | char {c : UInt8} {lit v : List UInt8} (hq : c ≠ c!"\"") (hb : c ≠ c!"\\") (hc : 0x20 ≤ c) :
      JsonString lit v → JsonString (c :: lit) (c :: v)
  | short {e c : UInt8} {lit v : List UInt8} (h : (e, c) ∈ shortEscapes) :
      JsonString lit v → JsonString (c!"\\" :: e :: lit) (c :: v)
  | unicode {h1 h2 h3 h4 : UInt8} {r : Nat} {lit v : List UInt8} (h : hex4 h1 h2 h3 h4 = some r) (hs : ¬ Surrogate r) :
      JsonString lit v → JsonString (c!"\\" :: c!"u" :: h1 :: h2 :: h3 :: h4 :: lit) (utf8 r ++ v)
  | pair {h1 h2 h3 h4 l1 l2 l3 l4 : UInt8} {hi lo : Nat} {lit v : List UInt8} (hh : hex4 h1 h2 h3 h4 = some hi)
      (hl : hex4 l1 l2 l3 l4 = some lo) (hhi : 0xD800 ≤ hi ∧ hi < 0xDC00) (hlo : 0xDC00 ≤ lo ∧ lo < 0xE000) :
      JsonString lit v →
      JsonString (c!"\\" :: c!"u" :: h1 :: h2 :: h3 :: h4 :: c!"\\" :: c!"u" :: l1 :: l2 :: l3 :: l4 :: lit)
        (utf8 (0x10000 + (hi - 0xD800) * 0x400 + (lo - 0xDC00)) ++ v)

/-- `PlainString lit v`: as `JsonString`, for the literals that use no escape for a control character (`\b`, `\f`, `\n`, `\r`, `\t`)
and no surrogate pair. -/
inductive PlainString : List UInt8 → List UInt8 → Prop
  | nil : PlainString [] []
  | char {c : UInt8} {lit v : List UInt8} (hq : c ≠ c!"\"") (hb : c ≠ c!"\\") (hc : 0x20 ≤ c) :
      PlainString lit v → PlainString (c :: lit) (c :: v)
  | short {e : UInt8} {lit v : List UInt8} (h : e = c!"\"" ∨ e = c!"\\" ∨ e = c!"/") :
      PlainString lit v → PlainString (c!"\\" :: e :: lit) (e :: v)
  | unicode {h1 h2 h3 h4 : UInt8} {r : Nat} {lit v : List UInt8} (h : hex4 h1 h2 h3 h4 = some r) (hs : ¬ Surrogate r) :
      PlainString lit v → PlainString (c!"\\" :: c!"u" :: h1 :: h2 :: h3 :: h4 :: lit) (utf8 r ++ v)

end Verif.Spec
