import Verif.Spec.JsonString

/-!
# JSON documents (RFC 8259)

The grammar of the standard: `Writes j t` says that the text `t` is one of the many ways to write the value `j`. A value keeps the
literals of its strings (the bytes between the quotes) and numbers as they are written. No definition of the model is used.
-/

namespace Verif.Spec

/-- The three literal names. -/
inductive JsonWord
  | null | true | false
deriving DecidableEq

def JsonWord.text : JsonWord → Str
  | .null => b!"null"
  | .true => b!"true"
  | .false => b!"false"

/-- A JSON value. -/
inductive Json
  | word (w : JsonWord)
  | number (text : Str)
  | string (lit : Str)
  | array (l : List Json)
  | object (members : List (Str × Json))

/-- Insignificant white space: blanks, tabs, line feeds, carriage returns (section 2). -/
def Blank (w : Str) : Prop := ∀ c ∈ w, c = 0x20 ∨ c = 0x09 ∨ c = 0x0A ∨ c = 0x0D

instance (w : Str) : Decidable (Blank w) := inferInstanceAs (Decidable (∀ c ∈ w, _))

/-- One or more decimal digits. -/
def Digits (s : Str) : Prop := s ≠ [] ∧ ∀ c ∈ s, c!"0" ≤ c ∧ c ≤ c!"9"

instance (s : Str) : Decidable (Digits s) := inferInstanceAs (Decidable (_ ∧ _))

/-- Section 6: an optional minus, an integer without leading zeros, an optional fraction, an optional exponent. -/
def JsonNumber (t : Str) : Prop :=
  ∃ minus int frac exp, t = minus ++ (int ++ (frac ++ exp)) ∧
    (minus = [] ∨ minus = b!"-") ∧
    (Digits int ∧ (int = b!"0" ∨ int.head? ≠ some c!"0")) ∧
    (frac = [] ∨ ∃ d, frac = c!"." :: d ∧ Digits d) ∧
    (exp = [] ∨ ∃ e sign d, exp = e :: (sign ++ d) ∧ (e = c!"e" ∨ e = c!"E") ∧ (sign = [] ∨ sign = b!"+" ∨ sign = b!"-") ∧ Digits d)

/-- A string literal of the standard (section 7). -/
def JsonLiteral (lit : Str) : Prop := ∃ v, JsonString lit v

mutual

/-- `Writes N j t`: `t` is a text for the value `j`, where all numbers are written as `N` allows. -/
inductive Writes (N : Str → Prop) : Json → Str → Prop
  | word (w : JsonWord) : Writes N (.word w) w.text
  | number {t : Str} : N t → Writes N (.number t) t
  | string {lit : Str} : JsonLiteral lit → Writes N (.string lit) (c!"\"" :: (lit ++ [c!"\""]))
  | array {l : List Json} {t : Str} : WritesElements N l t → Writes N (.array l) (c!"[" :: (t ++ [c!"]"]))
  | object {l : List (Str × Json)} {t : Str} : WritesMembers N l t → Writes N (.object l) (c!"{" :: (t ++ [c!"}"]))

/-- The text between the brackets of an array. -/
inductive WritesElements (N : Str → Prop) : List Json → Str → Prop
  | empty {w : Str} : Blank w → WritesElements N [] w
  | last {j : Json} {w t w' : Str} : Blank w → Writes N j t → Blank w' → WritesElements N [j] (w ++ (t ++ w'))
  | cons {j k : Json} {l : List Json} {w t w' u : Str} : Blank w → Writes N j t → Blank w' → WritesElements N (k :: l) u →
      WritesElements N (j :: k :: l) (w ++ (t ++ (w' ++ c!"," :: u)))

/-- The text between the braces of an object. -/
inductive WritesMembers (N : Str → Prop) : List (Str × Json) → Str → Prop
  | empty {w : Str} : Blank w → WritesMembers N [] w
  | last {lit : Str} {j : Json} {w w1 w2 t w' : Str} : Blank w → JsonLiteral lit → Blank w1 → Blank w2 → Writes N j t → Blank w' →
      WritesMembers N [(lit, j)] (w ++ c!"\"" :: (lit ++ c!"\"" :: (w1 ++ c!":" :: (w2 ++ (t ++ w')))))
  | cons {lit : Str} {j : Json} {m : Str × Json} {l : List (Str × Json)} {w w1 w2 t w' u : Str} : Blank w → JsonLiteral lit → Blank w1 →
      Blank w2 → Writes N j t → Blank w' → WritesMembers N (m :: l) u →
      WritesMembers N ((lit, j) :: m :: l) (w ++ c!"\"" :: (lit ++ c!"\"" :: (w1 ++ c!":" :: (w2 ++ (t ++ (w' ++ c!"," :: u))))))

end

/-- The numbers that are written without the characters `E` and `+`. -/
def PlainNumber (t : Str) : Prop := JsonNumber t ∧ c!"E" ∉ t ∧ c!"+" ∉ t

/-- The value of a numeral. -/
def decimalValue (s : Str) : Nat := s.foldl (fun n c => 10 * n + (c.toNat - c!"0".toNat)) 0

end Verif.Spec
