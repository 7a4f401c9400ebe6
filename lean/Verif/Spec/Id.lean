import Verif.Model.Go

/-!
# Specification of the textual form of ids (C01, C02)

Independent of the model: only the meaning of hexadecimal numerals.
-/

namespace Verif.Spec

/-- The digits in order of their value. -/
def hexDigitsLower : Str := b!"0123456789abcdef"
/-- The digits in order of their value, upper case. -/
def hexDigitsUpper : Str := b!"0123456789ABCDEF"

/-- The value of a hexadecimal digit: its position in one of the two digit tables. -/
def hexDigitValue (c : UInt8) : Option Nat :=
  match hexDigitsLower.idxOf? c with
  | some n => some n
  | none => hexDigitsUpper.idxOf? c

/-- `c` is a hexadecimal digit. -/
def IsHexDigit (c : UInt8) : Prop := c ∈ hexDigitsLower ∨ c ∈ hexDigitsUpper

instance (c : UInt8) : Decidable (IsHexDigit c) := inferInstanceAs (Decidable (_ ∨ _))

/-- The number denoted by a hexadecimal numeral (most significant digit first);
characters that are no digits count as zero. -/
def hexValue : Str → Nat
  | [] => 0
  | c :: cs => (hexDigitValue c).getD 0 * 16 ^ cs.length + hexValue cs

end Verif.Spec
