import Verif.Spec.JsonString

/-!
# A grammar that contains more than JSON

What the parser of versions 1 and 2 takes for a document: commas and colons may be left out, added, and exchanged, as they are white space; names of constants are recognised by their first
letter. Brackets and braces have to match, strings have to be closed, names of members are strings. No definition of the model is used.
-/

namespace Verif.Spec

/-- White space, with commas and colons. -/
def LooseSpace (w : Str) : Prop := ∀ c ∈ w, c ∈ [0x09, 0x0A, 0x0B, 0x0C, 0x0D, 0x20, c!":", c!",", 0x85, 0xA0]

instance (w : Str) : Decidable (LooseSpace w) := inferInstanceAs (Decidable (∀ c ∈ w, _))

/-- The bytes between the quotes of a string: also control characters, and a backslash before any character. -/
inductive LooseLiteral : Str → Prop
  | nil : LooseLiteral []
  | char {c : UInt8} {t : Str} : c ≠ c!"\"" → c ≠ c!"\\" → LooseLiteral t → LooseLiteral (c :: t)
  | escape {e : UInt8} {t : Str} : e ≠ c!"u" → LooseLiteral t → LooseLiteral (c!"\\" :: e :: t)
  | unicode {a b c d : UInt8} {r : Nat} {t : Str} : hex4 a b c d = some r → LooseLiteral t → LooseLiteral (c!"\\" :: c!"u" :: a :: b :: c :: d :: t)

/-- A digit or a minus, and more of them, dots and `e`. -/
def LooseNumber (t : Str) : Prop := ∃ c t', t = c :: t' ∧ c ∈ b!"-0123456789" ∧ ∀ d ∈ t', d ∈ b!"-0123456789.e"

/-- As many bytes as in `null`, `true` or `false`, of which the first is right. -/
def LooseWord (t : Str) : Prop := (t.length = 4 ∧ (t.head? = some c!"n" ∨ t.head? = some c!"t")) ∨ (t.length = 5 ∧ t.head? = some c!"f")

instance (t : Str) : Decidable (LooseWord t) := inferInstanceAs (Decidable (_ ∨ _))

mutual

inductive LooseText : Str → Prop
  | word {t : Str} : LooseWord t → LooseText t
  | number {t : Str} : LooseNumber t → LooseText t
  | string {t : Str} : LooseLiteral t → LooseText (c!"\"" :: (t ++ [c!"\""]))
  | array {u : Str} : LooseElements u → LooseText (c!"[" :: (u ++ [c!"]"]))
  | object {u : Str} : LooseMembers u → LooseText (c!"{" :: (u ++ [c!"}"]))

inductive LooseElements : Str → Prop
  | nil {w : Str} : LooseSpace w → LooseElements w
  | cons {w t u : Str} : LooseSpace w → LooseText t → LooseElements u → LooseElements (w ++ (t ++ u))

inductive LooseMembers : Str → Prop
  | nil {w : Str} : LooseSpace w → LooseMembers w
  | cons {w key w' t u : Str} : LooseSpace w → LooseLiteral key → LooseSpace w' → LooseText t → LooseMembers u →
      LooseMembers (w ++ c!"\"" :: (key ++ c!"\"" :: (w' ++ (t ++ u))))

end

/-- Elements of an array that are objects. -/
inductive LooseObjects : Str → Prop
  | nil {w : Str} : LooseSpace w → LooseObjects w
  | cons {w m u : Str} : LooseSpace w → LooseMembers m → LooseObjects u → LooseObjects (w ++ c!"{" :: (m ++ c!"}" :: u))

end Verif.Spec
