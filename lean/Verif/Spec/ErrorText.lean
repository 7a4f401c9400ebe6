import Verif.Spec.Accept

/-!
# What is said about a refused request

A grammar of the texts, rule by rule: where the error was found (the messages in front), and what was wrong there. A text shows at most one character: a byte of the body (or, for an id,
of a string in the body), as the code point with this number.
-/

namespace Verif.Spec

/-- The types of tokens: the characters they begin with, and their names. -/
def tokens : List (Str × Str) :=
  [(b!"n", b!"TypeNull"), (b!"{", b!"TypeObjectBegin"), (b!"}", b!"TypeObjectEnd"), (b!"[", b!"TypeArrayBegin"), (b!"]", b!"TypeArrayEnd"), (b!"tf", b!"TypeBoolean"),
    (b!"-0123456789", b!"TypeNumber"), (b!"\"", b!"TypeString")]

/-- A token that begins with this character has the type with this name. -/
def Starts (c : UInt8) (name : Str) : Prop := ∃ t ∈ tokens, c ∈ t.1 ∧ name = t.2

instance (c : UInt8) (name : Str) : Decidable (Starts c name) := inferInstanceAs (Decidable (∃ t ∈ tokens, _))

/-- No token begins with this character. -/
def Stray (c : UInt8) : Prop := ∀ t ∈ tokens, c ∉ t.1

instance (c : UInt8) : Decidable (Stray c) := inferInstanceAs (Decidable (∀ t ∈ tokens, _))

/-- Hexadecimal digits. -/
def hexChars : Str := b!"0123456789abcdefABCDEF"

/-- A byte in quotes, as UTF-8. -/
def quotedByte (c : UInt8) : Str := b!"'" ++ utf8 c.toNat ++ b!"'"

section
/- What is said when the body has ended; the body. -/
variable (ending body : Str)

/-- Another token or character than the expected one. -/
inductive WrongText (expected : Str) : Str → Prop
  | token {c : UInt8} {t : Str} : c ∈ body → Starts c t → t ≠ expected → WrongText expected (b!"expected token of type '" ++ expected ++ b!"', but found '" ++ t ++ b!"'")
  | character {c : UInt8} : c ∈ body → Stray c → WrongText expected (b!"expected token of type '" ++ expected ++ b!"', but found character " ++ quotedByte c)

/-- Looking for the next token. -/
inductive NextText : Str → Prop
  | ended : NextText ending
  | character {c : UInt8} : c ∈ body → Stray c → NextText (b!"unexpected character: " ++ quotedByte c)

/-- A bracket or brace. -/
inductive BeginText (expected : Str) : Str → Prop
  | ended : BeginText expected ending
  | wrong {t : Str} : WrongText body expected t → BeginText expected t

/-- An escape. -/
inductive EscapeText : Str → Prop
  | short : EscapeText b!"premature end of input while decoding unicode character"
  | digit {c : UInt8} : c ∈ body → c ∉ hexChars → EscapeText (b!"expected hexadecimal character but got " ++ quotedByte c)

inductive StringText : Str → Prop
  | ended : StringText ending
  | wrong {t : Str} : WrongText body b!"TypeString" t → StringText t
  | escape {t : Str} : EscapeText body t → StringText t

inductive NumberText : Str → Prop
  | ended : NumberText ending
  | wrong {t : Str} : WrongText body b!"TypeNumber" t → NumberText t

/-- `null`, `true`, `false`. -/
inductive WordText : Str → Prop
  | four : WordText (b!"require(4): " ++ ending)
  | five : WordText (b!"require(5): " ++ ending)

/-- A value of which nothing is kept. -/
inductive SkipText : Str → Prop
  | next {t : Str} : NextText ending body t → SkipText t
  | string {t : Str} : StringText ending body t → SkipText t
  | word {t : Str} : WordText ending t → SkipText t
  | stray {c : UInt8} {t : Str} : c ∈ body → c ∈ b!"}]" → Starts c t → SkipText (b!"can not skip unexpected symbol of type '" ++ t ++ b!"'")

/-- A literal. -/
inductive ScalarText : Str → Prop
  | next {t : Str} : NextText ending body t → ScalarText t
  | escape {t : Str} : EscapeText body t → ScalarText t
  | word {t : Str} : WordText ending t → ScalarText t
  | other {c : UInt8} {t : Str} : c ∈ body → c ∈ b!"{}[]" → Starts c t → ScalarText (b!"expected literal, got '" ++ t ++ b!"'")

inductive UintText : Str → Prop
  | number {t : Str} : NumberText ending body t → UintText (b!"decode uint64 value: " ++ t)
  | character {c : UInt8} : c ∈ body → c ∉ b!"0123456789" → UintText (b!"Unexpected character in number: " ++ quotedByte c)

inductive ValueText : Str → Prop
  | string {t : Str} : StringText ending body t → ValueText (b!"decode value: " ++ t)

inductive AnyText : Str → Prop
  | literal {t : Str} : ScalarText ending body t → AnyText (b!"decode value: " ++ t)

inductive RefText : Str → Prop
  | next {t : Str} : NextText ending body t → RefText t
  | null : RefText (b!"require(4): " ++ ending)
  | string {t : Str} : StringText ending body t → RefText (b!"decode id value: " ++ t)
  | large {lit v : Str} : lit <:+: body → unescape lit = some v → 16 < v.length → RefText b!"hex value too large"
  | digit {lit v : Str} {c : UInt8} : lit <:+: body → unescape lit = some v → c ∈ v → c ∉ hexChars → RefText (b!"hex value must only contain [0-9a-f], got " ++ quotedByte c)

inductive MapText (key value : Str → Prop) : Str → Prop
  | begins {t : Str} : BeginText ending body b!"TypeObjectBegin" t → MapText key value (b!"begin object: " ++ t)
  | next {t : Str} : NextText ending body t → MapText key value t
  | key {t : Str} : key t → MapText key value t
  | value {t : Str} : value t → MapText key value t

/-- An object with known fields. -/
inductive StructText (field : Str → Prop) : Str → Prop
  | begins {t : Str} : BeginText ending body b!"TypeObjectBegin" t → StructText field (b!"begin object: " ++ t)
  | next {t : Str} : NextText ending body t → StructText field t
  | key {t : Str} : StringText ending body t → StructText field t
  | field {t : Str} : field t → StructText field t
  | unknown {t : Str} : SkipText ending body t → StructText field t

inductive ListText (name element : Str) (item : Str → Prop) : Str → Prop
  | begins {t : Str} : BeginText ending body b!"TypeArrayBegin" t → ListText name element item (b!"decoding " ++ name ++ b!": " ++ t)
  | next {t : Str} : NextText ending body t → ListText name element item t
  | item {t : Str} : item t → ListText name element item (b!"decoding element of type " ++ element ++ b!": " ++ t)

/-- An array of which only so many elements are kept. -/
inductive ArrayText (name element : Str) (item : Str → Prop) : Str → Prop
  | begins {t : Str} : BeginText ending body b!"TypeArrayBegin" t → ArrayText name element item (b!"decoding " ++ name ++ b!": " ++ t)
  | next {t : Str} : NextText ending body t → ArrayText name element item t
  | item {t : Str} : item t → ArrayText name element item (b!"decoding array element of type " ++ element ++ b!": " ++ t)
  | surplus {t : Str} : SkipText ending body t → ArrayText name element item (b!"skipping out of range array element of type " ++ element ++ b!": " ++ t)

def EndpointText : Str → Prop := StructText ending body (ValueText ending body)

inductive FieldTextV2 : Str → Prop
  | id {t : Str} : RefText ending body t → FieldTextV2 t
  | uint {t : Str} : UintText ending body t → FieldTextV2 t
  | string {t : Str} : ValueText ending body t → FieldTextV2 t
  | tags {t : Str} : MapText ending body (ValueText ending body) (ValueText ending body) t → FieldTextV2 t
  | endpoint {t : Str} : EndpointText ending body t → FieldTextV2 t

/-- The texts for version 2. -/
inductive RefusalV2 : Str → Prop
  | mk {t : Str} : ListText ending body b!"[]codec.spanV2" b!"codec.spanV2" (StructText ending body (FieldTextV2 ending body)) t →
      RefusalV2 (b!"parse spans for json v2: " ++ t)

inductive BinaryFieldText : Str → Prop
  | key {t : Str} : ValueText ending body t → BinaryFieldText t
  | value {t : Str} : AnyText ending body t → BinaryFieldText t
  | endpoint {t : Str} : EndpointText ending body t → BinaryFieldText t

inductive AnnotationFieldText : Str → Prop
  | timestamp {t : Str} : UintText ending body t → AnnotationFieldText t
  | value {t : Str} : ValueText ending body t → AnnotationFieldText t
  | endpoint {t : Str} : EndpointText ending body t → AnnotationFieldText t

inductive FieldTextV1 : Str → Prop
  | id {t : Str} : RefText ending body t → FieldTextV1 t
  | uint {t : Str} : UintText ending body t → FieldTextV1 t
  | string {t : Str} : ValueText ending body t → FieldTextV1 t
  | binary {t : Str} : ListText ending body b!"[]codec.binaryAnnotationV1" b!"codec.binaryAnnotationV1" (StructText ending body (BinaryFieldText ending body)) t → FieldTextV1 t
  | annotations {t : Str} : ArrayText ending body b!"[4]codec.annotationV1" b!"codec.annotationV1" (StructText ending body (AnnotationFieldText ending body)) t → FieldTextV1 t

/-- The texts for version 1. -/
inductive RefusalV1 : Str → Prop
  | mk {t : Str} : ListText ending body b!"[]codec.spanV1" b!"codec.spanV1" (StructText ending body (FieldTextV1 ending body)) t →
      RefusalV1 (b!"parse spans for json v1: " ++ t)

end

end Verif.Spec
