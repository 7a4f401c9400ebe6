import Verif.Spec.Loose
import Verif.Spec.Syntax

/-!
# Texts with the same tokens

Two texts that differ only in what separates their tokens. No definition of the model is used.
-/

namespace Verif.Spec

/-- The bytes between two quotes: a quote among them is escaped. -/
inductive Quoted : Str → Prop
  | nil : Quoted []
  | char {c : UInt8} {t : Str} : c ≠ c!"\"" → c ≠ c!"\\" → Quoted t → Quoted (c :: t)
  | escape {e : UInt8} {t : Str} : Quoted t → Quoted (c!"\\" :: e :: t)

/-- A number ends before this text. -/
def EndsNumber (s : Str) : Prop := ∃ c s', s = c :: s' ∧ c ∉ b!"-0123456789.e"

/-- The texts have the same tokens; white space, commas and colons between them may be different. From some point on, the texts may also be equal. -/
inductive SameTokens : Str → Str → Prop
  | same (s : Str) : SameTokens s s
  | space {w w' s s' : Str} : LooseSpace w → LooseSpace w' → SameTokens s s' → SameTokens (w ++ s) (w' ++ s')
  | punct {c : UInt8} {s s' : Str} : c ∈ b!"[]{}" → SameTokens s s' → SameTokens (c :: s) (c :: s')
  | string {t s s' : Str} : Quoted t → SameTokens s s' → SameTokens (c!"\"" :: (t ++ c!"\"" :: s)) (c!"\"" :: (t ++ c!"\"" :: s'))
  | number {t s s' : Str} : LooseNumber t → EndsNumber s → EndsNumber s' → SameTokens s s' → SameTokens (t ++ s) (t ++ s')
  | word {t s s' : Str} : LooseWord t → SameTokens s s' → SameTokens (t ++ s) (t ++ s')

/-- A number of the standard is not continued by this text. -/
def StopsNumber (s : Str) : Prop := ∀ c s', s = c :: s' → c ∉ b!"0123456789.eE"

/-- The texts have the same tokens of JSON; white space between them may be different. From some point on, the texts may also be equal. -/
inductive SameJson : Str → Str → Prop
  | same (s : Str) : SameJson s s
  | space {w w' s s' : Str} : Blank w → Blank w' → SameJson s s' → SameJson (w ++ s) (w' ++ s')
  | mark {c : UInt8} {s s' : Str} : c ∈ b!"[]{}:," → SameJson s s' → SameJson (c :: s) (c :: s')
  | string {t s s' : Str} : LiteralText t → SameJson s s' → SameJson (c!"\"" :: (t ++ c!"\"" :: s)) (c!"\"" :: (t ++ c!"\"" :: s'))
  | number {t s s' : Str} : JsonNumber t → StopsNumber s → StopsNumber s' → SameJson s s' → SameJson (t ++ s) (t ++ s')
  | word {s s' : Str} (w : JsonWord) : SameJson s s' → SameJson (w.text ++ s) (w.text ++ s')

end Verif.Spec
