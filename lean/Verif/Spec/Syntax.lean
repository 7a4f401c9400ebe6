import Verif.Spec.Json

/-!
# The grammar of JSON texts (RFC 8259)

`JsonText n t`: the bytes `t` are a JSON text in which arrays and objects are nested at most `n` deep. In contrast to `Writes`, this is about texts only, and it contains all texts of
the grammar: also those with unpaired surrogates, to which the standard gives no meaning. No definition of the model is used.
-/

namespace Verif.Spec

/-- The bytes between the quotes of a string (section 7). -/
inductive LiteralText : Str → Prop
  | nil : LiteralText []
  | char {c : UInt8} {t : Str} : c ≠ c!"\"" → c ≠ c!"\\" → 0x20 ≤ c → LiteralText t → LiteralText (c :: t)
  | short {e c : UInt8} {t : Str} : (e, c) ∈ shortEscapes → LiteralText t → LiteralText (c!"\\" :: e :: t)
  | unicode {a b c d : UInt8} {r : Nat} {t : Str} : hex4 a b c d = some r → LiteralText t → LiteralText (c!"\\" :: c!"u" :: a :: b :: c :: d :: t)

mutual

inductive JsonText : Nat → Str → Prop
  | word {n : Nat} (w : JsonWord) : JsonText n w.text
  | number {n : Nat} {t : Str} : JsonNumber t → JsonText n t
  | string {n : Nat} {t : Str} : LiteralText t → JsonText n (c!"\"" :: (t ++ [c!"\""]))
  | emptyArray {n : Nat} {w : Str} : Blank w → JsonText (n + 1) (c!"[" :: (w ++ [c!"]"]))
  | array {n : Nat} {w u : Str} : Blank w → ElementsText n u → JsonText (n + 1) (c!"[" :: (w ++ (u ++ [c!"]"])))
  | emptyObject {n : Nat} {w : Str} : Blank w → JsonText (n + 1) (c!"{" :: (w ++ [c!"}"]))
  | object {n : Nat} {w u : Str} : Blank w → MembersText n u → JsonText (n + 1) (c!"{" :: (w ++ (u ++ [c!"}"])))

/-- The elements of an array, from the first byte of the first one to the closing bracket. -/
inductive ElementsText : Nat → Str → Prop
  | last {n : Nat} {t w : Str} : JsonText n t → Blank w → ElementsText n (t ++ w)
  | cons {n : Nat} {t w w' u : Str} : JsonText n t → Blank w → Blank w' → ElementsText n u → ElementsText n (t ++ (w ++ c!"," :: (w' ++ u)))

/-- The members of an object, from the first quote to the closing brace. -/
inductive MembersText : Nat → Str → Prop
  | last {n : Nat} {key w1 w2 t w : Str} : LiteralText key → Blank w1 → Blank w2 → JsonText n t → Blank w →
      MembersText n (c!"\"" :: (key ++ c!"\"" :: (w1 ++ c!":" :: (w2 ++ (t ++ w)))))
  | cons {n : Nat} {key w1 w2 t w w' u : Str} : LiteralText key → Blank w1 → Blank w2 → JsonText n t → Blank w → Blank w' → MembersText n u →
      MembersText n (c!"\"" :: (key ++ c!"\"" :: (w1 ++ c!":" :: (w2 ++ (t ++ (w ++ c!"," :: (w' ++ u)))))))

end

end Verif.Spec
