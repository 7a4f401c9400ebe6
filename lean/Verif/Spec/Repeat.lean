import Verif.Spec.Accept

/-!
# Members that occur twice

Also for bodies that end early or are malformed behind the second name.
-/

namespace Verif.Spec

/-- The bytes begin with these members, and then there is the rest. -/
inductive MembersBefore : List (Str × Loose) → Str → Str → Prop
  | nil {s : Str} : MembersBefore [] s s
  | cons {w lit name w' t u s : Str} {v : Loose} {ms : List (Str × Loose)} : LooseSpace w → Unquotes lit name → LooseSpace w' → Begins v t u →
      MembersBefore ms u s → MembersBefore ((name, v) :: ms) (w ++ c!"\"" :: (lit ++ c!"\"" :: (w' ++ t))) s

/-- A name in quotes is next. -/
def NameNext (name s : Str) : Prop := ∃ w lit rest, s = w ++ c!"\"" :: (lit ++ c!"\"" :: rest) ∧ LooseSpace w ∧ Unquotes lit name

/-- Somewhere there is an opening brace, behind it members of which one has this name, and then this name again. -/
def Repeats (name data : Str) : Prop :=
  ∃ p u ms s, data = p ++ c!"{" :: u ∧ MembersBefore ms u s ∧ name ∈ ms.map Prod.fst ∧ NameNext name s

end Verif.Spec
