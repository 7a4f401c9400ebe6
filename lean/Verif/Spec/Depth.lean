import Verif.Spec.Accept

/-!
# How deep a value is nested
-/

namespace Verif.Spec

mutual

/-- The number of arrays and objects around the innermost ones, and these: 0 for scalars. -/
def Loose.nesting : Loose → Nat
  | .array l => elementsNesting l + 1
  | .object ms => membersNesting ms + 1
  | _ => 0

def elementsNesting : List Loose → Nat
  | [] => 0
  | v :: l => max v.nesting (elementsNesting l)

def membersNesting : List (Str × Loose) → Nat
  | [] => 0
  | (_, v) :: ms => max v.nesting (membersNesting ms)

end

/-- The opening brackets and braces of a text, also those within strings. -/
def opening (s : Str) : Nat := s.countP fun c => c = c!"[" || c = c!"{"

end Verif.Spec
