import Verif.Spec.Shape

/-!
# The parent that is told for a span
-/

namespace Verif.Spec

/-- The parent that the spans of a list tell for an id: the first one that is not 0, or 0 if there is none. -/
def toldParent (id : Id) : List Span → Id
  | [] => 0
  | s :: l => if s.id = id ∧ s.parent ≠ 0 then s.parent else toldParent id l

/-- A trace is told completely if the parent that is told for each span is 0 or the id of another span that is told. -/
def ToldCompletely (l : List Span) : Prop :=
  ∀ m ∈ l, toldParent m.id l ≠ 0 → toldParent m.id l ≠ m.id ∧ ∃ q ∈ l, q.id = toldParent m.id l

end Verif.Spec
