import Verif.Spec.Correct
import Verif.Model.Debug

/-!
# Specification of the printed tree
-/

namespace Verif.Spec

/-- The spans of the trace with the given parent (other than a span that is its own parent), in the order of the trace. -/
def siblings (spans : List Span) (parent : Id) : List Span := spans.filter fun s => s.parent = parent ∧ s.parent ≠ s.id

/-- `Shown spans d s`: the span `s` is at depth `d ≤ 6` below a root candidate, and it and each of its ancestors, below the root, is one of the first 32 of its siblings. -/
inductive Shown (spans : List Span) : Nat → Span → Prop
  | root {r} : IsRootOf spans r → Shown spans 0 r
  | child {d p c} : Shown spans d p → d < 6 → c ∈ (siblings spans p.id).take 32 → Shown spans (d + 1) c

/-- The spans printed by some lines, with their levels. -/
def printed (lines : List LogLine) : List (Nat × Span) :=
  lines.filterMap fun
    | .node level span => some (level, span)
    | _ => none

end Verif.Spec
