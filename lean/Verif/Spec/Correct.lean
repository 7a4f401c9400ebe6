import Verif.Spec.Tree

/-!
# Specification of roots and of timing correction

Everything is stated in terms of the received parent links: the path from the root to a span.
-/

namespace Verif.Spec

/-- A root candidate: its own parent, or its parent is not in the trace. -/
def IsRootOf (spans : List Span) (s : Span) : Prop :=
  s ∈ spans ∧ (s.parent = s.id ∨ ∀ q ∈ spans, q.id ≠ s.parent)

/-- `Path spans r anc s`: `anc` are the proper ancestors of `s`, nearest first, up to and including `r`;
each link is a parent link of the trace. -/
inductive Path (spans : List Span) (r : Span) : List Span → Span → Prop
  | root : Path spans r [] r
  | child {anc p c} : Path spans r anc p → c ∈ spans → c.parent = p.id → c.parent ≠ c.id →
      Path spans r (p :: anc) c

/-- All four timings are known. -/
def HasAllTimings (s : Span) : Prop :=
  s.timings.CS ≠ 0 ∧ s.timings.CR ≠ 0 ∧ s.timings.SS ≠ 0 ∧ s.timings.SR ≠ 0

instance (s : Span) : Decidable (HasAllTimings s) :=
  inferInstanceAs (Decidable (_ ∧ _ ∧ _ ∧ _))

/-- The clock skew between client and server measured by a span: the difference of the midpoints. -/
def skew (s : Span) : Duration :=
  if HasAllTimings s then (s.timings.CR + s.timings.CS) / 2 - (s.timings.SR + s.timings.SS) / 2 else 0

/-- The accumulated skew of a list of ancestors. -/
def shift : List Span → Duration
  | [] => 0
  | p :: anc => shift anc + skew p

/-- 2020-01-01T00:00:00Z in nanoseconds. -/
def year2020 : Timestamp := 1577836800000000000

/-- The start of a span shifted by the accumulated skew of its ancestors, before the check for a
broken clock. -/
def shiftedStart (anc : List Span) (s : Span) : Timestamp :=
  (if HasAllTimings s then s.timings.CS else s.timestamp) + shift anc

/-- The corrected start of a span with the given ancestors. -/
def start : List Span → Span → Timestamp
  | [], s => shiftedStart [] s
  | p :: anc, s => if shiftedStart (p :: anc) s < year2020 then start anc p else shiftedStart (p :: anc) s

/-- The corrected span. -/
def corrected (anc : List Span) (s : Span) : Span :=
  { s with
    timestamp := start anc s
    duration := if HasAllTimings s then s.timings.CR - s.timings.CS else s.duration }

end Verif.Spec
