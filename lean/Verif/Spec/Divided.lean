import Verif.Spec.Isolation

/-!
# Traces that are delivered in parts
-/

namespace Verif.Spec

/-- All spans that were sent for the trace `k`, in one part or in several. -/
def sentSpans (k : Id) (w : World) : List Span := (sentFor k w).flatten

/-- Whatever was received for the trace `k` was sent: nothing is pending, nothing was refused, nothing was dropped. -/
structure AllSent (k : Id) (w : World) : Prop where
  pending : w.c.traces[k]? = none
  refused : ∀ s ∈ w.refused, s.trace ≠ k
  removed : ∀ r ∈ w.removed, r.id = k → ∃ out, r.fate = .emitted out

/-- A root that was made up for a part of the trace `k`, in the place of the missing parent of some spans. -/
def MadeUp (k : Id) (w : World) (f : Span) : Prop :=
  ∃ r ∈ w.removed, r.id = k ∧ SharedParent r.tree.spans f.id ∧ FakeRoot k f.id r.tree.spans f ∧ ∀ m ∈ r.tree.members, m.id ≠ f.id

/-- Clocks that agree: start times from 2020 on, and where both sides were recorded, they agree. -/
def Steady (l : List Span) : Prop :=
  ∀ s ∈ l, year2020 ≤ s.timestamp ∧ (HasAllTimings s → s.timings.CS = s.timestamp ∧ s.timings.CR - s.timings.CS = s.duration ∧ skew s = 0)

end Verif.Spec
