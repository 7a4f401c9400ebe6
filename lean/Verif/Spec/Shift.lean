import Verif.Spec.Observe

/-!
# The same trace at another time

Of the model only the states and the steps of the collector are used.
-/

namespace Verif.Spec

/-- Somebody who looks at everything but the times. -/
def clockless : Observer := { times := False, name := True, service := True, tag := fun _ => True }

/-- A time that is told `d` nanoseconds later, or not at all. -/
def ToldLater (d lo hi : Int) (a b : Timestamp) : Prop := (a = 0 ∧ b = 0) ∨ (lo ≤ a.toInt ∧ a.toInt ≤ hi ∧ b.toInt = a.toInt + d)

/-- The same span `d` nanoseconds later; all its times are between `lo` and `hi`. -/
structure Moved (d lo hi : Int) (s t : Span) : Prop where
  same : SameTo clockless s t
  start : lo ≤ s.timestamp.toInt ∧ s.timestamp.toInt ≤ hi ∧ t.timestamp.toInt = s.timestamp.toInt + d
  stop : lo ≤ s.timestamp.toInt + s.duration.toInt ∧ s.timestamp.toInt + s.duration.toInt ≤ hi
  duration : t.duration = s.duration
  cs : ToldLater d lo hi s.timings.CS t.timings.CS
  cr : ToldLater d lo hi s.timings.CR t.timings.CR
  ss : ToldLater d lo hi s.timings.SS t.timings.SS
  sr : ToldLater d lo hi s.timings.SR t.timings.SR

/-- The spans of the trace `k` come with times that are `d` nanoseconds later; all other spans are the same. -/
def MovedIn (k : Id) (d lo hi : Int) (trace : Id) (s t : Span) : Prop := if trace = k then Moved d lo hi s t else s = t

/-- The same span, shown `d` nanoseconds later. -/
structure ShownLater (d : Int) (s t : Span) : Prop where
  same : SameTo clockless s t
  start : t.timestamp.toInt = s.timestamp.toInt + d
  duration : t.duration = s.duration

/-- For a trace of `n` spans between `lo` and `hi`, no correction leads before 2020 or after 2116. -/
def Room (n : Nat) (lo hi : Int) : Prop := 1577836800000000000 ≤ lo - n * (hi - lo) ∧ hi + n * (hi - lo) < 2 ^ 62

/-- What is sent of the trace `k` is shown `d` nanoseconds later, if there is room for corrections; what is sent of other traces is the same. -/
def ShownIn (k : Id) (d lo hi : Int) (trace : Id) (t : Tree) (s s' : Span) : Prop :=
  if trace = k then SameTo clockless s s' ∧ (Room t.spans.length lo hi → Room t.spans.length (lo + d) (hi + d) → ShownLater d s s') else s = s'

end Verif.Spec
