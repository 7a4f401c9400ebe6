import Verif.Spec.Shape

/-!
# Hosts with different clocks

What really happened in a trace, and what the hosts say about it, each with the time of its own clock.
-/

namespace Verif.Spec

/-- What really happened, by the ids of the spans; times are nanoseconds of a true time that no host needs to know. -/
structure Story where
  /-- the call within which the call was made -/
  parent : Id → Id
  /-- both sides tell about the call, otherwise only one of them -/
  shared : Id → Bool
  /-- the request leaves the caller; or, if there is nobody else, the work begins -/
  start : Id → Int
  /-- the request gets to the callee -/
  arrive : Id → Int
  /-- the answer leaves the callee -/
  leave : Id → Int
  /-- the answer gets to the caller; or the work ends -/
  stop : Id → Int
  /-- how far the clock of the caller is ahead of the true time -/
  caller : Id → Int
  /-- how far the clock of the callee is ahead of the true time -/
  callee : Id → Int

/-- The time that the request takes, less the time that the answer takes. -/
def Story.bias (S : Story) (id : Id) : Int := (S.arrive id - S.start id) - (S.stop id - S.leave id)

/-- Half of it, rounded up. -/
def Story.inexact (S : Story) (id : Id) : Nat := if S.shared id then ((S.bias id).natAbs + 1) / 2 else 0

/-- What the caller tells about a call. -/
structure Story.ClientReport (S : Story) (r : Span) : Prop where
  cs : r.timings.CS.toInt = S.start r.id + S.caller r.id
  cr : r.timings.CR.toInt = S.stop r.id + S.caller r.id
  ss : r.timings.SS = 0
  sr : r.timings.SR = 0

/-- What the callee tells about a call. -/
structure Story.ServerReport (S : Story) (r : Span) : Prop where
  cs : r.timings.CS = 0
  cr : r.timings.CR = 0
  ss : r.timings.SS.toInt = S.leave r.id + S.callee r.id
  sr : r.timings.SR.toInt = S.arrive r.id + S.callee r.id

/-- What is told about work on one host. -/
structure Story.LoneReport (S : Story) (r : Span) : Prop where
  timestamp : r.timestamp.toInt = S.start r.id + S.caller r.id
  duration : r.duration.toInt = S.stop r.id - S.start r.id
  clock : S.callee r.id = S.caller r.id

/-- The story as it is told in spans. `home` is how far the clock is ahead on the host where the trace begins. -/
structure Story.Told (S : Story) (home : Int) (l : List Span) : Prop where
  parents : ∀ r ∈ l, r.parent = S.parent r.id
  /-- what is done within a call, is done on the host of the callee -/
  inside : ∀ r ∈ l, ∀ q ∈ l, q.id = S.parent r.id → q.id ≠ r.id → S.caller r.id = S.callee q.id
  first : ∀ r ∈ l, (S.parent r.id = r.id ∨ ∀ q ∈ l, q.id ≠ S.parent r.id) → S.caller r.id = home
  halves : ∀ r ∈ l, S.shared r.id = true → S.ClientReport r ∨ S.ServerReport r
  both : ∀ id, S.shared id = true → (∃ r ∈ l, r.id = id ∧ S.ClientReport r) ∧ ∃ r ∈ l, r.id = id ∧ S.ServerReport r
  /-- the clocks show times from 1970 to 2116 -/
  dated : ∀ id, S.shared id = true → ∀ x ∈ [S.start id + S.caller id, S.stop id + S.caller id, S.arrive id + S.callee id, S.leave id + S.callee id],
    0 < x ∧ x < 2 ^ 62
  lone : ∀ r ∈ l, S.shared r.id = false → S.LoneReport r
  /-- nobody else tells about it -/
  side : ∀ r ∈ l, ∀ q ∈ l, q.id = r.id → S.shared r.id = false →
    (r.timings.SS = 0 ∧ q.timings.SS = 0) ∨ (r.timings.CS = 0 ∧ q.timings.CS = 0)

/-- On the clock where it began, everything in the trace happened from 2020 to 2262, even if the delays are not taken into account correctly. -/
def Story.InTime (S : Story) (home : Int) (l : List Span) : Prop :=
  ∀ r ∈ l, year2020.toInt + (l.map fun q => S.inexact q.id).sum ≤ S.start r.id + home ∧ S.start r.id + home + (l.map fun q => S.inexact q.id).sum < 2 ^ 63

/-- The delays that count for a span with these ancestors. -/
def Story.inexactOf (S : Story) (anc : List Span) : Nat := (anc.map fun a => S.inexact a.id).sum

end Verif.Spec
