import Verif.Spec.Correct
import Verif.Model.Collector

/-!
# Specification of the collector

What the collector owes to its users, in terms of the spans of a pending trace and the times at which it
was started and last updated. `UInt16` wrap-around of the node counter shows in the `% 65536`.
-/

namespace Verif.Spec

/-- The buffer time for a number of counted spans, in nanoseconds. -/
def bufferTime (n : Nat) : Time :=
  if n < 40000 then 8000000000 else if n < 60000 then 6000000000 else if n < 80000 then 4000000000
  else 2000000000

/-- The number of spans of a trace as seen by the 16 bit counter. -/
def size (t : Tree) : Nat := t.spans.length % 65536

def Large (t : Tree) : Prop := 8192 < size t
instance (t : Tree) : Decidable (Large t) := inferInstanceAs (Decidable (_ < _))

def Old (now bt : Time) (t : Tree) : Prop := t.started < now - 5 * bt
instance (now bt : Time) (t : Tree) : Decidable (Old now bt t) := inferInstanceAs (Decidable (_ < _))

def Idle (now bt : Time) (t : Tree) : Prop := t.updated ≤ now - bt
instance (now bt : Time) (t : Tree) : Decidable (Idle now bt t) := inferInstanceAs (Decidable (_ ≤ _))

/-- The number of spans that decides about the buffer time: those in traces which are not too large. -/
def counted (pending : List (Id × Tree)) : Nat :=
  ((pending.filter fun e => !decide (Large e.2)).map fun e => size e.2).sum

/-- The number of all spans. -/
def total (pending : List (Id × Tree)) : Nat := (pending.map fun e => size e.2).sum

/-- `r` is the only root candidate. -/
def UniqueRoot (spans : List Span) (r : Span) : Prop :=
  IsRootOf spans r ∧ ∀ q, IsRootOf spans q → q = r

/-- There are several root candidates, and all of them have the parent `p`. -/
def SharedParent (spans : List Span) (p : Id) : Prop :=
  (∃ a b, IsRootOf spans a ∧ IsRootOf spans b ∧ a.id ≠ b.id) ∧ ∀ q, IsRootOf spans q → q.parent = p

/-- The synthetic root for the root candidates of a trace: it takes the place of their missing parent and
lasts from the earliest start to the latest end. -/
structure FakeRoot (traceId p : Id) (spans : List Span) (f : Span) : Prop where
  id : f.id = p
  trace : f.trace = traceId
  parent : f.parent = traceId
  name : f.name = b!"fake-root"
  service : f.service = b!"fake-root"
  tags : f.tags = none
  timings : f.timings = {}
  starts : ∀ q, IsRootOf spans q → f.timestamp ≤ q.timestamp
  start : ∃ q, IsRootOf spans q ∧ f.timestamp = q.timestamp
  ends : ∀ q, IsRootOf spans q → q.timestamp + q.duration ≤ f.timestamp + f.duration
  stop : ∃ q, IsRootOf spans q ∧ f.timestamp + f.duration = q.timestamp + q.duration

/-- The spans of the trace, with a synthetic root if the root candidates share a missing parent. -/
def Repaired (trace : Id) (spans base : List Span) : Prop :=
  (∃ p f, SharedParent spans p ∧ FakeRoot trace p spans f ∧ base.Perm (f :: spans) ∧
    base.Pairwise fun a b => a.id > b.id) ∨
  ((∀ p, ¬ SharedParent spans p) ∧ base = spans)

/-- `out` is `base`, timing corrected from the root `r`. -/
def Corrected (base : List Span) (r : Span) (out : List Span) : Prop :=
  out.length = base.length ∧
  ∀ (j : Nat) (s : Span), base[j]? = some s →
    (∀ anc, Path base r anc s → out[j]? = some (corrected anc s)) ∧
    ((∀ anc, ¬ Path base r anc s) → out[j]? = some s)

/-- The trace can be emitted: it has a unique root, or one can be made up. -/
def Rooted (trace : Id) (spans : List Span) : Prop :=
  (∃ r, UniqueRoot spans r) ∨ ((∃ p, SharedParent spans p) ∧ ∀ s ∈ spans, s.id ≠ trace)

/-- What is emitted for a trace. -/
def Finished (trace : Id) (spans out : List Span) : Prop :=
  ∃ base r, Repaired trace spans base ∧ UniqueRoot base r ∧ Corrected base r out

/-- Spans without an id or a trace are not traced. -/
def Traced (s : Span) : Prop := s.trace ≠ 0 ∧ s.id ≠ 0
instance (s : Span) : Decidable (Traced s) := inferInstanceAs (Decidable (_ ∧ _))

/-- A span without what timing correction may change. -/
def untimed (s : Span) : Span := { s.withTags with timestamp := 0, duration := 0 }

end Verif.Spec
