import Verif.Spec.Timely

/-!
# Bounds on the load
-/

namespace Verif

open Spec

variable {κ : Type} {conv : κ → Span → Option Span × κ} {k : κ}

/-- `count` counts something; the time of the step from `n` to `n + 1` is `time (n + 1)`. In a period of this length (both ends included) the count grows by `burst` at most, and
in a longer one by one more for each `every` of the rest. -/
def AtMost (count : Nat → Nat) (time : Nat → Time) (burst : Nat) (period every : Time) : Prop :=
  ∀ n m, n ≤ m → count (m + 1) ≤ count n + burst ∨ every * ((count (m + 1) : Int) - count n - burst) ≤ time (m + 1) - time (n + 1) - period

/-- The number of batches that the sink made. -/
def Execution.batches (r : Execution conv k) (n : Nat) : Nat := (r.state n).sink.log.length

/-- The number of spans that the sink received. -/
def Execution.sunk (r : Execution conv k) (n : Nat) : Nat := (r.state n).sink.received.flatten.length

/-- The number of spans that the collector received. -/
def Execution.collected (r : Execution conv k) (n : Nat) : Nat := (r.state n).world.received.length

/-- Nothing waits for the sender, and no call is going on. -/
def System.SenderIdle (s : System κ) : Prop := s.sending = none ∧ s.sink.sink.grouped = []

/-- No batch was discarded. -/
def System.NoneDiscarded (s : System κ) : Prop := ∀ e ∈ s.sink.log, e.1 = true

end Verif
