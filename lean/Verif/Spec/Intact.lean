import Verif.Spec.Together
import Verif.Spec.FairSender
import Verif.Spec.Shape

/-!
# A trace about which there is nothing to repair
-/

namespace Verif

open Spec

/-- pkg/example/main.go:8-11: the converter of the proxy as it is built there. -/
def plainConverter (u : Unit) (s : Span) : Option Span × Unit := (some s, u)

/-- The spans of a trace as they should be: each with its own id, below one root, with clocks that agree. -/
structure Healthy (k : Id) (l : List Span) : Prop where
  some : k ≠ 0
  trace : ∀ s ∈ l, s.trace = k ∧ s.id ≠ 0
  ids : (l.map Span.id).Nodup
  few : l.length ≤ 8192
  root : ∃ r, UniqueRoot l r
  recent : ∀ s ∈ l, year2020 ≤ s.timestamp
  /-- where both sides were recorded, they agree -/
  agree : ∀ s ∈ l, HasAllTimings s → s.timings.CS = s.timestamp ∧ s.timings.CR - s.timings.CS = s.duration ∧ skew s = 0

/-- One call of the transport has these spans as one of its traces, and nothing besides them in it. -/
def OneCall (s : System Unit) (spans : List Span) : Prop := ∃ call ∈ s.sent, spans.map toDatadog ∈ call

/-- The spans were in a batch that was discarded, as eight others were waiting for the sender. -/
def InDiscarded (s : System Unit) (spans : List Span) : Prop :=
  ∃ (chunks : List (List Span)) (current : List Span) (i : Nat) (chunk : List Span) (b : ByTrace),
    Partition s.sink chunks current ∧ chunks[i]? = some chunk ∧ s.sink.log[i]? = some (false, b) ∧ spans <:+: chunk

end Verif
