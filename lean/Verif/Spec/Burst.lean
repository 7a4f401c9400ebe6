import Verif.Spec.TimelyLoad

/-!
# Traces of which all spans are posted at about the same time
-/

namespace Verif

open Spec

variable {κ : Type} {conv : κ → Span → Option Span × κ} {k : κ}

/-- Once a span of a trace was posted, further ones are posted after at most this time. -/
def Execution.Together (r : Execution conv k) (time : Nat → Time) (gap : Time) : Prop :=
  ∀ (j n : Nat) (id : Id), j ≤ n → spansOfTrace id (acceptedSpans (r.outcomes j)) ≠ [] →
    spansOfTrace id (acceptedSpans (r.outcomes (n + 1))) ≠ spansOfTrace id (acceptedSpans (r.outcomes n)) → time (n + 1) ≤ time j + gap

end Verif
