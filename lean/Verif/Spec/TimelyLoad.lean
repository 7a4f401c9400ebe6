import Verif.Spec.Load
import Verif.Spec.Cluster

/-!
# The load, as it is posted
-/

namespace Verif

open Spec

variable {κ : Type} {conv : κ → Span → Option Span × κ} {k : κ}

/-- The number of spans in the requests that were accepted. -/
def Execution.accepted (r : Execution conv k) (n : Nat) : Nat := (acceptedSpans (r.outcomes n)).length

end Verif
