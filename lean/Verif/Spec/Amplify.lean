import Verif.Spec.Document
import Verif.Model.Cluster

/-!
# How much is sent for a request

The bytes that the messages for some spans count in Kafka, for some orders of their tags.
-/

namespace Verif.Spec

/-- The messages for these spans have this size together (as Kafka counts it, with 36 bytes for each of them). -/
def SentBytes (spans : List Span) (n : Nat) : Prop :=
  ∃ ords : List (List (Str × Str)), Pairwise₂ (fun s ord => IsRange ord (s.tags.getD ∅)) spans ords ∧
    n = ((spans.zip ords).map fun e => messageSize (littleEndian e.1.trace.toUInt64) (binaryEncode e.1 e.2)).sum

end Verif.Spec
