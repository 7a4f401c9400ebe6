import Verif.Spec.Cluster

/-!
# Spans that are too large for Kafka
-/

namespace Verif

open Spec

/-- What a proxy in front of Kafka may become; with the outcomes of the parsers of the requests in between, and what it writes to the topic. -/
inductive Front.Later (part : List UInt8 → Nat) (f : Front) : List Parsed → List (List UInt8 × List UInt8) → Front → Prop
  | refl : Later part f [] [] f
  | request {outcomes topic g} (o : Parsed) : Later part f outcomes topic g →
      Later part f (outcomes ++ [o]) topic { g with http := { g.http with conns := g.http.conns ++ [Conn.start o] } }
  | step {outcomes topic g g' e} : Later part f outcomes topic g → g.Step part g' e → Later part f outcomes (topic ++ e.toList) g'

/-- Kafka takes this span. -/
def Small (x : Span) : Prop := ∀ ord, IsRange ord (x.tags.getD ∅) → messageSize (littleEndian x.trace.toUInt64) (binaryEncode x ord) ≤ maxMessageBytes

/-- The dispatcher of the producer has a message that is too large. -/
def Front.Stuck (f : Front) : Prop := ∃ m, f.dispatching = some m ∧ maxMessageBytes < messageSize (f.pool.heap.deref m.key) (f.pool.heap.deref m.value)

/-- Steps left for a request. -/
def Conn.left : Conn → Nat
  | .pushing l => 1 + 5 * l.length
  | .failing => 1
  | _ => 0

/-- Steps left before everything is in the topic. -/
def Front.work (f : Front) : Nat :=
  (f.http.conns.map Conn.left).sum + 4 * f.http.channel.length + 3 * f.offered.toList.length + 2 * f.dispatching.toList.length + f.inflight.length

end Verif
