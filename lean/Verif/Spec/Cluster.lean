import Verif.Model.Cluster
import Verif.Spec.System
import Verif.Spec.Balance

/-!
# What proxies that share a Kafka topic do with spans
-/

namespace Verif

open Spec

/-- A span that a proxy got from the topic: one of a request to some proxy, or one that others than the proxies wrote. -/
def FromTopic (outcomes : List Parsed) (foreign : List (List UInt8)) (p : Span) : Prop :=
  (∃ q, Accepted outcomes q ∧ p = q.withTags) ∨ ∃ v ∈ foreign, ∃ rest, binaryDecode v = some (p, rest)

/-- Where a span that left a proxy comes from. -/
def StemsFromTopic {κ : Type} (conv : κ → Span → Option Span × κ) (outcomes : List Parsed) (foreign : List (List UInt8)) (s : Span) : Prop :=
  s.id ≠ 0 ∧ s.trace ≠ 0 ∧ ∃ k m, (conv k m).1 = some s ∧
    (m.name = b!"fake-root" ∧ m.service = b!"fake-root" ∨ ∃ p, FromTopic outcomes foreign p ∧ Traced p ∧ p.id = m.id ∧ p.trace = m.trace)

/-- Proxies to which partitions are assigned: proxy `i` has `assignment[i]`. -/
def Cluster.assigned {κ : Type} (k : κ) (now : Time) (assignment : List (List Nat)) : Cluster κ :=
  { instances := assignment.map fun ps => { claims := ps.map fun p => { partition := p, offset := 0 }, back := System.init k now } }

/-- The states of proxies that all live on, with an assignment that does not change, where no message gets lost and nobody else writes to the topic; with the outcomes of the parsers for the requests. -/
inductive Cluster.Settled {κ : Type} (conv : κ → Span → Option Span × κ) (k : κ) (part : List UInt8 → Nat) (assignment : List (List Nat)) : List Parsed → Cluster κ → Prop
  | init (now : Time) : Settled conv k part assignment [] (Cluster.assigned k now assignment)
  | request {outcomes c} {i : Nat} {n : Instance κ} (o : Parsed) : Settled conv k part assignment outcomes c → c.instances[i]? = some n →
      Settled conv k part assignment (outcomes ++ [o])
        { c with instances := c.instances.set i { n with front := { n.front with http := { n.front.http with conns := n.front.http.conns ++ [Conn.start o] } } } }
  | step {outcomes c c'} : Settled conv k part assignment outcomes c → c.Step conv part c' → Settled conv k part assignment outcomes c'

/-- The partition of a trace. -/
def partitionOf (part : List UInt8 → Nat) (t : Id) : Nat := part (littleEndian t.toUInt64)

/-- The spans of one trace. -/
def spansOfTrace (t : Id) (l : List Span) : List Span := l.filter fun s => s.trace = t

/-- All spans of accepted requests. -/
def acceptedSpans (outcomes : List Parsed) : List Span := outcomes.flatMap fun | .spans l => l | _ => []

/-- A proxy has sent everything to Kafka. -/
def Front.Idle (f : Front) : Prop :=
  (∀ c ∈ f.http.conns, c ≠ .failing ∧ ∀ l, c ≠ .pushing l) ∧ f.http.channel = [] ∧ f.offered = none ∧ f.dispatching = none ∧ f.inflight = []

/-- A proxy has read everything that is assigned to it. -/
def Instance.CaughtUp {κ : Type} (n : Instance κ) (topic : Nat → List (List UInt8)) : Prop :=
  (∀ cl ∈ n.claims, cl.busy = none ∧ cl.offset = (topic cl.partition).length) ∧ n.back.http.channel = []

/-- The histories of one proxy in front of Kafka; with the outcomes of the parsers, and what it wrote to the topic. -/
inductive Front.Reachable (part : List UInt8 → Nat) : List Parsed → List (List UInt8 × List UInt8) → Front → Prop
  | init : Reachable part [] [] {}
  | request {outcomes topic f} (o : Parsed) : Reachable part outcomes topic f →
      Reachable part (outcomes ++ [o]) topic { f with http := { f.http with conns := f.http.conns ++ [Conn.start o] } }
  | step {outcomes topic f f' e} : Reachable part outcomes topic f → f.Step part f' e → Reachable part outcomes (topic ++ e.toList) f'

end Verif
