import Verif.Spec.FairCluster

/-!
# Proxies after crashes, losses and new assignments of partitions
-/

namespace Verif

open Spec

variable {κ : Type}

/-- Proxies from some time on. Before, anything may have happened: proxies crashed and were started again, messages got lost, and partitions were assigned anew. From now on, this does not happen. -/
structure Recovery (conv : κ → Span → Option Span × κ) (k : κ) (part : List UInt8 → Nat) where
  state : Nat → Cluster κ
  /-- the outcomes of the parsers for the requests to each proxy, from now on -/
  requests : Nat → Nat → List Parsed
  start : ∃ outcomes foreign, Cluster.Reachable conv k part outcomes foreign (state 0)
  noRequests : ∀ i, requests 0 i = []
  next : ∀ n, Cluster.Next conv part (requests n) (state n) (requests (n + 1)) (state (n + 1))

variable {conv : κ → Span → Option Span × κ} {k : κ} {part : List UInt8 → Nat}

/-- The states of one of the proxies. -/
def Recovery.Proxy (r : Recovery conv k part) (i : Nat) (s : Nat → Instance κ) : Prop := ∀ n, (r.state n).instances[i]? = some (s n)

structure Recovery.Fair (r : Recovery conv k part) : Prop where
  front : ∀ i s, r.Proxy i s → Front.FairSeq part fun n => (s n).front
  back : ∀ i s, r.Proxy i s → System.FairSeq conv fun n => (s n).back
  claim : ∀ i s, r.Proxy i s → ∀ j, Weakly (fun n => ∃ s', (s n).Serves (r.state n).topic j s') (fun n => (s n).Serves (r.state n).topic j (s (n + 1)))

/-- Kafka takes everything that a proxy has on its way there. -/
structure Front.HoldsSmall (f : Front) : Prop where
  requests : ∀ l, .pushing l ∈ f.http.conns → ∀ x ∈ l, Small x
  channel : ∀ x ∈ f.http.channel, Small x
  messages : ∀ m, f.offered = some m ∨ f.dispatching = some m → messageSize (f.pool.heap.deref m.key) (f.pool.heap.deref m.value) ≤ maxMessageBytes

/-- What the proxies have at the start, and all spans of the requests later, are small enough for Kafka. -/
structure Recovery.AllSmall (r : Recovery conv k part) : Prop where
  held : ∀ n ∈ (r.state 0).instances, n.front.HoldsSmall
  later : ∀ n i x, Accepted (r.requests n i) x → Small x

end Verif
