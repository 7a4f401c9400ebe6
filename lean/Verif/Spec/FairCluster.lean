import Verif.Spec.FairFront
import Verif.Spec.FairSender

/-!
# Infinite executions of proxies that share a Kafka topic
-/

namespace Verif

open Spec

variable {κ : Type}

/-- Nobody waits forever although they could always go on. -/
def Weakly (can does : Nat → Prop) : Prop := ∀ n, ∃ m, n ≤ m ∧ (¬ can m ∨ does m)

/-- Whoever can go on again and again goes on. -/
def Strongly (can does : Nat → Prop) : Prop := (∀ n, ∃ m, n ≤ m ∧ can m) → ∀ n, ∃ m, n ≤ m ∧ does m

/-- What the goroutine of a claim does: it skips a message, calls the callback, or marks a message. -/
inductive Instance.Serves (topic : Nat → List (List UInt8)) (j : Nat) : Instance κ → Instance κ → Prop
  | skip {n : Instance κ} {cl : Claim} {v : List UInt8} : n.claims[j]? = some cl → cl.busy = none → (topic cl.partition)[cl.offset]? = some v → decodeKafkaMessage v = none →
      Serves topic j n { n with claims := n.claims.set j { cl with offset := cl.offset + 1 } }
  | call {n : Instance κ} {cl : Claim} {v : List UInt8} {x : Span} : n.claims[j]? = some cl → cl.busy = none → (topic cl.partition)[cl.offset]? = some v → decodeKafkaMessage v = some x →
      Serves topic j n { n with claims := n.claims.set j { cl with offset := cl.offset + 1, busy := some n.back.http.conns.length }
                                back := { n.back with http := { n.back.http with conns := n.back.http.conns ++ [Conn.start (.spans [x])] } } }
  | mark {n : Instance κ} {cl : Claim} {i : Nat} : n.claims[j]? = some cl → cl.busy = some i → n.back.http.conns[i]? = some (.answered 202) →
      Serves topic j n { n with claims := n.claims.set j { cl with busy := none } }

/-- What happens next: a step, a request to one of the proxies, a message that somebody else writes to the topic, or nothing; with the outcomes of the parsers for the requests to each proxy. -/
inductive Cluster.Next (conv : κ → Span → Option Span × κ) (part : List UInt8 → Nat) : (Nat → List Parsed) → Cluster κ → (Nat → List Parsed) → Cluster κ → Prop
  | step {requests : Nat → List Parsed} {c c' : Cluster κ} : c.Step conv part c' → Next conv part requests c requests c'
  | request {requests : Nat → List Parsed} {c : Cluster κ} {i : Nat} {n : Instance κ} (o : Parsed) : c.instances[i]? = some n →
      Next conv part requests c (fun j => if j = i then requests j ++ [o] else requests j)
        { c with instances := c.instances.set i { n with front := { n.front with http := { n.front.http with conns := n.front.http.conns ++ [Conn.start o] } } } }
  | foreign {requests : Nat → List Parsed} {c : Cluster κ} (p : Nat) (v : List UInt8) : Next conv part requests c requests { c with topic := appendTopic c.topic p v }
  | stay {requests : Nat → List Parsed} {c : Cluster κ} : Next conv part requests c requests c

/-- Proxies that all live on, with an assignment of partitions that does not change. -/
structure ClusterExecution (conv : κ → Span → Option Span × κ) (k : κ) (part : List UInt8 → Nat) (assignment : List (List Nat)) where
  state : Nat → Cluster κ
  /-- the outcomes of the parsers for the requests to each proxy -/
  requests : Nat → Nat → List Parsed
  start : ∃ now, state 0 = Cluster.assigned k now assignment
  noRequests : ∀ i, requests 0 i = []
  next : ∀ n, Cluster.Next conv part (requests n) (state n) (requests (n + 1)) (state (n + 1))

variable {conv : κ → Span → Option Span × κ} {k : κ} {part : List UInt8 → Nat} {assignment : List (List Nat)}

/-- The states of one of the proxies. -/
def ClusterExecution.Proxy (r : ClusterExecution conv k part assignment) (i : Nat) (s : Nat → Instance κ) : Prop := ∀ n, (r.state n).instances[i]? = some (s n)

/-- In front of Kafka, nobody is forgotten. -/
structure Front.FairSeq (part : List UInt8 → Nat) (s : Nat → Front) : Prop where
  handler : ∀ i, Strongly (fun n => (s n).Enabled part (.handler i)) (fun n => (s n).Does part (.handler i) (s (n + 1)))
  send : Weakly (fun n => (s n).Enabled part .send) (fun n => (s n).Does part .send (s (n + 1)))
  input : Weakly (fun n => (s n).Enabled part .input) (fun n => (s n).Does part .input (s (n + 1)))
  dispatch : Weakly (fun n => (s n).Enabled part .dispatch) (fun n => (s n).Does part .dispatch (s (n + 1)))
  produce : ∀ p, Weakly (fun n => (s n).Enabled part (.produce p)) (fun n => (s n).Does part (.produce p) (s (n + 1)))

/-- Behind Kafka, nobody is forgotten. -/
structure System.FairSeq (conv : κ → Span → Option Span × κ) (s : Nat → System κ) : Prop where
  handler : ∀ i, Strongly (fun n => (s n).Enabled conv (.handler i)) (fun n => (s n).Does conv (.handler i) (s (n + 1)))
  collect : Strongly (fun n => (s n).Enabled conv .collect) (fun n => (s n).Does conv .collect (s (n + 1)))
  emit : Weakly (fun n => (s n).Enabled conv .emit) (fun n => (s n).Does conv .emit (s (n + 1)))
  forward : Weakly (fun n => (s n).Enabled conv .forward) (fun n => (s n).Does conv .forward (s (n + 1)))
  sinkTake : Weakly (fun n => (s n).Enabled conv .sinkTake) (fun n => (s n).Does conv .sinkTake (s (n + 1)))
  sinkRead : Weakly (fun n => (s n).Enabled conv .sinkRead) (fun n => (s n).Does conv .sinkRead (s (n + 1)))
  ringTake : Weakly (fun n => (s n).Enabled conv .ringTake) (fun n => (s n).Does conv .ringTake (s (n + 1)))
  ringRead : Weakly (fun n => (s n).Enabled conv .ringRead) (fun n => (s n).Does conv .ringRead (s (n + 1)))

/-- The collector gets ticks, again and again, and the clock goes on. -/
def System.TicksAgain (s : Nat → System κ) : Prop :=
  ∀ (n : Nat) (T : Time), ∃ (m : Nat) (i : TickInput), n ≤ m ∧ T ≤ i.now1 ∧ (s m).outbox = [] ∧ i.Valid (s m).world.c ∧ (s m).world.clock ≤ i.now1 ∧
    s (m + 1) = { (s m) with world := (s m).world.tick i, outbox := emittedOf ((s m).world.c.tick i).2 }

structure ClusterExecution.Fair (r : ClusterExecution conv k part assignment) : Prop where
  front : ∀ i s, r.Proxy i s → Front.FairSeq part fun n => (s n).front
  back : ∀ i s, r.Proxy i s → System.FairSeq conv fun n => (s n).back
  claim : ∀ i s, r.Proxy i s → ∀ j, Weakly (fun n => ∃ s', (s n).Serves (r.state n).topic j s') (fun n => (s n).Serves (r.state n).topic j (s (n + 1)))

/-- All spans of the requests are small enough for Kafka. -/
def ClusterExecution.AllSmall (r : ClusterExecution conv k part assignment) : Prop := ∀ n i x, Accepted (r.requests n i) x → Small x

end Verif
