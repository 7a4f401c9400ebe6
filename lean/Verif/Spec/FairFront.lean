import Verif.Spec.Oversize

/-!
# Infinite executions of a proxy in front of Kafka in which nobody is forgotten
-/

namespace Verif

open Spec

/-- Who does something: the handler of a request, the goroutine of the sender, the dispatcher of the producer when it takes a message and when it passes it on, and the goroutine for a partition. -/
inductive FrontAction
  | handler (i : Nat)
  | send
  | input
  | dispatch
  | produce (p : Nat)

/-- The steps, with who takes them. -/
inductive Front.Does (part : List UInt8 → Nat) : FrontAction → Front → Front → Prop
  | push {f : Front} {i : Nat} {x : Span} {rest : List Span} : f.http.conns[i]? = some (.pushing (x :: rest)) → f.http.channel.length < 256 →
      Does part (.handler i) f { f with http := { f.http with conns := f.http.conns.set i (.pushing rest), channel := f.http.channel ++ [x] } }
  | accept {f : Front} {i : Nat} : f.http.conns[i]? = some (.pushing []) →
      Does part (.handler i) f { f with http := { f.http with conns := f.http.conns.set i (.answered 202) } }
  | reject {f : Front} {i : Nat} : f.http.conns[i]? = some .failing →
      Does part (.handler i) f { f with http := { f.http with conns := f.http.conns.set i (.answered 400) } }
  /-- if there is no encoder, the sender makes one first -/
  | new {f : Front} : f.offered = none → f.http.channel ≠ [] → f.pool.encoders = [] → Does part .send f { f with pool := { f.pool with encoders := f.pool.encoders ++ [{}] } }
  | send {f : Front} {x : Span} {rest : List Span} {j : Nat} {enc enc' : Encoder} {ord : List (Str × Str)} {h : Heap} {m : Message} : f.offered = none → f.http.channel = x :: rest →
      f.pool.encoders[j]? = some enc → IsRange ord (x.tags.getD ∅) → encode f.pool.heap enc x ord = some (h, enc', m) →
      Does part .send f { f with http := { f.http with channel := rest }, offered := some m,
                                 pool := { heap := h, encoders := f.pool.encoders.set j enc', sent := f.pool.sent ++ [(x, ord, m)] } }
  | input {f : Front} {m : Message} : f.offered = some m → f.dispatching = none → Does part .input f { f with offered := none, dispatching := some m }
  | dispatch {f : Front} {m : Message} : f.dispatching = some m → messageSize (f.pool.heap.deref m.key) (f.pool.heap.deref m.value) ≤ maxMessageBytes →
      Does part .dispatch f { f with dispatching := none, inflight := f.inflight ++ [m] }
  | produce {f : Front} {m : Message} {l l' : List Message} : f.inflight = l ++ m :: l' →
      (∀ x ∈ l, part (f.pool.heap.deref x.key) ≠ part (f.pool.heap.deref m.key)) →
      Does part (.produce (part (f.pool.heap.deref m.key))) f { f with inflight := l ++ l' }

def Front.Enabled (part : List UInt8 → Nat) (a : FrontAction) (f : Front) : Prop := ∃ f', f.Does part a f'

/-- What happens next: a step, a request, or nothing; with the outcomes of the parsers, and what was written to the topic. -/
inductive Front.Next (part : List UInt8 → Nat) : List Parsed → List (List UInt8 × List UInt8) → Front → List Parsed → List (List UInt8 × List UInt8) → Front → Prop
  | step {outcomes : List Parsed} {topic : List (List UInt8 × List UInt8)} {f f' : Front} {e : Option (List UInt8 × List UInt8)} : f.Step part f' e →
      Next part outcomes topic f outcomes (topic ++ e.toList) f'
  | request {outcomes : List Parsed} {topic : List (List UInt8 × List UInt8)} {f : Front} (o : Parsed) :
      Next part outcomes topic f (outcomes ++ [o]) topic { f with http := { f.http with conns := f.http.conns ++ [Conn.start o] } }
  | stay {outcomes : List Parsed} {topic : List (List UInt8 × List UInt8)} {f : Front} : Next part outcomes topic f outcomes topic f

/-- As `Front.Reachable`, but messages may have got lost on their way to Kafka. -/
inductive Front.Lossy (part : List UInt8 → Nat) : List Parsed → List (List UInt8 × List UInt8) → Front → Prop
  | init : Lossy part [] [] {}
  | request {outcomes topic f} (o : Parsed) : Lossy part outcomes topic f →
      Lossy part (outcomes ++ [o]) topic { f with http := { f.http with conns := f.http.conns ++ [Conn.start o] } }
  | step {outcomes topic f f' e} : Lossy part outcomes topic f → f.Step part f' e → Lossy part outcomes (topic ++ e.toList) f'
  | lose {outcomes topic f} {l l' : List Message} {m : Message} : Lossy part outcomes topic f → f.inflight = l ++ m :: l' → Lossy part outcomes topic { f with inflight := l ++ l' }

/-- An infinite execution, seen from any time on. -/
structure FrontExecution (part : List UInt8 → Nat) where
  state : Nat → Front
  outcomes : Nat → List Parsed
  topic : Nat → List (List UInt8 × List UInt8)
  start : Front.Lossy part (outcomes 0) (topic 0) (state 0)
  next : ∀ n, Front.Next part (outcomes n) (topic n) (state n) (outcomes (n + 1)) (topic (n + 1)) (state (n + 1))

variable {part : List UInt8 → Nat}

/-- No message has got lost so far. -/
def FrontExecution.Whole (r : FrontExecution part) : Prop := Front.Reachable part (r.outcomes 0) (r.topic 0) (r.state 0)

def FrontExecution.Takes (r : FrontExecution part) (a : FrontAction) (n : Nat) : Prop := (r.state n).Does part a (r.state (n + 1))

/-- Nobody waits forever although they could always go on. -/
def FrontExecution.Weak (r : FrontExecution part) (a : FrontAction) : Prop := ∀ n, ∃ m, n ≤ m ∧ (¬ (r.state m).Enabled part a ∨ r.Takes a m)

/-- Whoever can go on again and again goes on. -/
def FrontExecution.Strong (r : FrontExecution part) (a : FrontAction) : Prop := (∀ n, ∃ m, n ≤ m ∧ (r.state m).Enabled part a) → ∀ n, ∃ m, n ≤ m ∧ r.Takes a m

structure FrontExecution.Fair (r : FrontExecution part) : Prop where
  handler : ∀ i, r.Strong (.handler i)
  send : r.Weak .send
  input : r.Weak .input
  dispatch : r.Weak .dispatch
  /-- sarama and Kafka deliver what was passed to them -/
  produce : ∀ p, r.Weak (.produce p)

/-- All spans of the requests are small enough for Kafka. -/
def FrontExecution.AllSmall (r : FrontExecution part) : Prop := ∀ n x, Accepted (r.outcomes n) x → Small x

/-- The spans that go to a partition. -/
def goTo (part : List UInt8 → Nat) (p : Nat) (l : List Span) : List Span := l.filter fun x => decide (part (littleEndian x.trace.toUInt64) = p)

/-- The spans in a partition, as the consumer decodes them. -/
def inPartition (part : List UInt8 → Nat) (p : Nat) (topic : List (List UInt8 × List UInt8)) : List Span :=
  (topic.filter fun e => part e.1 = p).filterMap fun e => decodeKafkaMessage e.2

end Verif
