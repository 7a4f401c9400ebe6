import Verif.Spec.System

/-!
# Infinite executions in which no goroutine is forgotten
-/

namespace Verif

open Spec

variable {κ : Type}

/-- What a goroutine of the pipeline does in one step: the handler of a request, the collector, the forwarder, the sink, and the reader of the buffer. -/
inductive Action
  | handler (i : Nat)
  | collect
  | emit
  | forward
  | sinkTake
  | sinkRead
  | ringTake
  | ringRead

/-- The steps of the pipeline, with who takes them. -/
inductive System.Does (conv : κ → Span → Option Span × κ) : Action → System κ → System κ → Prop
  | push {s : System κ} {i : Nat} {x : Span} {rest : List Span} : s.http.conns[i]? = some (.pushing (x :: rest)) → s.http.channel.length < 256 →
      Does conv (.handler i) s { s with http := { s.http with conns := s.http.conns.set i (.pushing rest), channel := s.http.channel ++ [x] } }
  | accept {s : System κ} {i : Nat} : s.http.conns[i]? = some (.pushing []) →
      Does conv (.handler i) s { s with http := { s.http with conns := s.http.conns.set i (.answered 202) } }
  | reject {s : System κ} {i : Nat} : s.http.conns[i]? = some .failing →
      Does conv (.handler i) s { s with http := { s.http with conns := s.http.conns.set i (.answered 400) } }
  | collect {s : System κ} {x : Span} {rest : List Span} (now1 now2 : Time) : s.outbox = [] → s.http.channel = x :: rest → s.world.clock ≤ now1 → now1 ≤ now2 →
      Does conv .collect s { s with http := { s.http with channel := rest }, world := s.world.receive now1 now2 x }
  | emit {s : System κ} {t : List Span} {rest : List (List Span)} : s.outbox = t :: rest → s.forwarder.source.length < 64 →
      Does conv .emit s { s with outbox := rest, forwarder := s.forwarder.arrive t }
  | forward {s : System κ} {f : Forwarder κ} : s.forwarder.Own conv targetCaps f → Does conv .forward s { s with forwarder := f }
  | sinkTake {s : System κ} {f : Forwarder κ} {r : SliceRef} : s.sinkBusy = none → s.forwarder.Receive 0 r f →
      Does conv .sinkTake s { s with forwarder := f, sinkBusy := some r }
  | sinkRead {s : System κ} {r : SliceRef} (now : Time) : s.sinkBusy = some r →
      Does conv .sinkRead s { s with sinkBusy := none, sink := s.sink.receive (s.forwarder.heap.read r) now }
  | ringTake {s : System κ} {f : Forwarder κ} {r : SliceRef} : s.ringBusy = none → s.forwarder.Receive 1 r f →
      Does conv .ringTake s { s with forwarder := f, ringBusy := some r }
  | ringRead {s : System κ} {r : SliceRef} {ring : Ring} : s.ringBusy = some r → s.ring.pushTrace (s.forwarder.heap.read r) = some ring →
      Does conv .ringRead s { s with ringBusy := none, ring := ring }

def System.Enabled (conv : κ → Span → Option Span × κ) (a : Action) (s : System κ) : Prop := ∃ s', s.Does conv a s'

/-- What happens next: a step of the pipeline, an event, a request, or nothing. -/
inductive System.Next (conv : κ → Span → Option Span × κ) : List Parsed → System κ → List Parsed → System κ → Prop
  | step {outcomes : List Parsed} {s s' : System κ} : s.Step conv s' → Next conv outcomes s outcomes s'
  | event {outcomes : List Parsed} {s s' : System κ} : s.Event s' → Next conv outcomes s outcomes s'
  | request {outcomes : List Parsed} {s : System κ} (o : Parsed) :
      Next conv outcomes s (outcomes ++ [o]) { s with http := { s.http with conns := s.http.conns ++ [Conn.start o] } }
  | stay {outcomes : List Parsed} {s : System κ} : Next conv outcomes s outcomes s

/-- An infinite execution, seen from any time on. -/
structure Execution (conv : κ → Span → Option Span × κ) (k : κ) where
  state : Nat → System κ
  outcomes : Nat → List Parsed
  start : System.Reachable conv k (outcomes 0) (state 0)
  next : ∀ n, System.Next conv (outcomes n) (state n) (outcomes (n + 1)) (state (n + 1))

variable {conv : κ → Span → Option Span × κ} {k : κ}

def Execution.Takes (r : Execution conv k) (a : Action) (n : Nat) : Prop := (r.state n).Does conv a (r.state (n + 1))

/-- Nobody waits forever although they could always go on: it is taken again and again, or again and again cannot be taken. -/
def Execution.Weak (r : Execution conv k) (a : Action) : Prop := ∀ n, ∃ m, n ≤ m ∧ (¬ (r.state m).Enabled conv a ∨ r.Takes a m)

/-- Whoever can go on again and again goes on. -/
def Execution.Strong (r : Execution conv k) (a : Action) : Prop := (∀ n, ∃ m, n ≤ m ∧ (r.state m).Enabled conv a) → ∀ n, ∃ m, n ≤ m ∧ r.Takes a m

/-- The scheduler of Go runs every goroutine; it serves the goroutines that wait to send to a channel in order of their arrival; and `select` chooses at random. -/
structure Execution.Fair (r : Execution conv k) : Prop where
  handler : ∀ i, r.Strong (.handler i)
  collect : r.Strong .collect
  emit : r.Weak .emit
  forward : r.Weak .forward
  sinkTake : r.Weak .sinkTake
  sinkRead : r.Weak .sinkRead
  ringTake : r.Weak .ringTake
  ringRead : r.Weak .ringRead

/-- The collector gets ticks, again and again, and the clock goes on. -/
def Execution.Ticks (r : Execution conv k) : Prop :=
  ∀ (n : Nat) (T : Time), ∃ (m : Nat) (i : TickInput), n ≤ m ∧ T ≤ i.now1 ∧ (r.state m).outbox = [] ∧ i.Valid (r.state m).world.c ∧ (r.state m).world.clock ≤ i.now1 ∧
    r.state (m + 1) = { (r.state m) with world := (r.state m).world.tick i, outbox := emittedOf ((r.state m).world.c.tick i).2 }

end Verif
