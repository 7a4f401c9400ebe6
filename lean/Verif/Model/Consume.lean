import Verif.Model.Balance

/-!
# balance/receiver.go: Consume, its goroutine and the function it returns

sarama's `ConsumerGroup.Consume` is the environment: it calls `ConsumeClaim` any number of times, concurrently, and returns, with or without an error, only after all of these returned. It
may return at any time then, whether or not the context was cancelled.
-/

namespace Verif

/-- Where the goroutine of receiver.go:26-39 is. -/
inductive ConsumeLoop
  /-- line 28: `select` -/
  | select
  /-- line 34: in `consumerGroup.Consume`; for each running `ConsumeClaim`, whether it is in the callback (line 89) -/
  | session (claims : List Bool)
  /-- line 30-31: `finishedCh` is closed -/
  | finished

/-- A call of the function that `Consume` returned: it waits (line 43), or it returned. -/
inductive Closer
  | waiting
  | returned

structure Consumer where
  loop : ConsumeLoop := .select
  /-- the context -/
  cancelled : Bool := false
  closers : List Closer := []
  /-- how often the callback was called -/
  calls : Nat := 0
  /-- how many sessions were started -/
  sessions : Nat := 0

inductive Consumer.Step : Consumer → Consumer → Prop
  /-- line 29: `ctx.Done()` is ready, so that `default` is not taken -/
  | finish {c : Consumer} : c.loop = .select → c.cancelled = true → Step c { c with loop := .finished }
  /-- lines 33-34 -/
  | session {c : Consumer} : c.loop = .select → c.cancelled = false → Step c { c with loop := .session [], sessions := c.sessions + 1 }
  /-- `ConsumeClaim` is called -/
  | claim {c : Consumer} {l : List Bool} : c.loop = .session l → Step c { c with loop := .session (l ++ [false]) }
  /-- line 89: the callback is called … -/
  | call {c : Consumer} {l : List Bool} {i : Nat} : c.loop = .session l → l[i]? = some false → Step c { c with loop := .session (l.set i true), calls := c.calls + 1 }
  /-- … and returns -/
  | done {c : Consumer} {l : List Bool} {i : Nat} : c.loop = .session l → l[i]? = some true → Step c { c with loop := .session (l.set i false) }
  /-- line 94 -/
  | claimEnd {c : Consumer} {l l' : List Bool} : c.loop = .session (l ++ false :: l') → Step c { c with loop := .session (l ++ l') }
  /-- line 34: `consumerGroup.Consume` returns; an error is only logged -/
  | sessionEnd {c : Consumer} : c.loop = .session [] → Step c { c with loop := .select }
  /-- lines 41-42: the function is called -/
  | close {c : Consumer} : Step c { c with cancelled := true, closers := c.closers ++ [.waiting] }
  /-- line 43: `finishedCh` is closed -/
  | closed {c : Consumer} {i : Nat} : c.closers[i]? = some .waiting → c.loop = .finished → Step c { c with closers := c.closers.set i .returned }

inductive Consumer.Steps (c : Consumer) : Consumer → Prop
  | refl : Steps c c
  | step {d e : Consumer} : Steps c d → d.Step e → Steps c e

end Verif
