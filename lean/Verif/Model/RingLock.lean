import Verif.Model.Ring

/-!
# buffer.go: the lock

One goroutine runs `ReadFrom`, any number of goroutines call `ToSlice` (the handlers of the admin page). Their steps interleave arbitrarily; a step reads or writes one element of the
slice, or the position, or acquires or releases the lock. `sync.Mutex` blocks while somebody has the lock.
-/

namespace Verif

/-- Where the goroutine that runs `ReadFrom` is. -/
inductive WriterPc
  /-- buffer.go:20 -/
  | receive
  /-- buffer.go:21: before it has the lock -/
  | wait (trace : List Span)
  /-- buffer.go:23: the spans that are left -/
  | write (rest : List Span)
  /-- buffer.go:25: a span is stored, the position not yet advanced; the spans that are left -/
  | advance (rest : List Span)

/-- Where a goroutine that calls `ToSlice` is. -/
inductive ViewerPc
  /-- not in the code of the buffer -/
  | idle
  /-- buffer.go:33: before it has the lock; `since`: how many traces were stored when it was called -/
  | wait (since : Nat)
  /-- buffer.go:37: the index and `result` -/
  | scan (since : Nat) (i : Nat) (result : List Span)

inductive LockOwner
  | writer
  | viewer (j : Nat)
  deriving DecidableEq

structure LockedRing where
  ring : Ring
  lock : Option LockOwner := none
  writer : WriterPc := .receive
  viewers : List ViewerPc
  /-- the traces stored so far, for the statements -/
  stored : List (List Span) := []
  /-- the trace that is being stored, for the statements -/
  current : List Span := []
  /-- the results returned so far, with the number of traces that were stored at the time of the call and of the return -/
  views : List (Nat × Nat × List Span) := []

namespace LockedRing

inductive Step : LockedRing → LockedRing → Prop
  /-- buffer.go:20 -/
  | receive {b : LockedRing} (trace : List Span) : b.writer = .receive → Step b { b with writer := .wait trace }
  /-- buffer.go:21 -/
  | lock {b : LockedRing} {trace : List Span} : b.writer = .wait trace → b.lock = none → Step b { b with lock := some .writer, writer := .write trace, current := trace }
  /-- buffer.go:24 -/
  | store {b : LockedRing} {s : Span} {rest : List Span} : b.writer = .write (s :: rest) → b.ring.position < b.ring.spans.length →
      Step b { b with ring := { b.ring with spans := b.ring.spans.set b.ring.position s }, writer := .advance rest }
  /-- buffer.go:25 -/
  | advance {b : LockedRing} {rest : List Span} : b.writer = .advance rest → 0 < b.ring.spans.length →
      Step b { b with ring := { b.ring with position := (b.ring.position + 1) % b.ring.spans.length }, writer := .write rest }
  /-- buffer.go:28 -/
  | unlock {b : LockedRing} : b.writer = .write [] → Step b { b with lock := none, writer := .receive, stored := b.stored ++ [b.current], current := [] }
  /-- `ToSlice` is called -/
  | call {b : LockedRing} {j : Nat} : b.viewers[j]? = some .idle → Step b { b with viewers := b.viewers.set j (.wait b.stored.length) }
  /-- buffer.go:33 -/
  | viewLock {b : LockedRing} {j n : Nat} : b.viewers[j]? = some (.wait n) → b.lock = none → Step b { b with lock := some (.viewer j), viewers := b.viewers.set j (.scan n 0 []) }
  /-- buffer.go:37-41 -/
  | scan {b : LockedRing} {j n i : Nat} {result : List Span} {s : Span} : b.viewers[j]? = some (.scan n i result) → b.ring.spans[i]? = some s →
      Step b { b with viewers := b.viewers.set j (.scan n (i + 1) (if s.id ≠ 0 then result ++ [s] else result)) }
  /-- buffer.go:34, 43 -/
  | viewUnlock {b : LockedRing} {j n i : Nat} {result : List Span} : b.viewers[j]? = some (.scan n i result) → i = b.ring.spans.length →
      Step b { b with lock := none, viewers := b.viewers.set j .idle, views := b.views ++ [(n, b.stored.length, result)] }

/-- All histories, with any number of goroutines that call `ToSlice`. -/
inductive Reachable (capacity : Nat) : LockedRing → Prop
  | init (n : Nat) : Reachable capacity { ring := Ring.new capacity, viewers := List.replicate n .idle }
  | step {b b' : LockedRing} : Reachable capacity b → Step b b' → Reachable capacity b'

/-- buffer.go:24, 25: the index is out of range, or a division by zero. -/
def Panics (b : LockedRing) : Prop :=
  (∃ s rest, b.writer = .write (s :: rest) ∧ ¬ b.ring.position < b.ring.spans.length) ∨ ∃ rest, b.writer = .advance rest ∧ ¬ 0 < b.ring.spans.length

end LockedRing

end Verif
