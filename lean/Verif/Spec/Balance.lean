import Verif.Model.Balance
import Verif.Spec.Span

/-!
# What the Kafka hop is expected to do

Kafka itself is the environment: a topic has partitions, the producer's partitioner is some function of the
key, a partition is a log of messages in the order in which they were produced, a consumer session reads a
partition from the committed offset on, and commits, at times of its choosing, an offset that is at most
one after a marked message.
-/

namespace Verif

/-- The number whose little-endian digits (base 256) the bytes are. -/
def leValue : List UInt8 → Nat
  | [] => 0
  | b :: bs => b.toNat + 256 * leValue bs

/-- A message of the topic: one of the proxy's messages, or something else. -/
inductive Entry
  | sent (span : Span) (ord : List (Str × Str)) (m : Message)
  | foreign (key value : List UInt8)

/-- Key and value on the wire, when the proxy's memory is `h`. -/
def Entry.key (h : Heap) : Entry → List UInt8
  | .sent _ _ m => h.deref m.key
  | .foreign k _ => k

def Entry.value (h : Heap) : Entry → List UInt8
  | .sent _ _ m => h.deref m.value
  | .foreign _ v => v

/-- The log of partition `n`. -/
def partitionLog (h : Heap) (part : List UInt8 → Nat) (n : Nat) (entries : List Entry) : List (List UInt8) :=
  (entries.filter (fun e => part (e.key h) = n)).map (Entry.value h)

/-- The spans among the entries, in order. -/
def sentSpans (entries : List Entry) : List Span :=
  entries.filterMap fun | .sent s _ _ => some s.withTags | .foreign _ _ => none

/-- The spans handed to the callback, in order. -/
def delivered (events : List ConsumerEvent) : List Span :=
  events.filterMap fun | .delivered _ s => some s | .marked _ => none

/-- A consumer group on one partition whose log is `log`: what is committed and what has been handed to
callbacks, with the offset it was read from, by all sessions so far. -/
structure Group where
  committed : Nat := 0
  handed : List (Nat × Span) := []

/-- One session, up to the point where it ends or crashes: it reads from the committed offset; of what
it does, some prefix happens; and of the commits it makes, some offset `c` is the last one to arrive: the committed
offset as it was, or one after a marked message. -/
inductive Group.Session (log : List (List UInt8)) : Group → Group → Prop
  | run {g : Group} {events : List ConsumerEvent} {c : Nat} :
      events <+: consumeClaim g.committed (log.drop g.committed) →
      (c = g.committed ∨ ∃ o, ConsumerEvent.marked o ∈ events ∧ c = o + 1) →
      Group.Session log g
        { committed := c
          handed := g.handed ++ events.filterMap fun | .delivered o s => some (o, s) | .marked _ => none }

/-- All histories of a group: sessions, one after the other. (The log given here is the log as it is at the end; that a
session reads only what had been written by then is covered by its prefix.) -/
inductive Group.Reachable (log : List (List UInt8)) : Group → Prop
  | init : Group.Reachable log {}
  | step {g g' : Group} : Group.Reachable log g → Group.Session log g g' → Group.Reachable log g'

end Verif
