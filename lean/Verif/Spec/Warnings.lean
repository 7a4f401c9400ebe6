import Verif.Spec.View
import Verif.Spec.Collector
import Verif.Spec.Sink
import Verif.Model.Warnings

/-!
# What the lines of the log say
-/

namespace Verif.Spec

/-- A number in decimal notation, without leading zeros. -/
def CountText (t : Str) (n : Nat) : Prop := Digits t ∧ decimalValue t = n ∧ (t = b!"0" ∨ t.head? ≠ some c!"0")

/-- What is said. -/
inductive Notice
  /-- a trace is dropped because it is too large, or has been there for too long; the number of its spans -/
  | tooLarge (trace : Id) (spans : Nat)
  | tooOld (trace : Id) (spans : Nat)
  /-- load is shed: the number of spans; the number of spans too much; the numbers of discarded traces and spans -/
  | crowded (spans : Nat)
  | excess (spans : Nat)
  | discarded (traces spans : Nat)
  /-- a batch is sent, was refused, or discarded -/
  | sending (spans traces : Nat)
  | refused
  | blocked (traces : Nat)
deriving DecidableEq

/-- The line says this. -/
inductive Says : Str → Notice → Prop
  | tooLarge {i n : Str} {trace : Id} {spans : Nat} : IdText i trace → CountText n spans →
    Says (b!"Trace " ++ i ++ b!" with " ++ n ++ b!" nodes is too large.") (.tooLarge trace spans)
  | tooOld {i n : Str} {trace : Id} {spans : Nat} : IdText i trace → CountText n spans →
    Says (b!"Trace " ++ i ++ b!" with " ++ n ++ b!" nodes is too old") (.tooOld trace spans)
  | crowded {n : Str} {spans : Nat} : CountText n spans → Says (b!"There are currently " ++ n ++ b!" in-flight spans, removing some traces now") (.crowded spans)
  | excess {n : Str} {spans : Nat} : CountText n spans → Says (b!"Need to discard about " ++ n ++ b!" spans") (.excess spans)
  | discarded {m n : Str} {traces spans : Nat} : CountText m traces → CountText n spans →
    Says (b!"Too many spans, discarded " ++ m ++ b!" trace with " ++ n ++ b!" spans") (.discarded traces spans)
  | sending {m n : Str} {spans traces : Nat} : CountText m spans → CountText n traces →
    Says (b!"Sending " ++ m ++ b!" spans in traces " ++ n ++ b!" traces") (.sending spans traces)
  | refused : Says b!"Error reporting spans to datadog" .refused
  | blocked {n : Str} {traces : Nat} : CountText n traces → Says (b!"Discarding " ++ n ++ b!" traces, sending to datadog would block.") (.blocked traces)

/-- What is said about a trace that leaves the collector: nothing, unless it is too large or too old. -/
def noticeOf (r : Removal) : Option Notice :=
  match r.fate with
  | .tooLarge => some (.tooLarge r.id (size r.tree))
  | .tooOld => some (.tooOld r.id (size r.tree))
  | _ => none

/-- What is said when load is shed: `held` spans are counted before the traces are examined, `rest` are left afterwards, and `spans` of them, in `traces` traces, are discarded. -/
def shedNotices (held rest traces spans : Nat) : List Notice :=
  if held ≤ 100000 then []
  else if rest < 100000 then [.crowded held]
  else [.crowded held, .excess (rest - 100000), .discarded traces spans]

/-- The spans are of this many different traces. -/
def TraceCount (spans : List Span) (n : Nat) : Prop :=
  ∃ ids : List Id, ids.Nodup ∧ (∀ k, k ∈ ids ↔ ∃ s ∈ spans, s.trace = k) ∧ ids.length = n

/-- The spans of the batches that were put into the channel, or that were discarded. -/
def chunksOf (ok : Bool) (log : List (Bool × ByTrace)) (chunks : List (List Span)) : List (List Span) :=
  ((log.zip chunks).filter fun e => e.1.1 == ok).map (·.2)

/-- What is said about a batch that is discarded. -/
def BlockedLine (line : Str) (spans : List Span) : Prop := ∃ n, TraceCount spans n ∧ Says line (.blocked n)

/-- What is said about a batch that is sent. -/
def SendingLines (lines : List Str) (spans : List Span) : Prop :=
  ∃ line rest n, lines = line :: rest ∧ TraceCount spans n ∧ Says line (.sending spans.length n) ∧ (rest = [] ∨ ∃ x, rest = [x] ∧ Says x .refused)

/-- The sink can get into this state, the lines that it logs on the way, and those that the sender logs for each batch that it gets. -/
inductive SinkWrites : SinkRun → List Str → List (List Str) → Prop
  | init : SinkWrites {} [] []
  | receive {w sink sender} (trace : List Span) (now : Time) : SinkWrites w sink sender → SinkWrites (w.receive trace now) (sink ++ w.sink.receiveLines trace) sender
  | tick {w sink sender} (since now : Time) : SinkWrites w sink sender → SinkWrites (w.tick since now) (sink ++ w.sink.tickLines since) sender
  | take {w sink sender b k range} (refused : Option Str) : SinkWrites w sink sender → w.sink.takeBatch = some (b, k) → IsRange range b →
    SinkWrites { w with sink := k, handed := w.handed ++ [b] } sink (sender ++ [submitLines range refused])

end Verif.Spec
