import Verif.Model.LogTraces
import Verif.Spec.Warnings
import Verif.Spec.FairSender

/-!
# What becomes of a batch that the sender gets
-/

namespace Verif.Spec

/-- The sink and its sender: the batch in the hands of the sender, and what it did with those before. -/
structure SenderRun where
  sink : SinkRun := {}
  sending : Option ByTrace := none
  done : List Submitted := []

/-- The states that any schedule leads to. The transport may answer to each call in another way. -/
inductive SenderRun.Reachable (logTraces : Bool) (render : List (List DDSpan) → Str) : SenderRun → Prop
  | init : Reachable logTraces render {}
  | receive {w} (trace : List Span) (now : Time) : Reachable logTraces render w → Reachable logTraces render { w with sink := w.sink.receive trace now }
  | tick {w} (since now : Time) : Reachable logTraces render w → Reachable logTraces render { w with sink := w.sink.tick since now }
  | take {w b k} : Reachable logTraces render w → w.sending = none → w.sink.sink.takeBatch = some (b, k) →
      Reachable logTraces render { w with sending := some b, sink := { w.sink with sink := k, handed := w.sink.handed ++ [b] } }
  | submit {w b range} (refuses : List (List DDSpan) → Option Str) : Reachable logTraces render w → w.sending = some b → IsRange range b →
      Reachable logTraces render { w with sending := none, done := w.done ++ [submit logTraces render refuses w.sink.sink.memory range] }

/-- These spans are sent to Datadog: one call for all of them, one line about it, and perhaps one that it was refused. -/
def SentBatch (d : Submitted) (spans : List Span) : Prop :=
  ∃ traces line rest n, Call spans traces ∧ d.call = some traces ∧ d.lines = line :: rest ∧ TraceCount spans n ∧ Says line (.sending spans.length n) ∧
    (rest = [] ∨ ∃ x, rest = [x] ∧ Says x .refused)

/-- These spans are written to the log, and to the log only. -/
def LoggedBatch (render : List (List DDSpan) → Str) (d : Submitted) (spans : List Span) : Prop :=
  ∃ traces line n, Call spans traces ∧ d.call = none ∧ d.lines = [line, render traces] ∧ TraceCount spans n ∧ Says line (.sending spans.length n)

end Verif.Spec
