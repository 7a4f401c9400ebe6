import Verif.Model.Warnings

/-!
# datadog/converter.go: the sender, with `DD_LOG_TRACES`

`Model/Sink.lean` (`submitBatch`) and `Model/Warnings.lean` (`submitLines`) have the sender without that variable; here is the whole of `submitTraces` for one batch.

Assumptions about libraries: `json.MarshalIndent` of the traces gives some text `render traces`, whatever it is (its error, which is not looked at in line 41, is only possible for numbers
that are not finite; there are none in the fields that are set).
-/

namespace Verif

/-- datadog/converter.go:13. -/
def logTracesOf (env : Str) : Bool := env = b!"true"

/-- What the sender does with a batch: the call of the transport, and the lines it logs. -/
structure Submitted where
  call : Option (List (List DDSpan)) := none
  lines : List Str := []

/-- datadog/converter.go:25-48: one batch. `refuses` is what the transport answers to a call: the text of an error, or none. -/
def submit (logTraces : Bool) (render : List (List DDSpan) → Str) (refuses : List (List DDSpan) → Option Str) (memory : List DDSpan) (range : List (UInt64 × List Nat)) : Submitted :=
  let r : Nat × List (List DDSpan) := range.foldl (fun r e => (r.1 + e.2.length, r.2 ++ [e.2.map fun p => memory.getD p {}])) (0, [])
  if r.2.length > 0 then
    let line := b!"Sending " ++ numberText r.1 ++ b!" spans in traces " ++ numberText r.2.length ++ b!" traces"
    if logTraces then { lines := [line, render r.2] }
    else
      match refuses r.2 with
      | none => { call := some r.2, lines := [line] }
      | some _ => { call := some r.2, lines := [line, b!"Error reporting spans to datadog"] }
  else {}

end Verif
