import Verif.Model.Span

/-!
# buffer.go: the ring of the last spans, for the admin view
-/

namespace Verif

/-- buffer.go:8-12. (`position` is always an index, so that it does not overflow.) `ReadFrom` holds the lock for a whole
trace, `ToSlice` for the whole call: see Model/RingLock. -/
structure Ring where
  position : Nat
  spans : List Span

/-- buffer.go:14-17 `NewSpansBuffer`. -/
def Ring.new (capacity : Nat) : Ring := { position := 0, spans := List.replicate capacity {} }

/-- buffer.go:24-25. Writing to an index out of range panics. -/
def Ring.push (b : Ring) (span : Span) : Option Ring :=
  if b.position < b.spans.length then
    some { position := (b.position + 1) % b.spans.length, spans := b.spans.set b.position span }
  else none

/-- buffer.go:23-26: one trace. -/
def Ring.pushTrace : List Span → Ring → Option Ring
  | [], b => some b
  | s :: l, b => (b.push s).bind (pushTrace l)

/-- buffer.go:19-30 `ReadFrom`, for the traces that were received so far. -/
def Ring.readFrom : List (List Span) → Ring → Option Ring
  | [], b => some b
  | t :: l, b => (b.pushTrace t).bind (readFrom l)

/-- buffer.go:32-44 `ToSlice`. -/
def Ring.toSlice (b : Ring) : List Span := b.spans.foldl (fun result span => if span.id ≠ 0 then result ++ [span] else result) []

end Verif
