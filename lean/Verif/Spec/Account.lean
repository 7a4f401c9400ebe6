import Verif.Spec.System

/-!
# What became of every span
-/

namespace Verif

open Spec

variable {κ : Type}

/-- The spans of the batches that were not discarded. -/
def keptChunks (chunks : List (List Span)) (log : List (Bool × ByTrace)) : List (List Span) := ((chunks.zip log).filter (·.2.1)).map (·.1)

/-- The books of the sink and its sender: `chunks` are the spans of the batches, `current` those that were not flushed yet. -/
structure Account (s : System κ) (chunks : List (List Span)) (current : List Span) : Prop where
  part : Partition s.sink chunks current
  /-- the calls of `SendTraces` so far are for the first batches that were not discarded, in order, … -/
  sent : ∀ (i : Nat) call, s.sent[i]? = some call → ∃ c, (keptChunks chunks s.sink.log)[i]? = some c ∧ Call c call
  /-- … and the others wait -/
  waiting : (keptChunks chunks s.sink.log).length = s.sent.length + s.sending.toList.length + s.sink.sink.grouped.length

/-- `m` is one of the spans that the collector sent, and `j` the state of the converter when it gets it. -/
def MeetsConverter (conv : κ → Span → Option Span × κ) (k : κ) (s : System κ) (m : Span) (j : κ) : Prop :=
  ∃ before after, (emittedOf s.world.removed).flatten = before ++ m :: after ∧ j = (convertAll conv k before).2

/-- What became of a span that the sink received. -/
inductive SinkFate (s : System κ) (x : Span) : Prop
  /-- its batch was discarded because eight were waiting -/
  | dropped {chunks current c b} {i : Nat} : Account s chunks current → chunks[i]? = some c → s.sink.log[i]? = some (false, b) → x ∈ c → SinkFate s x
  /-- it is not flushed yet -/
  | buffered {chunks current} : Account s chunks current → x ∈ current → SinkFate s x
  /-- its batch waits for the sender, or is being sent -/
  | waiting {chunks current c} {i : Nat} : Account s chunks current → s.sent.length ≤ i → (keptChunks chunks s.sink.log)[i]? = some c → x ∈ c → SinkFate s x
  /-- it was sent -/
  | sent {call t} : call ∈ s.sent → t ∈ call → toDatadog x ∈ t → SinkFate s x

/-- Everything that the sink received was sent: nothing is buffered or waits, and no batch was discarded. -/
def System.Flushed (s : System κ) : Prop :=
  s.sink.sink.spanCount = 0 ∧ s.sink.sink.grouped = [] ∧ s.sending = none ∧ ∀ e ∈ s.sink.log, e.1 = true

/-- A span left the collector in a finished trace, merged with the other spans of the trace with its id; `m` is the result, with corrected times. -/
def LeavesAs (s : System κ) (p m : Span) : Prop :=
  m.id = p.id ∧ m.trace = p.trace ∧ ∃ r ∈ s.world.removed, r.id = p.trace ∧ p ∈ r.tree.members ∧ ∃ out y, r.fate = .emitted out ∧ m ∈ out ∧
    held p.id r.tree.members = some y ∧ untimed m = untimed y

/-- What became of a span. -/
inductive SpanFate (conv : κ → Span → Option Span × κ) (k : κ) (s : System κ) (p : Span) : Prop
  /-- its trace was on the blacklist -/
  | refused : p ∈ s.world.refused → SpanFate conv k s p
  /-- it is in a trace that the collector still holds -/
  | pending {t : Tree} : s.world.c.traces[p.trace]? = some t → p ∈ t.members → SpanFate conv k s p
  /-- it left the collector with a trace that was not sent -/
  | lost {r : Removal} : r ∈ s.world.removed → r.id = p.trace → p ∈ r.tree.members → (r.fate = .tooLarge ∨ r.fate = .tooOld ∨ r.fate = .noRoot ∨ r.fate = .discarded) → SpanFate conv k s p
  /-- the converter made nothing of it, or something without ids -/
  | filtered {m : Span} {j : κ} : LeavesAs s p m → MeetsConverter conv k s m j → (∀ x, (conv j m).1 = some x → x.id = 0 ∨ x.trace = 0) → SpanFate conv k s p
  /-- the converter made a span of it, which the sink received -/
  | converted {m x : Span} {j : κ} : LeavesAs s p m → MeetsConverter conv k s m j → (conv j m).1 = some x → x.id ≠ 0 → x.trace ≠ 0 → SinkFate s x → SpanFate conv k s p

end Verif
