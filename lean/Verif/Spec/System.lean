import Verif.Model.System
import Verif.Spec.Handlers
import Verif.Spec.Pipeline
import Verif.Spec.Collector

/-!
# What the whole system does with spans
-/

namespace Verif

open Spec

/-- A span of an accepted request. -/
def Accepted (outcomes : List Parsed) (p : Span) : Prop := ∃ l, Parsed.spans l ∈ outcomes ∧ p ∈ l

/-- Where a span that left the pipeline comes from: the converter made it of a span that is a fake root or has the ids of a span of an accepted request. -/
def Stems {κ : Type} (conv : κ → Span → Option Span × κ) (outcomes : List Parsed) (s : Span) : Prop :=
  s.id ≠ 0 ∧ s.trace ≠ 0 ∧ ∃ k m, (conv k m).1 = some s ∧
    (m.name = b!"fake-root" ∧ m.service = b!"fake-root" ∨ ∃ p, Accepted outcomes p ∧ Traced p ∧ p.id = m.id ∧ p.trace = m.trace)

/-- Work is left for the pipeline proper. -/
def System.Pending {κ : Type} (s : System κ) : Prop :=
  (∃ c ∈ s.http.conns, c = .failing ∨ ∃ l, c = .pushing l) ∨ s.http.channel ≠ [] ∨ s.outbox ≠ [] ∨ ¬ s.forwarder.Idle ∨ s.sinkBusy ≠ none ∨ s.ringBusy ≠ none

end Verif
