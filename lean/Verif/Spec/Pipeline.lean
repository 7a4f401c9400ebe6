import Verif.Model.Forward
import Verif.Model.Ring
import Verif.Model.Sink
import Verif.Model.Collector

/-!
# What happens to finished traces
-/

namespace Verif

/-- The last `n` elements. -/
def lastOf {α : Type} (n : Nat) (l : List α) : List α := l.drop (l.length - n)

/-- A span with this id is visible in the admin view. -/
def Span.Visible (s : Span) : Prop := s.id ≠ 0

instance (s : Span) : Decidable s.Visible := inferInstanceAs (Decidable (¬ _))

/-- Converts spans from left to right with a converter that has a state, and keeps those that are converted to a span with ids. -/
def convertAll {κ : Type} (conv : κ → Span → Option Span × κ) : κ → List Span → List Span × κ
  | k, [] => ([], k)
  | k, s :: l =>
    let r := convertAll conv (conv k s).2 l
    (((conv k s).1.toList.filter fun c => c.id ≠ 0 ∧ c.trace ≠ 0) ++ r.1, r.2)

/-- The same for traces. -/
def convertTraces {κ : Type} (conv : κ → Span → Option Span × κ) : κ → List (List Span) → List (List Span)
  | _, [] => []
  | k, t :: l => (convertAll conv k t).1 :: convertTraces conv (convertAll conv k t).2 l

/-- The states that any schedule leads to, with `n` targets, and the traces that arrived. -/
inductive Forwarder.Reachable {κ : Type} (conv : κ → Span → Option Span × κ) (caps : List Nat) (k : κ) (n : Nat) : List (List Span) → Forwarder κ → Prop
  | init : Reachable conv caps k n [] (Forwarder.init k n)
  | arrive {arrived f} (cells : List Span) : Reachable conv caps k n arrived f → Reachable conv caps k n (arrived ++ [cells]) (f.arrive cells)
  | step {arrived f f'} : Reachable conv caps k n arrived f → f.Step conv caps f' → Reachable conv caps k n arrived f'

/-- What target `i` got (including what waits in its channel), read now. -/
def Forwarder.delivered {κ : Type} (f : Forwarder κ) (i : Nat) : List (List Span) :=
  (f.taken.getD i [] ++ f.queues.getD i []).map f.heap.read

/-- Nothing is left to do. -/
def Forwarder.Idle {κ : Type} (f : Forwarder κ) : Prop := f.source = [] ∧ f.sending = none ∧ ∀ q ∈ f.queues, q = []

end Verif
