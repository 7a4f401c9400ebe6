import Verif.Spec.Collector

/-!
# The shape of a trace

Parent links inside of a list of spans. A span that is its own parent is a root candidate, its link to
itself does not count.
-/

namespace Verif.Spec

/-- The id of a span and the id of its parent. -/
def link (s : Span) : Id × Id := (s.id, s.parent)

/-- `a` is reached from `s` by following at least one parent link. -/
inductive Above (spans : List Span) (a : Span) : Span → Prop
  | parent {s} : a ∈ spans → s ∈ spans → s.parent = a.id → s.parent ≠ s.id → Above spans a s
  | step {p s} : Above spans a p → s ∈ spans → s.parent = p.id → s.parent ≠ s.id → Above spans a s

/-- Following the parent links from `s` runs into a cycle. -/
def Lost (spans : List Span) (s : Span) : Prop := ∃ c, Above spans c c ∧ (c = s ∨ Above spans c s)

/-- One root, from which all other spans descend. -/
def IsTree (spans : List Span) : Prop := ∃ r, UniqueRoot spans r ∧ ∀ s ∈ spans, ∃ anc, Path spans r anc s

/-- A converter that keeps all spans with their ids. -/
def Transparent {κ : Type} (conv : κ → Span → Option Span × κ) : Prop :=
  ∀ k s, ∃ c, (conv k s).1 = some c ∧ link c = link s ∧ c.trace = s.trace

end Verif.Spec
