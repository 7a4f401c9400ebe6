import Verif.Spec.Tree

/-!
# Spans that are received more than once
-/

namespace Verif.Spec

/-- Two spans of one id that do not overwrite each other: they are of different kinds, or agree on what the later one wins. -/
def Compatible (x y : Span) : Prop :=
  if IsServer x then (IsServer y → y = x) else (¬ IsServer y → y.timings.CS = x.timings.CS ∧ y.timings.CR = x.timings.CR)

/-- Everything that `x` could contribute is in `a` already. -/
structure Absorbed (x a : Span) : Prop where
  parent : a.parent = 0 → x.parent = 0
  tags : ∃ m, a.tags = some m ∧ ∀ k : Str, ((x.tags.getD ∅)[k]?).isSome → if IsServer x then m[k]? = (x.tags.getD ∅)[k]? else (m[k]?).isSome
  service : x.service ≠ [] → if IsServer x then a.service = x.service else a.service ≠ []
  name : x.name ≠ [] → if IsServer x then a.name = x.name else a.name ≠ []
  server : IsServer x → (0 < x.timings.SS → a.timings.SS = x.timings.SS) ∧ (0 < x.timings.SR → a.timings.SR = x.timings.SR)
  client : ¬ IsServer x → (0 < x.timings.CS → a.timings.CS = x.timings.CS) ∧ (0 < x.timings.CR → a.timings.CR = x.timings.CR)

/-- The parent that the first of some spans to know one knows. -/
def firstParent : List Span → Id
  | [] => 0
  | s :: l => if s.parent = 0 then firstParent l else s.parent

/-- Two sequences of spans with one id that differ only in how server halves and other spans, behind the first one, are interleaved. -/
structure Interleaved (l l' : List Span) : Prop where
  first : l.head? = l'.head?
  servers : l.tail.filter (fun s => decide (IsServer s)) = l'.tail.filter (fun s => decide (IsServer s))
  others : l.tail.filter (fun s => !decide (IsServer s)) = l'.tail.filter (fun s => !decide (IsServer s))
  parent : firstParent l = firstParent l'

/-- A server half `s` and another span `c` with the same id give the same, whichever is first. -/
structure Exchangeable (c s : Span) : Prop where
  id : c.id = s.id
  trace : c.trace = s.trace
  start : c.timestamp = s.timestamp
  duration : c.duration = s.duration
  parent : c.parent = 0 ∨ s.parent = 0 ∨ c.parent = s.parent
  CS : 0 < c.timings.CS ∨ c.timings.CS = s.timings.CS
  CR : 0 < c.timings.CR ∨ c.timings.CR = s.timings.CR
  SS : 0 < s.timings.SS ∨ c.timings.SS = s.timings.SS
  SR : 0 < s.timings.SR ∨ c.timings.SR = s.timings.SR

end Verif.Spec
