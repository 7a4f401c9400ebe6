import Verif.Spec.Document
import Verif.Model.Collector

/-!
# Looking at some of the values that instrumented programs give to their spans

Of the model only the states and the steps of the collector are used.
-/

namespace Verif.Spec

/-- Somebody who looks at the times, at the names, at the services and at some tags, or not. -/
structure Observer where
  times : Prop
  name : Prop
  service : Prop
  tag : Str → Prop

/-- Two spans that are the same for this observer: the same place in the same trace, told by the same side, and the same in what is looked at. -/
structure SameTo (o : Observer) (s t : Span) : Prop where
  id : s.id = t.id
  parent : s.parent = t.parent
  trace : s.trace = t.trace
  server : (0 < s.timings.SR ∨ 0 < s.timings.SS) ↔ (0 < t.timings.SR ∨ 0 < t.timings.SS)
  timestamp : o.times → s.timestamp = t.timestamp
  duration : o.times → s.duration = t.duration
  timings : o.times → s.timings = t.timings
  name : o.name → s.name = t.name
  service : o.service → s.service = t.service
  tag : ∀ key, o.tag key → (s.tags.getD ∅)[key]? = (t.tags.getD ∅)[key]?

/-- What the collector gets to see. -/
inductive Happening
  | receive (now1 now2 : Time) (s : Span)
  | tick (now1 now2 : Time) (nowFake : Id → Time)

/-- The collector after these happenings, latest first, in any order of the iterations over maps. -/
inductive After (start : Time) : List Happening → World → Prop
  | start : After start [] { clock := start }
  | receive {l : List Happening} {w : World} {now1 now2 : Time} {s : Span} : After start l w → w.clock ≤ now1 → now1 ≤ now2 →
      After start (.receive now1 now2 s :: l) (w.receive now1 now2 s)
  | tick {l : List Happening} {w : World} {i : TickInput} : After start l w → i.Valid w.c → w.clock ≤ i.now1 →
      After start (.tick i.now1 i.now2 i.nowFake :: l) (w.tick i)

/-- The same at the same time, with spans that are related in the way that is demanded for their trace. -/
inductive SameHappening (R : Id → Span → Span → Prop) : Happening → Happening → Prop
  | receive {now1 now2 : Time} {s t : Span} : s.trace = t.trace → R s.trace s t → SameHappening R (.receive now1 now2 s) (.receive now1 now2 t)
  | tick {now1 now2 : Time} {nowFake : Id → Time} : SameHappening R (.tick now1 now2 nowFake) (.tick now1 now2 nowFake)

/-- The same happened to two traces: of the ones that were sent, the spans are related one by one. -/
inductive SameFate (S : Span → Span → Prop) : Fate → Fate → Prop
  | tooLarge : SameFate S .tooLarge .tooLarge
  | tooOld : SameFate S .tooOld .tooOld
  | noRoot : SameFate S .noRoot .noRoot
  | discarded : SameFate S .discarded .discarded
  | stuck : SameFate S .stuck .stuck
  | emitted {l l' : List Span} : Pairwise₂ S l l' → SameFate S (.emitted l) (.emitted l')

/-- Two pending traces whose spans are related one by one. -/
structure SameTree (R : Span → Span → Prop) (t t' : Tree) : Prop where
  traceId : t.traceId = t'.traceId
  spans : Pairwise₂ R t.spans t'.spans
  started : t.started = t'.started
  updated : t.updated = t'.updated
  nodeCount : t.nodeCount = t'.nodeCount
  members : Pairwise₂ R t.members t'.members

/-- Two traces that left for the same reason: what was received is related by `R`, what was sent is related by `S`. -/
structure SameRemoval (R : Id → Span → Span → Prop) (S : Id → Tree → Span → Span → Prop) (r r' : Removal) : Prop where
  id : r.id = r'.id
  tree : SameTree (R r.id) r.tree r'.tree
  fate : SameFate (S r.id r.tree) r.fate r'.fate

/-- Two collectors that differ only in spans that are related: the same traces are pending, the same ones are blacklisted, the metrics are the same, and the same traces left
in the same order for the same reasons. -/
structure SameWorld (R : Id → Span → Span → Prop) (S : Id → Tree → Span → Span → Prop) (w w' : World) : Prop where
  pending : ∀ k : Id, (w.c.traces[k]? = none ∧ w'.c.traces[k]? = none) ∨
    ∃ t t', w.c.traces[k]? = some t ∧ w'.c.traces[k]? = some t' ∧ SameTree (R k) t t'
  blacklist : w.c.blacklist = w'.c.blacklist
  metrics : w.c.metrics = w'.c.metrics
  received : Pairwise₂ (fun s t => R s.trace s t) w.received w'.received
  refused : Pairwise₂ (fun s t => R s.trace s t) w.refused w'.refused
  removed : Pairwise₂ (SameRemoval R S) w.removed w'.removed
  clock : w.clock = w'.clock

end Verif.Spec
