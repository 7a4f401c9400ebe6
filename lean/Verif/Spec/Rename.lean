import Verif.Spec.Observe

/-!
# Other ids for the same spans

Of the model only the states and the steps of the collector are used.
-/

namespace Verif.Spec

/-- Other ids for traces, and for the spans of each trace: different ones remain different, 0 (no id) remains 0, and the id of a trace remains an id of the trace where it is used
for a span. -/
structure Renaming where
  trace : Id → Id
  /-- for each trace the ids of its spans -/
  span : Id → Id → Id
  traces : ∀ {a b : Id}, trace a = trace b → a = b
  spans : ∀ {k a b : Id}, span k a = span k b → a = b
  noTrace : trace 0 = 0
  noSpan : ∀ k, span k 0 = 0
  root : ∀ k, span k k = trace k

/-- The span with its other ids. -/
def Renaming.apply (n : Renaming) (s : Span) : Span := { s with trace := n.trace s.trace, id := n.span s.trace s.id, parent := n.span s.trace s.parent }

/-- The same at the same time, with the other ids. (The times at which roots are made up may differ.) -/
inductive RenamedHappening (n : Renaming) : Happening → Happening → Prop
  | receive {now1 now2 : Time} {s : Span} : RenamedHappening n (.receive now1 now2 s) (.receive now1 now2 (n.apply s))
  | tick {now1 now2 : Time} {nowFake nowFake' : Id → Time} : RenamedHappening n (.tick now1 now2 nowFake) (.tick now1 now2 nowFake')

/-- Two pending traces with the same spans, up to the ids and their order. -/
structure RenamedTree (n : Renaming) (t t' : Tree) : Prop where
  traceId : t'.traceId = n.trace t.traceId
  spans : t'.spans.Perm (t.spans.map n.apply)
  started : t'.started = t.started
  updated : t'.updated = t.updated
  members : t'.members = t.members.map n.apply

/-- The same happened to two traces; of the ones that were sent, the spans are the same up to the ids and their order. -/
inductive RenamedFate (n : Renaming) : Fate → Fate → Prop
  | tooLarge : RenamedFate n .tooLarge .tooLarge
  | tooOld : RenamedFate n .tooOld .tooOld
  | noRoot : RenamedFate n .noRoot .noRoot
  | discarded : RenamedFate n .discarded .discarded
  | emitted {l l' : List Span} : l'.Perm (l.map n.apply) → RenamedFate n (.emitted l) (.emitted l')

/-- Two traces that left for the same reason. -/
structure RenamedRemoval (n : Renaming) (r r' : Removal) : Prop where
  id : r'.id = n.trace r.id
  tree : RenamedTree n r.tree r'.tree
  fate : RenamedFate n r.fate r'.fate

/-- Two collectors that differ in ids (and the order of spans) only: the same traces are pending and blacklisted, the metrics are the same, and the same traces left in the same order for
the same reasons. -/
structure RenamedWorld (n : Renaming) (w w' : World) : Prop where
  pending : ∀ k : Id, (w.c.traces[k]? = none ∧ w'.c.traces[n.trace k]? = none) ∨
    ∃ t t', w.c.traces[k]? = some t ∧ w'.c.traces[n.trace k]? = some t' ∧ RenamedTree n t t'
  noOther : ∀ (j : Id) (t' : Tree), w'.c.traces[j]? = some t' → ∃ k, j = n.trace k
  blacklist : ∀ k : Id, w'.c.blacklist[n.trace k]? = w.c.blacklist[k]?
  noOtherBlacklisted : ∀ j : Id, w'.c.blacklist[j]? = some () → ∃ k, j = n.trace k
  metrics : w'.c.metrics = w.c.metrics
  received : w'.received = w.received.map n.apply
  refused : w'.refused = w.refused.map n.apply
  removed : Pairwise₂ (RenamedRemoval n) w.removed w'.removed
  clock : w'.clock = w.clock

end Verif.Spec
