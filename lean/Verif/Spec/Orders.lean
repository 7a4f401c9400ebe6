import Verif.Spec.Observe
import Verif.Spec.Isolation

/-!
# Orders of maps

Go iterates over a map in an order that differs from time to time, and `sort.Slice` puts elements that are equal in any order. A history of the collector (`After`) is given by what happens; the orders are not part of it.
-/

namespace Verif.Spec

/-- A history in which the collector is never under load at a tick, and at most 1023 traces were put on the blacklist. -/
inductive Calmly (start : Time) : List Happening → World → Prop
  | start : Calmly start [] { clock := start }
  | receive {l : List Happening} {w : World} {now1 now2 : Time} {s : Span} : Calmly start l w → w.clock ≤ now1 → now1 ≤ now2 →
      Calmly start (.receive now1 now2 s :: l) (w.receive now1 now2 s)
  | tick {l : List Happening} {w : World} {i : TickInput} : Calmly start l w → i.Valid w.c → w.clock ≤ i.now1 → counted w.c.traces.toList ≤ 100000 → FewBlocked (w.tick i) →
      Calmly start (.tick i.now1 i.now2 i.nowFake :: l) (w.tick i)

/-- The same is pending, blocked and refused, and the same traces have left for the same reasons with the same spans; only the order in which they left may differ. -/
structure SameButOrder (w w' : World) : Prop where
  traces : w.c.traces = w'.c.traces
  blacklist : w.c.blacklist = w'.c.blacklist
  received : w.received = w'.received
  refused : w.refused = w'.refused
  clock : w.clock = w'.clock
  removed : w.removed.Perm w'.removed

end Verif.Spec
