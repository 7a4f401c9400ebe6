import Verif.Spec.Collector

/-!
# Two histories that are the same for one trace
-/

namespace Verif.Spec

/-- The traces that left because they were too large or too old: their ids were put on the blacklist. -/
def Blocked (r : Removal) : Prop := match r.fate with
  | .tooLarge => True
  | .tooOld => True
  | _ => False
instance (r : Removal) : Decidable (Blocked r) := by unfold Blocked; split <;> infer_instance

/-- At most 1023 traces were put on the blacklist since the start. -/
def FewBlocked (w : World) : Prop := (w.removed.filter fun r => decide (Blocked r)).length ≤ 1023

/-- Two histories of the collector in which the same happens to the trace `k`: its spans are received at the same times, and the ticks are at the same times. Everything else may be
different, except that neither collector is under load, and the buffer time is the same. -/
inductive Alike (k : Id) : World → World → Prop
  | init (now now' : Time) : Alike k { clock := now } { clock := now' }
  | left {w w'} (now1 now2 : Time) (s : Span) : Alike k w w' → w.clock ≤ now1 → now1 ≤ now2 → s.trace ≠ k → Alike k (w.receive now1 now2 s) w'
  | right {w w'} (now1 now2 : Time) (s : Span) : Alike k w w' → w'.clock ≤ now1 → now1 ≤ now2 → s.trace ≠ k → Alike k w (w'.receive now1 now2 s)
  | both {w w'} (now1 now2 : Time) (s : Span) : Alike k w w' → w.clock ≤ now1 → w'.clock ≤ now1 → now1 ≤ now2 → s.trace = k →
      Alike k (w.receive now1 now2 s) (w'.receive now1 now2 s)
  | tick {w w'} (i i' : TickInput) : Alike k w w' → i.Valid w.c → i'.Valid w'.c → w.clock ≤ i.now1 → w'.clock ≤ i'.now1 → i.now1 = i'.now1 → i.now2 = i'.now2 →
      bufferTime (counted w.c.traces.toList) = bufferTime (counted w'.c.traces.toList) →
      counted w.c.traces.toList ≤ 100000 → counted w'.c.traces.toList ≤ 100000 → FewBlocked (w.tick i) → FewBlocked (w'.tick i') →
      Alike k (w.tick i) (w'.tick i')

/-- The traces with id `k` that were sent, in order. -/
def sentFor (k : Id) (w : World) : List (List Span) := emittedOf (w.removed.filter fun r => r.id == k)

end Verif.Spec
