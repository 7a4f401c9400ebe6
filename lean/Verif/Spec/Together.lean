import Verif.Spec.Collector

/-!
# Traces of which the spans arrive quickly

Histories of the collector as lists of what happens to it, with the times.
-/

namespace Verif.Spec

/-- What can happen to the collector: a span is received (the clock is read up to twice), or a tick. -/
inductive CEvent
  | receive (now1 now2 : Time) (s : Span)
  | tick (i : TickInput)

/-- The collector goes from `w` to `w'` by the events `es`, the last of which is the latest. -/
inductive Runs (w : World) : List CEvent → World → Prop
  | nil : Runs w [] w
  | receive {es w'} (now1 now2 : Time) (s : Span) : Runs w es w' → w'.clock ≤ now1 → now1 ≤ now2 →
      Runs w (es ++ [.receive now1 now2 s]) (w'.receive now1 now2 s)
  | tick {es w'} (i : TickInput) : Runs w es w' → i.Valid w'.c → w'.clock ≤ i.now1 → Runs w (es ++ [.tick i]) (w'.tick i)

/-- The spans of the trace `k` among the events. -/
def spansOf (k : Id) (es : List CEvent) : List Span :=
  es.filterMap fun
    | .receive _ _ s => if Traced s ∧ s.trace = k then some s else none
    | .tick _ => none

/-- When the first and when the last span of the trace `k` was received. -/
def timesOf (k : Id) (es : List CEvent) : Option (Time × Time) :=
  es.foldl (init := none) fun
    | none, .receive now1 now2 s => if Traced s ∧ s.trace = k then some (now1, now2) else none
    | some (a, b), .receive _ now2 s => if Traced s ∧ s.trace = k then some (a, now2) else some (a, b)
    | r, .tick _ => r

/-- Whenever there is a tick, the latest span of the trace came less than 2 seconds, and the first one at most 10 seconds before. -/
def Quick (k : Id) (es : List CEvent) : Prop :=
  ∀ pre i a b, pre ++ [.tick i] <+: es → timesOf k pre = some (a, b) → i.now1 < b + 2000000000 ∧ i.now2 ≤ a + 10000000000

/-- Whenever there is a tick, at most 100000 spans are waiting. -/
def Calm (w : World) (es : List CEvent) : Prop :=
  ∀ pre i u, pre ++ [.tick i] <+: es → Runs w pre u → counted u.c.traces.toList ≤ 100000

/-- Every tick is at `limit` or earlier. -/
def TicksBy (limit : Time) (es : List CEvent) : Prop := ∀ pre i, pre ++ [.tick i] <+: es → i.now2 ≤ limit

/-- The spans have at most 8192 different ids. -/
def FewIds (l : List Span) : Prop := ∃ ids : List Id, ids.length ≤ 8192 ∧ ∀ s ∈ l, s.id ∈ ids

end Verif.Spec
