import Verif.Model.TagForward
import Verif.Spec.Pipeline

/-!
# What a converter does, if maps are values
-/

namespace Verif

/-- What is in the map of the span when the converter is done. -/
def Edit.left (e : Edit) (s : Span) : Option TagMap :=
  match s.tags, e.contents with
  | some _, some m => some m
  | t, _ => t

/-- The span that is given, with its tags. -/
def Edit.value (e : Edit) (s : Span) : Option Span :=
  e.result.map fun r => { r.1 with tags := match r.2 with
    | .same => e.left s
    | .fresh m => some m
    | .nil => none }

/-- The converter as a function of values. -/
def byValue {κ : Type} (edit : κ → Span → Edit × κ) : κ → Span → Option Span × κ := fun k s => ((edit k s).1.value s, (edit k s).2)

/-- All spans that left the collector, and where they are: with the targets, at the forwarder, or waiting for it. -/
def TagForward.all {κ : Type} (g : TagForward κ) : List (List RSpan) := g.out ++ (g.current.map fun c => c.1 ++ c.2).toList ++ g.st.delivered

end Verif
