import Verif.Model.TagHeap
import Verif.Model.Forward

/-!
# Converters that write tags in place

`Model/Forward` and `Model/SharedMemory` have tags as values. A converter of the user gets a copy of the span (main.go:190), but the map in it is the map of the span: `span.AddTag(…)` in the converter writes to it
(or makes a map, if there is none). Here the forwarder works on the maps of `Model/TagHeap`, while the collector goes on. Arrays are left out, see `Model/SharedMemory` for them.

The converter may write whatever it wants to the map of its span, and give this map, a new one or none. It does not use the maps of other spans, which it could only do by keeping them from earlier calls.
A tick is one step: it does not touch maps.
-/

namespace Verif

/-- The map of the span that a converter gives: the one that it got, a new one, or nil. -/
inductive GivenTags
  | same
  | fresh (m : TagMap)
  | nil

/-- What a converter does with a span. -/
structure Edit where
  /-- what it leaves in the map of the span, if it writes to it -/
  contents : Option TagMap := none
  /-- the span that it gives, or an error; the field `tags` of the span is not used -/
  result : Option (Span × GivenTags)

/-- The converter writes to the map of `s`, if there is one. -/
def Edit.write (e : Edit) (h : TagHeap) (s : RSpan) : TagHeap :=
  match s.ref, e.contents with
  | some a, some m => h.set a ⟨m, (h.getD a {}).writes + 1⟩
  | _, _ => h

/-- The converter works on the map of `s`, and gives a span. -/
def Edit.apply (e : Edit) (h : TagHeap) (s : RSpan) : TagHeap × Option RSpan :=
  match e.result with
  | none => (e.write h s, none)
  | some (v, .same) => (e.write h s, some { val := v, ref := s.ref })
  | some (v, .fresh m) => (e.write h s ++ [⟨m, 0⟩], some { val := v, ref := some (e.write h s).length })
  | some (v, .nil) => (e.write h s, some { val := v })

/-- The collector, the forwarder and the maps. `st.delivered` are the traces that wait for the forwarder. -/
structure TagForward (κ : Type) where
  world : World
  st : TagState := {}
  conv : κ
  /-- the trace at which the forwarder is: `result`, and what is still to be converted -/
  current : Option (List RSpan × List RSpan) := none
  /-- the traces that were given to the targets, which read them at any time -/
  out : List (List RSpan) := []

/-- One step of the collector or of the forwarder. -/
inductive TagForward.Step {κ : Type} (edit : κ → Span → Edit × κ) : TagForward κ → TagForward κ → Prop
  | collect (g : TagForward κ) {w : World} {st : TagState} : TagStep (g.world, g.st) (w, st) → Step edit g { g with world := w, st := st }
  /-- main.go:202 -/
  | take (g : TagForward κ) {t : List RSpan} {rest : List (List RSpan)} : g.st.delivered = t :: rest → g.current = none →
      Step edit g { g with st := { g.st with delivered := rest }, current := some ([], t) }
  /-- main.go:189-196 -/
  | convert (g : TagForward κ) {done : List RSpan} {s : RSpan} {todo : List RSpan} : g.current = some (done, s :: todo) →
      Step edit g
        (let e := edit g.conv (s.read g.st.heap)
         let r := e.1.apply g.st.heap s
         { g with
           st := { g.st with heap := r.1 }
           conv := e.2
           current := some (done ++ r.2.toList.filter (fun c => c.val.id ≠ 0 ∧ c.val.trace ≠ 0), todo) })
  /-- main.go:198-200 -/
  | send (g : TagForward κ) {done : List RSpan} : g.current = some (done, []) → Step edit g { g with out := g.out ++ [done], current := none }

/-- All executions. -/
inductive TagForward.Reachable {κ : Type} (edit : κ → Span → Edit × κ) (k : κ) : TagForward κ → Prop
  | init (now : Time) : Reachable edit k { world := { clock := now }, conv := k }
  | step {g g' : TagForward κ} : Reachable edit k g → g.Step edit g' → Reachable edit k g'

end Verif
