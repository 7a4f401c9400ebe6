import Verif.Model.References
import Verif.Model.Forward

/-!
# The collector and the forwarder in one memory

`Model/Forward` has its own memory, in which every finished trace arrives in a new array. Here the forwarder works in the memory of the collector (`Model/References`): it gets the very slices that the collector
sends, and writes into their arrays, while the collector goes on. The channel between them is a list without a bound (see `Model/System` for the capacities).
-/

namespace Verif.Ref

/-- The memory is `p.heap`. The field `heap` of the forwarder is a copy of it from its last step, and is not used. -/
structure Shared (κ : Type) where
  p : PWorld
  f : Forwarder κ

/-- What the forwarder gets of a slice: the array and the length. -/
def Slice.ref (s : Slice) : SliceRef := ⟨s.arr, s.len⟩

/-- All executions, beside the history of the collector. The forwarder may be at work after each trace that is sent. -/
inductive Shared.Reachable {κ : Type} (conv : κ → Span → Option Span × κ) (caps : List Nat) (k : κ) (n : Nat) : Shared κ → Phase → World → Prop
  | start (now : Time) (h : Heap) : Reachable conv caps k n ⟨{ heap := h }, Forwarder.init k n⟩ .waiting { clock := now }
  | receive {g : Shared κ} {p' : PWorld} {w : World} (now1 now2 : Time) (s : Span) (extra : Nat) : Reachable conv caps k n g .waiting w → w.clock ≤ now1 → now1 ≤ now2 →
      g.p.receive extra now1 now2 s = some p' → Reachable conv caps k n ⟨p', g.f⟩ .waiting (w.receive now1 now2 s)
  | tick {g : Shared κ} {w : World} (i : TickInput) (extra : Id → Nat) : Reachable conv caps k n g .waiting w → i.Valid w.c → w.clock ≤ i.now1 →
      Reachable conv caps k n g (.ticking i extra (g.p.count (i.order.map (·.1))) (i.order.map (·.1))) w
  | finish {g : Shared κ} {p' : PWorld} {w : World} {i : TickInput} {extra : Id → Nat} {m : Nat} {id : Id} {rest : List Id} : Reachable conv caps k n g (.ticking i extra m (id :: rest)) w →
      g.p.finishOne extra (i.now1 - bufferTime m) (i.now2 - 5 * bufferTime m) i.nowFake id = some p' →
      Reachable conv caps k n ⟨p', { g.f with source := g.f.source ++ (p'.sent.drop g.p.sent.length).map (·.1.ref) }⟩ (.ticking i extra m rest) w
  | done {g : Shared κ} {w : World} {i : TickInput} {extra : Id → Nat} {m : Nat} : Reachable conv caps k n g (.ticking i extra m []) w → Reachable conv caps k n ⟨g.p.endTick m i, g.f⟩ .waiting (w.tick i)
  | forward {g : Shared κ} {f' : Forwarder κ} {ph : Phase} {w : World} : Reachable conv caps k n g ph w → Forwarder.Step conv caps { g.f with heap := g.p.heap } f' →
      Reachable conv caps k n ⟨{ g.p with heap := f'.heap }, f'⟩ ph w

/-- What target `i` got, as it is in memory now. -/
def Shared.delivered {κ : Type} (g : Shared κ) (i : Nat) : List (List Span) := (g.f.taken.getD i [] ++ g.f.queues.getD i []).map (SpanHeap.read g.p.heap)

end Verif.Ref
