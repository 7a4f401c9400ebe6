import Verif.Model.Span

/-!
# main.go: forwardSpansToChannels

The converter is code of the user. It is modelled by any function that may also keep a state; `none` is an error. A trace is a slice: its array and its length;
the forwarder writes into the array of the trace, and sends slices of it. So the model has a heap of arrays.
-/

namespace Verif

/-- A slice of spans, from the start of the array at this address. -/
structure SliceRef where
  addr : Nat
  len : Nat
deriving DecidableEq

/-- The arrays of all slices. -/
abbrev SpanHeap := List (List Span)

/-- The elements of a slice. -/
def SpanHeap.read (h : SpanHeap) (r : SliceRef) : List Span := (h.getD r.addr []).take r.len

/-- main.go:189-196: the loop over the trace. `idx` is the next element, `n` the length of `result`: `append` writes at `n`, since the capacity suffices. -/
def convertLoop {κ : Type} (conv : κ → Span → Option Span × κ) : (fuel idx n : Nat) → κ → List Span → Nat × κ × List Span
  | 0, _, n, k, cells => (n, k, cells)
  | fuel + 1, idx, n, k, cells =>
    let (converted, k) := conv k (cells.getD idx {})
    match converted with
    | none => convertLoop conv fuel (idx + 1) n k cells
    | some s =>
      if s.id = 0 ∨ s.trace = 0 then convertLoop conv fuel (idx + 1) n k cells
      else convertLoop conv fuel (idx + 1) (n + 1) k (cells.set n s)

/-- main.go:184-196: converts a trace in place; gives the slice `result`. -/
def convertTrace {κ : Type} (conv : κ → Span → Option Span × κ) (k : κ) (heap : SpanHeap) (trace : SliceRef) : SliceRef × κ × SpanHeap :=
  let (n, k, cells) := convertLoop conv trace.len 0 0 k (heap.getD trace.addr [])
  ({ addr := trace.addr, len := n }, k, heap.set trace.addr cells)

/-- The forwarder, its channels, and everything its targets received so far. -/
structure Forwarder (κ : Type) where
  heap : SpanHeap
  conv : κ
  /-- the traces waiting in the channel `source` -/
  source : List SliceRef
  /-- the slice being sent, and the number of targets that already got it -/
  sending : Option (SliceRef × Nat)
  /-- what waits in the channels of the targets -/
  queues : List (List SliceRef)
  /-- what the targets took out of their channels, in order; they read it at any time after that -/
  taken : List (List SliceRef)

/-- A finished trace, in a new array, arrives in the channel. -/
def Forwarder.arrive {κ : Type} (f : Forwarder κ) (cells : List Span) : Forwarder κ :=
  { f with heap := f.heap ++ [cells], source := f.source ++ [{ addr := f.heap.length, len := cells.length }] }

/-- One step of the forwarder. `caps` are the capacities of the channels of the targets. -/
inductive Forwarder.Own {κ : Type} (conv : κ → Span → Option Span × κ) (caps : List Nat) : Forwarder κ → Forwarder κ → Prop
  /-- main.go:202-204, 184-196: a trace is taken and converted -/
  | take (f : Forwarder κ) {trace : SliceRef} {rest : List SliceRef} : f.source = trace :: rest → f.sending = none →
      Own conv caps f (let (r, k, heap) := convertTrace conv f.conv f.heap trace
        { f with heap := heap, conv := k, source := rest, sending := some (r, 0) })
  /-- main.go:198-200: the slice is sent to the next target, if its channel has room -/
  | send (f : Forwarder κ) {r : SliceRef} {i : Nat} {q : List SliceRef} : f.sending = some (r, i) → f.queues[i]? = some q → q.length < caps.getD i 0 →
      Own conv caps f { f with queues := f.queues.set i (q ++ [r]), sending := some (r, i + 1) }
  /-- main.go:198: all targets got it -/
  | finish (f : Forwarder κ) {r : SliceRef} : f.sending = some (r, f.queues.length) → Own conv caps f { f with sending := none }

/-- Target `i` takes the next slice out of its channel. -/
inductive Forwarder.Receive {κ : Type} (i : Nat) (r : SliceRef) : Forwarder κ → Forwarder κ → Prop
  | mk (f : Forwarder κ) {q l : List SliceRef} : f.queues[i]? = some (r :: q) → f.taken[i]? = some l →
      Receive i r f { f with queues := f.queues.set i q, taken := f.taken.set i (l ++ [r]) }

/-- One step of the forwarder or of a target. -/
inductive Forwarder.Step {κ : Type} (conv : κ → Span → Option Span × κ) (caps : List Nat) : Forwarder κ → Forwarder κ → Prop
  | own {f f' : Forwarder κ} : f.Own conv caps f' → Step conv caps f f'
  | receive {f f' : Forwarder κ} {i : Nat} {r : SliceRef} : f.Receive i r f' → Step conv caps f f'

/-- The forwarder at the start, with `n` targets. -/
def Forwarder.init {κ : Type} (k : κ) (n : Nat) : Forwarder κ :=
  { heap := [], conv := k, source := [], sending := none, queues := List.replicate n [], taken := List.replicate n [] }

end Verif
