import Verif.Spec.Loose
import Verif.Spec.Json
import Verif.Spec.Id
import Verif.Spec.Convert

/-!
# What versions 1 and 2 accept, and what it stands for

`Begins v s rest`: the bytes `s` begin with a text of the value `v`, and then there is `rest`. This is the grammar of `Spec/Loose.lean`, but numbers are
as long as possible and something has to follow them, and the value is kept. Then, by value: which values are ids, spans and so on, and what they
do to the memory they are decoded to. Of the model only the types of decoded values are used.
-/

namespace Verif.Spec

/-- A value: strings without their escapes; numbers and words as they are written. -/
inductive Loose
  | word (t : Str)
  | number (t : Str)
  | string (v : Str)
  | array (l : List Loose)
  | object (ms : List (Str × Loose))

/-- The next byte exists, and does not belong to a number. -/
def NumberStops (s : Str) : Prop := ∃ c s', s = c :: s' ∧ c ∉ b!"-0123456789.e"

/-- The literal between the quotes, and the string. -/
def Unquotes (lit v : Str) : Prop := LooseLiteral lit ∧ unescape lit = some v

mutual

inductive Begins : Loose → Str → Str → Prop
  | word {t s : Str} : LooseWord t → Begins (.word t) (t ++ s) s
  | number {t s : Str} : LooseNumber t → NumberStops s → Begins (.number t) (t ++ s) s
  | string {lit v s : Str} : Unquotes lit v → Begins (.string v) (c!"\"" :: (lit ++ c!"\"" :: s)) s
  | array {l : List Loose} {u s : Str} : BeginsElements l u s → Begins (.array l) (c!"[" :: u) s
  | object {ms : List (Str × Loose)} {u s : Str} : BeginsMembers ms u s → Begins (.object ms) (c!"{" :: u) s

/-- Elements and the closing bracket. -/
inductive BeginsElements : List Loose → Str → Str → Prop
  | nil {w s : Str} : LooseSpace w → BeginsElements [] (w ++ c!"]" :: s) s
  | cons {w t u s : Str} {v : Loose} {l : List Loose} : LooseSpace w → Begins v t u → BeginsElements l u s → BeginsElements (v :: l) (w ++ t) s

/-- Members and the closing brace. -/
inductive BeginsMembers : List (Str × Loose) → Str → Str → Prop
  | nil {w s : Str} : LooseSpace w → BeginsMembers [] (w ++ c!"}" :: s) s
  | cons {w lit name w' t u s : Str} {v : Loose} {ms : List (Str × Loose)} : LooseSpace w → Unquotes lit name → LooseSpace w' → Begins v t u →
      BeginsMembers ms u s → BeginsMembers ((name, v) :: ms) (w ++ c!"\"" :: (lit ++ c!"\"" :: (w' ++ t))) s

end

/-- A request body: an array, and then anything. -/
def Body (data : Str) (l : List Loose) : Prop := ∃ w t rest, data = w ++ t ∧ LooseSpace w ∧ Begins (.array l) t rest

/-! ## Scalars -/

def Loose.toStr : Loose → Option Str
  | .string v => some v
  | _ => none

/-- The text of a number or a word, too. -/
def Loose.toScalar : Loose → Option Str
  | .string v => some v
  | .number t => some t
  | .word t => some t
  | _ => none

/-- Up to 16 hexadecimal digits, or a word with `n`. -/
def Loose.toId : Loose → Option Int64
  | .string v => if v.length ≤ 16 ∧ ∀ c ∈ v, IsHexDigit c then some (UInt64.ofNat (hexValue v)).toInt64 else none
  | .word t => if t.head? = some c!"n" then some 0 else none
  | _ => none

/-- Digits; the value is taken modulo 2^64. -/
def Loose.toMicros : Loose → Option UInt64
  | .number t => if ∀ c ∈ t, c!"0" ≤ c ∧ c ≤ c!"9" then some (UInt64.ofNat (decimalValue t)) else none
  | _ => none

/-! ## Objects

A member with a known name changes one field, in order; other members change nothing. -/

/-- What the members do to the memory, one after the other. -/
def Loose.members {α : Type} (f : Str → Loose → α → Option α) : Loose → α → Option α
  | .object ms, a => ms.foldlM (fun a m => f m.1 m.2 a) a
  | _, _ => none

def endpointMember (name : Str) (v : Loose) (e : Endpoint) : Option Endpoint :=
  if name = b!"serviceName" then v.toStr.map fun x => { e with serviceName := x }
  else some e

/-- Tags: all values are strings; no map for an empty object. -/
def Loose.toTags : Loose → Option (Option TagMap)
  | .object ms => (ms.mapM fun (m : Str × Loose) => m.2.toStr.map fun x => (m.1, x)).map fun pairs =>
      if pairs = [] then none else some (pairs.foldl (fun t p => t.insert p.1 p.2) ∅)
  | _ => none

def spanV2Member (name : Str) (v : Loose) (s : SpanV2) : Option SpanV2 :=
  if name = b!"id" then v.toId.map fun x => { s with id := x }
  else if name = b!"traceId" then v.toId.map fun x => { s with traceId := x }
  else if name = b!"parentId" then v.toId.map fun x => { s with parentId := x }
  else if name = b!"timestamp" then v.toMicros.map fun x => { s with timestamp := x }
  else if name = b!"duration" then v.toMicros.map fun x => { s with duration := x }
  else if name = b!"name" then v.toStr.map fun x => { s with name := x }
  else if name = b!"tags" then v.toTags.map fun x => { s with tags := x }
  else if name = b!"kind" then v.toStr.map fun x => { s with kind := x }
  else if name = b!"localEndpoint" then (v.members endpointMember s.endpoint).map fun x => { s with endpoint := x }
  else some s

/-- A span of version 2 begins empty. -/
def Loose.toSpanV2 (v : Loose) : Option SpanV2 := v.members spanV2Member {}

/-! ## Version 1

Values are decoded into memory that was used before. -/

/-- A slice in memory: the cells, also those behind the end, and the length. -/
structure Cells (α : Type) where
  cell : Nat → α
  len : Nat

/-- The cell is written, and is the last one. -/
def Cells.write {α : Type} (m : Cells α) (i : Nat) (a : α) : Cells α := { cell := fun j => if j = i then a else m.cell j, len := i + 1 }

/-- The elements. -/
def Cells.list {α : Type} (m : Cells α) : List α := (List.range m.len).map m.cell

/-- Values one after the other, from this cell on. -/
def Cells.fill {α : Type} (f : Loose → α → Option α) : Nat → List Loose → Cells α → Option (Cells α)
  | _, [], m => some m
  | i, v :: l, m => do
    let a ← f v (m.cell i)
    Cells.fill f (i + 1) l (m.write i a)

/-- An array is written to the cells from the first on; an empty array changes nothing. -/
def Loose.toCells {α : Type} (f : Loose → α → Option α) : Loose → Cells α → Option (Cells α)
  | .array l, m => m.fill f 0 l
  | _, _ => none

/-- Values one after the other, from this index on; those behind the last element are ignored. -/
def fillList {α : Type} (f : Loose → α → Option α) : Nat → List Loose → List α → Option (List α)
  | _, [], a => some a
  | i, v :: l, a =>
    match a[i]? with
    | some x => (f v x).bind fun y => fillList f (i + 1) l (a.set i y)
    | none => fillList f (i + 1) l a

/-- An array of fixed size. -/
def Loose.toList {α : Type} (f : Loose → α → Option α) : Loose → List α → Option (List α)
  | .array l, a => fillList f 0 l a
  | _, _ => none

def binaryAnnotationMember (name : Str) (v : Loose) (a : BinaryAnnotationV1) : Option BinaryAnnotationV1 :=
  if name = b!"key" then v.toStr.map fun x => { a with key := x }
  else if name = b!"value" then v.toScalar.map fun x => { a with value := x }
  else if name = b!"endpoint" then (v.members endpointMember a.endpoint).map fun x => { a with endpoint := x }
  else some a

def annotationMember (name : Str) (v : Loose) (a : AnnotationV1) : Option AnnotationV1 :=
  if name = b!"timestamp" then v.toMicros.map fun x => { a with timestamp := x }
  else if name = b!"value" then v.toStr.map fun x => { a with value := x }
  else if name = b!"endpoint" then (v.members endpointMember a.endpoint).map fun x => { a with endpoint := x }
  else some a

/-- A span of version 1 in memory. -/
structure MemV1 where
  traceId : Id := 0
  id : Id := 0
  parentId : Id := 0
  annotations : List AnnotationV1 := List.replicate 4 {}
  binaryAnnotations : Cells BinaryAnnotationV1 := { cell := fun _ => {}, len := 0 }
  name : Str := []
  timestamp : UInt64 := 0
  duration : UInt64 := 0

def spanV1Member (name : Str) (v : Loose) (s : MemV1) : Option MemV1 :=
  if name = b!"id" then v.toId.map fun x => { s with id := x }
  else if name = b!"traceId" then v.toId.map fun x => { s with traceId := x }
  else if name = b!"parentId" then v.toId.map fun x => { s with parentId := x }
  else if name = b!"timestamp" then v.toMicros.map fun x => { s with timestamp := x }
  else if name = b!"duration" then v.toMicros.map fun x => { s with duration := x }
  else if name = b!"name" then v.toStr.map fun x => { s with name := x }
  else if name = b!"binaryAnnotations" then
    (v.toCells (fun v => v.members binaryAnnotationMember) s.binaryAnnotations).map fun x => { s with binaryAnnotations := x }
  else if name = b!"annotations" then (v.toList (fun v => v.members annotationMember) s.annotations).map fun x => { s with annotations := x }
  else some s

/-- Before a span is decoded everything is cleared, except for the cells behind the last binary annotation. -/
def MemV1.clear (s : MemV1) : MemV1 :=
  { binaryAnnotations := { cell := fun i => if i < s.binaryAnnotations.len then {} else s.binaryAnnotations.cell i, len := 0 } }

def Loose.toMemV1 (v : Loose) (s : MemV1) : Option MemV1 := v.members spanV1Member s.clear

/-- The span, without the cells behind its last binary annotation. -/
def MemV1.span (s : MemV1) : SpanV1 :=
  { traceId := s.traceId, id := s.id, parentId := s.parentId, annotations := s.annotations,
    binaryAnnotations := { cells := s.binaryAnnotations.list, len := s.binaryAnnotations.len }, name := s.name, timestamp := s.timestamp, duration := s.duration }

/-! ## Bodies -/

/-- A body of version 2 with these spans. -/
def BodyV2 (data : Str) (vs : List SpanV2) : Prop := ∃ l, Body data l ∧ l.mapM Loose.toSpanV2 = some vs

/-- A body of version 1: what is in memory after it. -/
def BodyV1 (data : Str) (before after : Cells MemV1) : Prop := ∃ l, Body data l ∧ before.fill Loose.toMemV1 0 l = some after

/-- A body of version 1, whatever is in memory. -/
def IsBodyV1 (data : Str) : Prop := ∃ l, Body data l ∧ ∀ v ∈ l, v.toMemV1 {} ≠ none

end Verif.Spec
