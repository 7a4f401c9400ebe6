import Verif.Model.Memory
import Verif.Model.Binary

/-!
# balance/encoder.go, balance/sender.go, balance/receiver.go
-/

namespace Verif

/-- `binary.LittleEndian.PutUint64`: the eight bytes written. -/
def littleEndian (v : UInt64) : List UInt8 :=
  [v.toUInt8, (v >>> 8).toUInt8, (v >>> 16).toUInt8, (v >>> 24).toUInt8,
   (v >>> 32).toUInt8, (v >>> 40).toUInt8, (v >>> 48).toUInt8, (v >>> 56).toUInt8]

/-! ## `bytes.Buffer` -/

/-- The calls on a `*bytes.Buffer` that `BinaryEncode` makes: `Grow`, and `WriteByte`/`WriteString`. -/
inductive BufOp
  | grow (n : Nat)
  | write (bs : List UInt8)

/-- codec/binary.go:174-201 `writeLong` and `encodeInt`: `Grow(10)`, then byte by byte. -/
def writeLongOps (r : Int64) : List BufOp := .grow 10 :: (writeLong r).map fun b => .write [b]

/-- codec/binary.go:275-283 `writeString`. -/
def writeStringOps (s : Str) : List BufOp := writeLongOps (Int64.ofNat s.length) ++ [.write s]

/-- codec/binary.go:203-219 `writeMapString`. -/
def writeMapStringOps (ord : List (Str × Str)) : List BufOp :=
  writeLongOps (Int64.ofNat ord.length) ++
    if ord.length = 0 then []
    else ord.flatMap (fun e => writeStringOps e.1 ++ writeStringOps e.2) ++ writeLongOps 0

/-- codec/binary.go:221-273 `BinaryEncode`. -/
def binaryEncodeOps (r : Span) (ord : List (Str × Str)) : List BufOp :=
  writeLongOps r.id ++ writeLongOps r.trace ++ writeLongOps r.parent ++
  writeStringOps r.name ++ writeStringOps r.service ++
  writeLongOps r.timestamp ++ writeLongOps r.duration ++
  writeLongOps r.timings.CS ++ writeLongOps r.timings.CR ++ writeLongOps r.timings.SS ++ writeLongOps r.timings.SR ++
  writeMapStringOps ord

/-- `(*bytes.Buffer).grow(n)` of the standard library, for a buffer that is only written to and was
created from a slice that is not nil: room for `n` more bytes, within the capacity or in a new block of
`2*cap + n` bytes to which the contents are copied. (Sliding down needs read bytes; the size of
the new block is that of Go 1.15.) -/
def bufGrow (m : Mem UInt8) (b : Slice) (n : Nat) : Mem UInt8 × Slice :=
  if n ≤ b.cap - b.len then (m, b)
  else
    let a := m.alloc 0 (2 * b.cap + n)
    (a.1.write a.2.block 0 (m.read b), { a.2 with len := b.len })

/-- One call on the buffer: `Grow(n)`, or a write, which grows and copies to the end. -/
def bufStep (st : Mem UInt8 × Slice) : BufOp → Mem UInt8 × Slice
  | .grow n => bufGrow st.1 st.2 n
  | .write bs =>
    let g := bufGrow st.1 st.2 bs.length
    (g.1.write g.2.block (g.2.off + g.2.len) bs, { g.2 with len := g.2.len + bs.length })

/-! ## The encoder -/

/-- balance/encoder.go:28-31 `encoder`; the zero value has nil slices. -/
structure Encoder where
  buf : Slice := {}
  slices : Slice := {}

/-- The memory an encoder works with: bytes, and slice headers (the elements of `[][]byte`). -/
structure Heap where
  bytes : Mem UInt8 := { data := fun _ _ => 0 }
  headers : Mem Slice := { data := fun _ _ => {} }

/-- balance/encoder.go:72-76: the message: two pointers to slice headers. (The topic is left out.) -/
structure Message where
  key : Addr
  value : Addr

/-- balance/encoder.go:81-83 `ptrSliceEncoder.Encode`: the bytes a pointer to a slice header stands for. -/
def Heap.deref (h : Heap) (p : Addr) : List UInt8 := h.bytes.read (h.headers.data p.block p.index)

/-- balance/encoder.go:33 `expectedMaxSpanSize`. -/
def expectedMaxSpanSize : Nat := 512

/-- `s[n:]`; the callers check `n ≤ len(s)`. -/
def Slice.from (s : Slice) (n : Nat) : Slice := { block := s.block, off := s.off + n, len := s.len - n, cap := s.cap - n }

/-- balance/encoder.go:35-77 `Encode`; `none` is a panic (index or slice bounds out of range). `ord` is
the iteration order over the tags. The histogram (lines 65-68) is in `Model/Meters.lean`. -/
def encode (h : Heap) (enc : Encoder) (span : Span) (ord : List (Str × Str)) : Option (Heap × Encoder × Message) :=
  -- lines 37-39
  let (bytes, buf) :=
    if enc.buf.len < 8 + expectedMaxSpanSize then h.bytes.alloc 0 (32 * 1024) else (h.bytes, enc.buf)
  -- lines 42-44
  let (headers, slices) :=
    if enc.slices.len < 2 then h.headers.alloc {} 1024 else (h.headers, enc.slices)
  -- lines 48-50
  if slices.len < 2 then none else
  let keySlice : Addr := ⟨slices.block, slices.off⟩
  let valueSlice : Addr := ⟨slices.block, slices.off + 1⟩
  let slices := slices.from 2
  -- lines 53-54
  if buf.len < 8 then none else
  let key : Slice := { buf with len := 8 }
  let headers := headers.write keySlice.block keySlice.index [key]
  let buf := buf.from 8
  let bytes := bytes.write key.block key.off (littleEndian span.trace.toUInt64)
  -- lines 57-58
  if buf.cap < expectedMaxSpanSize then none else
  let (bytes, b) := (binaryEncodeOps span ord).foldl bufStep (bytes, { block := buf.block, off := buf.off, len := 0, cap := expectedMaxSpanSize })
  -- line 61
  if b.len = 0 ∨ buf.len = 0 then none else
  let same := b.block = buf.block ∧ b.off = buf.off
  -- line 62
  if same ∧ buf.len < b.len then none else
  let buf := if same then buf.from b.len else buf
  -- line 70
  let headers := headers.write valueSlice.block valueSlice.index [b]
  some ({ bytes, headers }, { buf, slices }, { key := keySlice, value := valueSlice })

/-- The pool of encoders and all messages made so far (with the span and the tag order they were made
of). -/
structure Pool where
  heap : Heap := {}
  encoders : List Encoder := []
  sent : List (Span × List (Str × Str) × Message) := []

/-- balance/encoder.go:21-26 `makeProducerMessage`: the pool hands out some encoder that is not in use, or a
new one, exclusively, so that calls do not overlap for one encoder. Calls with different encoders write to
different memory; the model executes them one after the other. An encoder the pool has dropped is one that
is not picked again. -/
inductive Pool.Step : Pool → Pool → Prop
  | new (p : Pool) : Pool.Step p { p with encoders := p.encoders ++ [{}] }
  | encode {p : Pool} {j : Nat} {enc enc' : Encoder} {span : Span} {ord : List (Str × Str)} {h : Heap} {m : Message} :
      p.encoders[j]? = some enc → encode p.heap enc span ord = some (h, enc', m) →
      Pool.Step p { heap := h, encoders := p.encoders.set j enc', sent := p.sent ++ [(span, ord, m)] }

/-- Every history of the pool. -/
inductive Pool.Reachable : Pool → Prop
  | init : Pool.Reachable {}
  | step {p q : Pool} : Pool.Reachable p → Pool.Step p q → Pool.Reachable q

/-! ## The consumer -/

/-- What a session does that can be observed: calling the callback, marking a message (by its offset). -/
inductive ConsumerEvent
  | delivered (offset : Nat) (span : Span)
  | marked (offset : Nat)

/-- balance/receiver.go:47-50 `decodeKafkaMessage`. -/
def decodeKafkaMessage (value : List UInt8) : Option Span := (binaryDecode value).map Prod.fst

/-- balance/receiver.go:75-95 `ConsumeClaim`: what happens with the messages of a partition, starting with
the given offset. (The offset of a delivered span is added for the statements.) -/
def consumeClaim : Nat → List (List UInt8) → List ConsumerEvent
  | _, [] => []
  | offset, value :: rest =>
    match decodeKafkaMessage value with
    | none => consumeClaim (offset + 1) rest
    | some span => .delivered offset span :: .marked offset :: consumeClaim (offset + 1) rest

end Verif
