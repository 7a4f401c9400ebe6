import Verif.Model.Json

/-!
# codec/hyperjson/bind.go, codec/json.go, json-v1.go, json-v2.go: the decoders write through unsafe pointers

In Model/Decoder.lean and Model/Json.lean a decoder for a field replaces this field of a record. The code has no such operation: a decoder gets an address (`unsafe.Pointer`), converts it to a pointer to
the type that it expects, whatever is there, and writes. A decoder for a struct adds the offset of the field to its own address, one for an array the index times the size of an element. Here the
decoders are modelled with addresses; that both agree is C163.

The memory has cells of eight bytes, which are numbered by the address of their first byte. A write of a cell spoils all cells that overlap with it. Sizes and offsets are those of platforms with 64 bits,
where all types that occur are aligned to eight bytes, so that there is no padding.

Simplifications: the bytes of a string, the content of a map and the array of a slice (which are behind a pointer, in memory of their own that the runtime has allocated) are part of the cell with the
pointer.
-/

namespace Verif

/-- Eight bytes. -/
inductive Cell
  /-- an `Id` or `uint64` -/
  | word (n : UInt64)
  /-- the pointer of a string, with the bytes to which it points -/
  | text (s : Str)
  /-- the length of a string or slice, the capacity of a slice -/
  | length (n : Nat)
  /-- the pointer of a map, which may be nil -/
  | map (m : Option TagMap)
  /-- the pointer of a slice, with the memory of its array -/
  | array (mem : Nat → Cell)
  /-- parts of several writes -/
  | spoiled

/-- The memory: the cell at every address. -/
abbrev RawMem := Nat → Cell

/-- The memory from an address on. -/
def RawMem.from (mem : RawMem) (a : Nat) : RawMem := fun b => mem (a + b)

/-- Writes eight bytes. -/
def RawMem.write (mem : RawMem) (a : Nat) (c : Cell) : RawMem := fun b => if b = a then c else if a < b + 8 ∧ b < a + 8 then .spoiled else mem b

/-- Assigns a string. -/
def RawMem.writeString (mem : RawMem) (a : Nat) (s : Str) : RawMem := (mem.write a (.text s)).write (a + 8) (.length s.length)

/-- The string at an address. -/
def RawMem.string (mem : RawMem) (a : Nat) : Str :=
  match mem a, mem (a + 8) with
  | .text s, .length n => s.take n
  | _, _ => []

/-- The memory of the array of the slice at `a` changes. -/
def RawMem.behind (mem : RawMem) (a : Nat) (array : RawMem) : RawMem := fun b => if b = a then .array array else mem b

/-- codec/hyperjson/bind.go:10 `ValueDecoder`: what is done with the memory, for the address of the target. -/
abbrev UnsafeDecoder := Nat → RawMem → Prog RawMem

namespace Unsafe

/-! ## Types -/

/-- The fields of a struct with their sizes, in order. -/
abbrev Layout := List (Str × Nat)

def Layout.size (l : Layout) : Nat := (l.map Prod.snd).sum

/-- codec/hyperjson/bind.go:226-229 `OffsetOf`. (For a name that does not occur, the code panics when the program is started; here, the offset is the size of the struct.) -/
def offsetOf : Layout → Str → Nat
  | [], _ => 0
  | (name, size) :: rest, field => if name = field then 0 else size + offsetOf rest field

/-- Sizes of `Id` (an `int64`), `uint64`, `map`, `string` and slices. -/
def word : Nat := 8
def string : Nat := 16
def slice : Nat := 24

/-- codec/json-v1.go:40-42. -/
def endpointLayout : Layout := [(b!"ServiceName", string)]

/-- codec/json-v2.go:14-29. -/
def spanV2Layout : Layout :=
  [(b!"TraceID", word), (b!"ID", word), (b!"ParentID", word), (b!"Name", string), (b!"Endpoint", endpointLayout.size), (b!"Tags", word), (b!"Kind", string), (b!"Timestamp", word), (b!"Duration", word)]

/-- codec/json-v1.go:28-32. -/
def annotationV1Layout : Layout := [(b!"Timestamp", word), (b!"Value", string), (b!"Endpoint", endpointLayout.size)]

/-- codec/json-v1.go:34-38. -/
def binaryAnnotationV1Layout : Layout := [(b!"Key", string), (b!"Value", string), (b!"Endpoint", endpointLayout.size)]

/-- codec/json-v1.go:14-26. -/
def spanV1Layout : Layout :=
  [(b!"TraceID", word), (b!"ID", word), (b!"ParentID", word), (b!"Annotations", 4 * annotationV1Layout.size), (b!"BinaryAnnotations", slice), (b!"Name", string), (b!"Timestamp", word), (b!"Duration", word)]

/-! ## Decoders of values -/

/-- codec/hyperjson/bind.go:12-31. -/
def uint64ValueDecoder : UnsafeDecoder := fun target mem =>
  readNumber mem fun tok =>
    match decimal tok with
    | none => .fail mem
    | some v => .done (mem.write target (.word v))

/-- codec/hyperjson/bind.go:33-43. -/
def stringValueDecoder : UnsafeDecoder := fun target mem => readString mem fun tok => .done (mem.writeString target tok)

/-- codec/json.go:28-38. -/
def anyValueDecoder : UnsafeDecoder := fun target mem => readLiteral mem fun tok => .done (mem.writeString target tok)

/-- codec/json-v2.go:88-112. -/
def idValueDecoder (fuel : Nat) : UnsafeDecoder := fun target mem =>
  nextType mem fun next =>
    if next = .null then (skipValue fuel).andThen (fun _ => mem.write target (.word 0)) fun _ => .done (mem.write target (.word 0))
    else readString mem fun tok =>
      match parseId tok with
      | none => .fail mem
      | some id => .done (mem.write target (.word id.toUInt64))

/-- A local variable: memory of its own. -/
def localString : RawMem := RawMem.writeString (fun _ => .spoiled) 0 []

/-- codec/hyperjson/bind.go:52-80: the loop of a map decoder. -/
def mapLoop (keyDecoder valueDecoder : UnsafeDecoder) (target : Nat) (mem : RawMem) : Nat → Option TagMap → Prog RawMem
  | 0, _ => .timeout
  | fuel + 1, result =>
    nextType mem fun next =>
      if next = .objectEnd then consume .objectEnd (mem.write target (.map result)) (.done (mem.write target (.map result)))
      else (keyDecoder 0 localString).andThen (fun _ => mem) fun key =>
        (valueDecoder 0 localString).andThen (fun _ => mem) fun value =>
          mapLoop keyDecoder valueDecoder target mem fuel (some ((result.getD ∅).insert (key.string 0) (value.string 0)))

/-- codec/hyperjson/bind.go:45-82 `MakeMapDecoder`. -/
def makeMapDecoder (fuel : Nat) (keyDecoder valueDecoder : UnsafeDecoder) : UnsafeDecoder := fun target mem =>
  consume .objectBegin mem (mapLoop keyDecoder valueDecoder target mem fuel none)

/-- `UnsafeGrow` of a slice of elements of this size, to the length `n`: if the capacity does not suffice, there is a new array of zero values (`zero` are the cells of one), into which the elements are
copied. -/
def grow (newCap : Nat → Nat → Nat) (size : Nat) (zero : RawMem) (target : Nat) (n : Nat) (mem : RawMem) : RawMem :=
  match mem target, mem (target + 8), mem (target + 16) with
  | .array array, .length len, .length cap =>
    if n ≤ cap then mem.write (target + 8) (.length n)
    else
      ((mem.write target (.array fun b => if b < len * size then array b else zero (b % size))).write (target + 8) (.length n)).write (target + 16) (.length (max n (newCap cap n)))
  | _, _, _ => fun _ => .spoiled

/-- codec/hyperjson/bind.go:91-116: the loop of a slice decoder; `UnsafeGetIndex` gives the address of the element in the array. -/
def sliceLoop (newCap : Nat → Nat → Nat) (size : Nat) (zero : RawMem) (decoder : UnsafeDecoder) (target : Nat) : Nat → Nat → RawMem → Prog RawMem
  | 0, _, _ => .timeout
  | fuel + 1, idx, mem =>
    nextType mem fun next =>
      if next = .arrayEnd then consume .arrayEnd mem (.done mem)
      else
        let mem := grow newCap size zero target (idx + 1) mem
        match mem target with
        | .array array =>
          (decoder (idx * size) array).andThen (mem.behind target) fun array => sliceLoop newCap size zero decoder target fuel (idx + 1) (mem.behind target array)
        | _ => .fail mem

/-- codec/hyperjson/bind.go:84-118 `MakeSliceDecoder`. -/
def makeSliceDecoder (newCap : Nat → Nat → Nat) (fuel : Nat) (size : Nat) (zero : RawMem) (decoder : UnsafeDecoder) : UnsafeDecoder := fun target mem =>
  consume .arrayBegin mem (sliceLoop newCap size zero decoder target fuel 0 mem)

/-- codec/hyperjson/bind.go:128-156: the loop of an array decoder. -/
def arrayLoop (skipFuel len size : Nat) (decoder : UnsafeDecoder) (target : Nat) : Nat → Nat → RawMem → Prog RawMem
  | 0, _, _ => .timeout
  | fuel + 1, idx, mem =>
    nextType mem fun next =>
      if next = .arrayEnd then consume .arrayEnd mem (.done mem)
      else if idx < len then (decoder (target + idx * size) mem).andThen id fun mem => arrayLoop skipFuel len size decoder target fuel (idx + 1) mem
      else (skipValue skipFuel).andThen (fun _ => mem) fun _ => arrayLoop skipFuel len size decoder target fuel (idx + 1) mem

/-- codec/hyperjson/bind.go:120-158 `MakeArrayDecoder`. -/
def makeArrayDecoder (fuel len size : Nat) (decoder : UnsafeDecoder) : UnsafeDecoder := fun target mem =>
  consume .arrayBegin mem (arrayLoop fuel len size decoder target fuel 0 mem)

/-- codec/hyperjson/bind.go:197-223: the loop of a struct decoder. -/
def structLoop (skipFuel : Nat) (fields : List (Str × Nat × UnsafeDecoder)) (target : Nat) : Nat → RawMem → Prog RawMem
  | 0, _ => .timeout
  | fuel + 1, mem =>
    nextType mem fun next =>
      if next = .objectEnd then consume .objectEnd mem (.done mem)
      else readString mem fun key =>
        match fields.lookup key with
        | some (offset, decoder) => (decoder (target + offset) mem).andThen id fun mem => structLoop skipFuel fields target fuel mem
        | none => (skipValue skipFuel).andThen (fun _ => mem) fun _ => structLoop skipFuel fields target fuel mem

/-- codec/hyperjson/bind.go:160-224 `Field`, `MakeStructDecoder`. -/
def makeStructDecoder (fuel : Nat) (fields : List (Str × Nat × UnsafeDecoder)) : UnsafeDecoder := fun target mem =>
  consume .objectBegin mem (structLoop fuel fields target fuel mem)

/-! ## Spans -/

section
variable (newCap : Nat → Nat → Nat) (fuel : Nat)

/-- codec/json.go:19-25. -/
def endpointValueDecoder : UnsafeDecoder := makeStructDecoder fuel [(b!"serviceName", offsetOf endpointLayout b!"ServiceName", stringValueDecoder)]

/-- codec/json-v2.go:115-161. -/
def spanV2Fields : List (Str × Nat × UnsafeDecoder) :=
  [ (b!"id", offsetOf spanV2Layout b!"ID", idValueDecoder fuel),
    (b!"traceId", offsetOf spanV2Layout b!"TraceID", idValueDecoder fuel),
    (b!"parentId", offsetOf spanV2Layout b!"ParentID", idValueDecoder fuel),
    (b!"timestamp", offsetOf spanV2Layout b!"Timestamp", uint64ValueDecoder),
    (b!"duration", offsetOf spanV2Layout b!"Duration", uint64ValueDecoder),
    (b!"name", offsetOf spanV2Layout b!"Name", stringValueDecoder),
    (b!"tags", offsetOf spanV2Layout b!"Tags", makeMapDecoder fuel stringValueDecoder stringValueDecoder),
    (b!"kind", offsetOf spanV2Layout b!"Kind", stringValueDecoder),
    (b!"localEndpoint", offsetOf spanV2Layout b!"Endpoint", endpointValueDecoder fuel) ]

/-- Assigns `spanV2{}`. -/
def clearSpanV2 (a : Nat) (mem : RawMem) : RawMem :=
  let mem := ((mem.write a (.word 0)).write (a + 8) (.word 0)).write (a + 16) (.word 0)
  let mem := ((mem.writeString (a + 24) []).writeString (a + 40) []).write (a + 56) (.map none)
  ((mem.writeString (a + 64) []).write (a + 80) (.word 0)).write (a + 88) (.word 0)

/-- codec/json-v2.go:114-168. -/
def spanV2ValueDecoder : UnsafeDecoder := fun target mem => makeStructDecoder fuel (spanV2Fields fuel) target (clearSpanV2 target mem)

/-- codec/json-v2.go:170-172. -/
def decoderSliceSpanV2 : UnsafeDecoder := makeSliceDecoder newCap fuel spanV2Layout.size (clearSpanV2 0 fun _ => .spoiled) (spanV2ValueDecoder fuel)

/-- codec/json-v1.go:179-195. -/
def binaryAnnotationV1Fields : List (Str × Nat × UnsafeDecoder) :=
  [ (b!"key", offsetOf binaryAnnotationV1Layout b!"Key", stringValueDecoder),
    (b!"value", offsetOf binaryAnnotationV1Layout b!"Value", anyValueDecoder),
    (b!"endpoint", offsetOf binaryAnnotationV1Layout b!"Endpoint", endpointValueDecoder fuel) ]

/-- codec/json-v1.go:202-218. -/
def annotationV1Fields : List (Str × Nat × UnsafeDecoder) :=
  [ (b!"timestamp", offsetOf annotationV1Layout b!"Timestamp", uint64ValueDecoder),
    (b!"value", offsetOf annotationV1Layout b!"Value", stringValueDecoder),
    (b!"endpoint", offsetOf annotationV1Layout b!"Endpoint", endpointValueDecoder fuel) ]

/-- Assigns `annotationV1{}`. -/
def clearAnnotationV1 (a : Nat) (mem : RawMem) : RawMem := ((mem.write a (.word 0)).writeString (a + 8) []).writeString (a + 24) []

/-- Assigns `binaryAnnotationV1{}`. -/
def clearBinaryAnnotationV1 (a : Nat) (mem : RawMem) : RawMem := ((mem.writeString a []).writeString (a + 16) []).writeString (a + 32) []

/-- codec/json-v1.go:143-220. -/
def spanV1Fields : List (Str × Nat × UnsafeDecoder) :=
  [ (b!"id", offsetOf spanV1Layout b!"ID", idValueDecoder fuel),
    (b!"traceId", offsetOf spanV1Layout b!"TraceID", idValueDecoder fuel),
    (b!"parentId", offsetOf spanV1Layout b!"ParentID", idValueDecoder fuel),
    (b!"timestamp", offsetOf spanV1Layout b!"Timestamp", uint64ValueDecoder),
    (b!"duration", offsetOf spanV1Layout b!"Duration", uint64ValueDecoder),
    (b!"name", offsetOf spanV1Layout b!"Name", stringValueDecoder),
    (b!"binaryAnnotations", offsetOf spanV1Layout b!"BinaryAnnotations",
      makeSliceDecoder newCap fuel binaryAnnotationV1Layout.size (clearBinaryAnnotationV1 0 fun _ => .spoiled) (makeStructDecoder fuel (binaryAnnotationV1Fields fuel))),
    (b!"annotations", offsetOf spanV1Layout b!"Annotations", makeArrayDecoder fuel 4 annotationV1Layout.size (makeStructDecoder fuel (annotationV1Fields fuel))) ]

/-- codec/json-v1.go:234-236: the loop over the elements of the slice. -/
def clearBinaryAnnotations (len : Nat) (array : RawMem) : RawMem := (List.range len).foldl (fun array idx => clearBinaryAnnotationV1 (idx * binaryAnnotationV1Layout.size) array) array

/-- codec/json-v1.go:223-238: the span is cleared. -/
def resetSpanV1 (a : Nat) (mem : RawMem) : RawMem :=
  let mem := ((mem.write a (.word 0)).write (a + 8) (.word 0)).write (a + 16) (.word 0)
  let mem := ((mem.write (a + 232) (.word 0)).write (a + 224) (.word 0)).writeString (a + 208) []
  let mem := clearAnnotationV1 (a + 144) (clearAnnotationV1 (a + 104) (clearAnnotationV1 (a + 64) (clearAnnotationV1 (a + 24) mem)))
  match mem (a + 184), mem (a + 192) with
  | .array array, .length len => (mem.behind (a + 184) (clearBinaryAnnotations len array)).write (a + 192) (.length 0)
  | _, _ => fun _ => .spoiled

/-- codec/json-v1.go:142-242. -/
def spanV1ValueDecoder : UnsafeDecoder := fun target mem => makeStructDecoder fuel (spanV1Fields newCap fuel) target (resetSpanV1 target mem)

/-- The cells of `spanV1{}`. -/
def zeroSpanV1 : RawMem :=
  let mem := ((RawMem.write (fun _ => .spoiled) 184 (.array fun _ => .spoiled)).write 192 (.length 0)).write 200 (.length 0)
  resetSpanV1 0 mem

/-- codec/json-v1.go:244-246. -/
def decoderSliceSpanV1 : UnsafeDecoder := makeSliceDecoder newCap fuel spanV1Layout.size zeroSpanV1 (spanV1ValueDecoder newCap fuel)

end

end Unsafe

end Verif
