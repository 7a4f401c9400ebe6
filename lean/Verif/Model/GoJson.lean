import Verif.Model.Json
import Verif.Model.JsonString

/-!
# codec/jaeger.go: decoding of a request by `encoding/json`

The package `encoding/json` of Go 1.15 as far as it is used: `Decoder.Decode` for a `jaegerObject`. It first scans the bytes of one JSON value (and does not look at the bytes after
it), and then stores the value in the target. Both are modelled from the source of the package. All errors are `none`: it makes no difference for `ParseJaeger` whether decoding
goes on after an error or stops at once.

`strconv.ParseFloat` is used for numbers in the values of tags. `floatFails` tells for which numbers it fails (those out of the range of a float64); it is any function.
-/

namespace Verif

/-! ## Scanning (scanner.go, stream.go) -/

/-- A value as it is scanned: the bytes of its literals. -/
inductive Raw
  /-- `null`, `true`, `false`, a number, or a string with its quotes -/
  | literal (item : Str)
  | array (l : List Raw)
  /-- the names with their quotes -/
  | object (ms : List (Str × Raw))

/-- `isSpace` -/
def goSpace (c : UInt8) : Bool := c = 0x20 || c = 0x09 || c = 0x0D || c = 0x0A

def skipSpace (s : Str) : Str := s.dropWhile goSpace

/-- `stateInStringEscU` and the following: a hexadecimal digit -/
def goHex (c : UInt8) : Bool := decide ((c!"0" ≤ c ∧ c ≤ c!"9") ∨ (c!"a" ≤ c ∧ c ≤ c!"f") ∨ (c!"A" ≤ c ∧ c ≤ c!"F"))

/-- `stateInString`, `stateInStringEsc`, …: the bytes up to the closing quote, and the rest. -/
def scanLit : Str → Option (Str × Str)
  | [] => none
  | c :: s =>
    if c = c!"\"" then some ([], s)
    else if c = c!"\\" then
      match s with
      | [] => none
      | e :: s =>
        if e = c!"u" then
          match s with
          | a :: b :: c :: d :: s =>
            if goHex a && goHex b && goHex c && goHex d then (scanLit s).map fun r => (c!"\\" :: c!"u" :: a :: b :: c :: d :: r.1, r.2) else none
          | _ => none
        else if e ∈ b!"bfnrt\\/\"" then (scanLit s).map fun r => (c!"\\" :: e :: r.1, r.2)
        else none
    else if c < 0x20 then none
    else (scanLit s).map fun r => (c :: r.1, r.2)

/-- The digits at the beginning, and the rest. -/
def spanDigits (s : Str) : Str × Str := (s.takeWhile fun c => decide (c!"0" ≤ c ∧ c ≤ c!"9"), s.dropWhile fun c => decide (c!"0" ≤ c ∧ c ≤ c!"9"))

/-- `stateE`, `stateESign`, `stateE0` -/
def scanExponent (s : Str) : Option (Str × Str) :=
  match s with
  | e :: s' =>
    if e = c!"e" ∨ e = c!"E" then
      let (sign, s') := match s' with
        | c :: s'' => if c = c!"+" ∨ c = c!"-" then ([c], s'') else ([], s')
        | [] => ([], s')
      let (digits, rest) := spanDigits s'
      if digits = [] then none else some (e :: (sign ++ digits), rest)
    else some ([], s)
  | [] => some ([], s)

/-- `stateDot`, `stateDot0` -/
def scanFraction (s : Str) : Option (Str × Str) :=
  match s with
  | c :: s' =>
    if c = c!"." then
      let (digits, rest) := spanDigits s'
      if digits = [] then none else some (c :: digits, rest)
    else some ([], s)
  | [] => some ([], s)

/-- `state0`, `state1`: the integer -/
def scanInteger (s : Str) : Option (Str × Str) :=
  match s with
  | c :: s' => if c = c!"0" then some ([c], s') else if c!"1" ≤ c ∧ c ≤ c!"9" then some (c :: (spanDigits s').1, (spanDigits s').2) else none
  | [] => none

/-- `stateNeg` and the following -/
def scanNumber (s : Str) : Option (Str × Str) := do
  let (minus, s) := match s with
    | c :: s' => if c = c!"-" then ([c], s') else ([], s)
    | [] => ([], s)
  let (int, s) ← scanInteger s
  let (frac, s) ← scanFraction s
  let (exp, s) ← scanExponent s
  some (minus ++ (int ++ (frac ++ exp)), s)

/-- `stateT`, `stateF`, `stateN` and the following -/
def scanWord (word s : Str) : Option (Raw × Str) := if word.isPrefixOf s then some (.literal word, s.drop word.length) else none

mutual

/-- `stateBeginValue`. `depth` is how deep values may be nested (`maxNestingDepth`). Every call consumes `fuel`; the number of bytes suffices. -/
def scanValue : (fuel depth : Nat) → Str → Option (Raw × Str)
  | 0, _, _ => none
  | fuel + 1, depth, s =>
    match s with
    | [] => none
    | c :: s' =>
      if c = c!"{" then
        if depth = 0 then none
        else
          match skipSpace s' with
          | d :: rest => if d = c!"}" then some (.object [], rest) else (scanMembers fuel (depth - 1) (d :: rest)).map fun r => (.object r.1, r.2)
          | [] => none
      else if c = c!"[" then
        if depth = 0 then none
        else
          match skipSpace s' with
          | d :: rest => if d = c!"]" then some (.array [], rest) else (scanElements fuel (depth - 1) (d :: rest)).map fun r => (.array r.1, r.2)
          | [] => none
      else if c = c!"\"" then (scanLit s').map fun r => (.literal (c!"\"" :: (r.1 ++ [c!"\""])), r.2)
      else if c = c!"t" then scanWord b!"true" s
      else if c = c!"f" then scanWord b!"false" s
      else if c = c!"n" then scanWord b!"null" s
      else (scanNumber s).map fun r => (.literal r.1, r.2)

/-- The elements of an array from the next one on, with the closing bracket (`stateEndValue`). -/
def scanElements : (fuel depth : Nat) → Str → Option (List Raw × Str)
  | 0, _, _ => none
  | fuel + 1, depth, s =>
    match scanValue fuel depth s with
    | none => none
    | some (v, s) =>
      match skipSpace s with
      | c :: rest =>
        if c = c!"]" then some ([v], rest)
        else if c = c!"," then (scanElements fuel depth (skipSpace rest)).map fun r => (v :: r.1, r.2)
        else none
      | [] => none

/-- The members of an object from the next one on, with the closing brace. -/
def scanMembers : (fuel depth : Nat) → Str → Option (List (Str × Raw) × Str)
  | 0, _, _ => none
  | fuel + 1, depth, s =>
    match s with
    | [] => none
    | q :: s =>
      if q ≠ c!"\"" then none
      else
        match scanLit s with
        | none => none
        | some (lit, s) =>
          match skipSpace s with
          | [] => none
          | colon :: s =>
            if colon ≠ c!":" then none
            else
              match scanValue fuel depth (skipSpace s) with
              | none => none
              | some (v, s) =>
                match skipSpace s with
                | c :: rest =>
                  if c = c!"}" then some ([(c!"\"" :: (lit ++ [c!"\""]), v)], rest)
                  else if c = c!"," then (scanMembers fuel depth (skipSpace rest)).map fun r => ((c!"\"" :: (lit ++ [c!"\""]), v) :: r.1, r.2)
                  else none
                | [] => none

end

/-- scanner.go `maxNestingDepth` -/
def maxNestingDepth : Nat := 10000

/-! ## Strings (decode.go `unquoteBytes`) -/

/-- `utf8.DecodeRune`: the rune at the beginning, and its size. -/
def decodeRune : Str → Nat × Nat
  | [] => (0xFFFD, 0)
  | a :: s =>
    let cont (c : UInt8) : Bool := decide (0x80 ≤ c ∧ c ≤ 0xBF)
    if a < 0x80 then (a.toNat, 1)
    else if 0xC2 ≤ a ∧ a ≤ 0xDF then
      match s with
      | b :: _ => if cont b then ((a.toNat - 0xC0) * 64 + (b.toNat - 0x80), 2) else (0xFFFD, 1)
      | _ => (0xFFFD, 1)
    else if 0xE0 ≤ a ∧ a ≤ 0xEF then
      match s with
      | b :: c :: _ =>
        if (if a = 0xE0 then decide (0xA0 ≤ b ∧ b ≤ 0xBF) else if a = 0xED then decide (0x80 ≤ b ∧ b ≤ 0x9F) else cont b) && cont c then
          (((a.toNat - 0xE0) * 64 + (b.toNat - 0x80)) * 64 + (c.toNat - 0x80), 3)
        else (0xFFFD, 1)
      | _ => (0xFFFD, 1)
    else if 0xF0 ≤ a ∧ a ≤ 0xF4 then
      match s with
      | b :: c :: d :: _ =>
        if (if a = 0xF0 then decide (0x90 ≤ b ∧ b ≤ 0xBF) else if a = 0xF4 then decide (0x80 ≤ b ∧ b ≤ 0x8F) else cont b) && cont c && cont d then
          ((((a.toNat - 0xF0) * 64 + (b.toNat - 0x80)) * 64 + (c.toNat - 0x80)) * 64 + (d.toNat - 0x80), 4)
        else (0xFFFD, 1)
      | _ => (0xFFFD, 1)
    else (0xFFFD, 1)

/-- `utf8.EncodeRune` for all runes up to 0x10FFFF. -/
def encodeRune4 (r : Nat) : Str :=
  if r < 0x10000 then encodeRune r
  else [UInt8.ofNat (0xF0 + r / 262144), UInt8.ofNat (0x80 + r / 4096 % 64), UInt8.ofNat (0x80 + r / 64 % 64), UInt8.ofNat (0x80 + r % 64)]

/-- `getu4` at the beginning of the bytes -/
def getu4 : Str → Option Nat
  | a :: b :: h1 :: h2 :: h3 :: h4 :: _ => if a = c!"\\" ∧ b = c!"u" then hexRune [h1, h2, h3, h4] else none
  | _ => none

/-- The value of the simple escapes. -/
def simpleEscape (e : UInt8) : Option UInt8 :=
  if e = c!"\"" ∨ e = c!"\\" ∨ e = c!"/" ∨ e = c!"'" then some e
  else if e = c!"b" then some 0x08
  else if e = c!"f" then some 0x0C
  else if e = c!"n" then some 0x0A
  else if e = c!"r" then some 0x0D
  else if e = c!"t" then some 0x09
  else none

/-- The loop of `unquoteBytes` over the bytes between the quotes. -/
def unquoteLoop : (fuel : Nat) → Str → Option Str
  | 0, _ => none
  | fuel + 1, s =>
    match s with
    | [] => some []
    | c :: s' =>
      if c = c!"\\" then
        match s' with
        | [] => none
        | e :: s'' =>
          if e = c!"u" then
            match getu4 s with
            | none => none
            | some rr =>
              let s := s.drop 6
              if 0xD800 ≤ rr ∧ rr < 0xE000 then
                -- `utf16.DecodeRune`
                match getu4 s with
                | some rr1 =>
                  if 0xD800 ≤ rr ∧ rr < 0xDC00 ∧ 0xDC00 ≤ rr1 ∧ rr1 < 0xE000 then
                    (unquoteLoop fuel (s.drop 6)).map (encodeRune4 ((rr - 0xD800) * 0x400 + (rr1 - 0xDC00) + 0x10000) ++ ·)
                  else (unquoteLoop fuel s).map (encodeRune4 0xFFFD ++ ·)
                | none => (unquoteLoop fuel s).map (encodeRune4 0xFFFD ++ ·)
              else (unquoteLoop fuel s).map (encodeRune4 rr ++ ·)
          else
            match simpleEscape e with
            | none => none
            | some v => (unquoteLoop fuel s'').map (v :: ·)
      else if c = c!"\"" ∨ c < 0x20 then none
      else if c < 0x80 then (unquoteLoop fuel s').map (c :: ·)
      else
        let (rr, size) := decodeRune s
        (unquoteLoop fuel (s.drop size)).map (encodeRune4 rr ++ ·)

/-- `unquoteBytes` -/
def goUnquote (item : Str) : Option Str :=
  if item.length < 2 ∨ item.head? ≠ some c!"\"" ∨ item.getLast? ≠ some c!"\"" then none
  else unquoteLoop item.length ((item.drop 1).dropLast)

/-! ## Storing (decode.go) -/

/-- A slice: the cells of its array that were written at some time, and its length. All other cells are zero. -/
structure JsonSlice (α : Type) where
  cells : List α := []
  len : Nat := 0

def JsonSlice.elems {α : Type} (s : JsonSlice α) : List α := s.cells.take s.len

/-- `null` -/
def nullItem : Str := b!"null"

/-- `literalStore` for a `string` -/
def storeString (raw : Raw) (old : Str) : Option Str :=
  match raw with
  | .literal item => if item = nullItem then some old else if item.head? = some c!"\"" then goUnquote item else none
  | _ => none

/-- `strconv.ParseUint(s, 10, 64)` -/
def parseUint (s : Str) : Option UInt64 :=
  if s ≠ [] ∧ s.all (fun c => decide (c!"0" ≤ c ∧ c ≤ c!"9")) then
    let n := s.foldl (fun n c => n * 10 + (c.toNat - 48)) 0
    if n < 2 ^ 64 then some (UInt64.ofNat n) else none
  else none

/-- `literalStore` for a `uint64` -/
def storeUint (raw : Raw) (old : UInt64) : Option UInt64 :=
  match raw with
  | .literal item => if item = nullItem then some old else parseUint item
  | _ => none

/-- `literalStore`, `array` and `object` for an `Id`, which has the method `UnmarshalJSON` (also called for `null`). That method fails for the bytes of arrays and objects. -/
def storeId (raw : Raw) (_old : Id) : Option Id :=
  match raw with
  | .literal item => idUnmarshalJSON item
  | _ => none

mutual

/-- `convertNumber` succeeds for all numbers of the value (`valueInterface`). -/
def Raw.floatsOk (floatFails : Str → Bool) : Raw → Bool
  | .literal item =>
    match item.head? with
    | some c => if c = c!"-" ∨ (c!"0" ≤ c ∧ c ≤ c!"9") then !floatFails item else true
    | none => true
  | .array l => Raw.allFloatsOk floatFails l
  | .object ms => Raw.membersFloatsOk floatFails ms

def Raw.allFloatsOk (floatFails : Str → Bool) : List Raw → Bool
  | [] => true
  | v :: l => Raw.floatsOk floatFails v && Raw.allFloatsOk floatFails l

def Raw.membersFloatsOk (floatFails : Str → Bool) : List (Str × Raw) → Bool
  | [] => true
  | (_, v) :: l => Raw.floatsOk floatFails v && Raw.membersFloatsOk floatFails l

end

/-- `literalStore`, `arrayInterface`, `objectInterface` for an `interface{}`; what is kept is whether it is a string. -/
def storeAny (floatFails : Str → Bool) (raw : Raw) (_old : JaegerValue) : Option JaegerValue :=
  match raw with
  | .literal item =>
    if item.head? = some c!"\"" then (goUnquote item).map .string
    else if raw.floatsOk floatFails then some .other else none
  | _ => if raw.floatsOk floatFails then some .other else none

/-- The loop in `array`: each value is stored in the next cell, over what is there. -/
def storeCells {α : Type} (store : Raw → α → Option α) (zero : α) : List Raw → List α → Option (List α)
  | [], cells => some cells
  | v :: l, cells => do
    let a ← store v (cells.headD zero)
    let rest ← storeCells store zero l cells.tail
    some (a :: rest)

/-- `array` and `literalStore` for a slice -/
def storeSlice {α : Type} (store : Raw → α → Option α) (zero : α) (raw : Raw) (old : JsonSlice α) : Option (JsonSlice α) :=
  match raw with
  | .literal item => if item = nullItem then some {} else none
  | .object _ => none
  | .array [] => some {}
  | .array (v :: l) => (storeCells store zero (v :: l) old.cells).map fun cells => { cells, len := (v :: l).length }

/-- The field for a name in `object`: the one with this name, or else the first one with this name up to case. -/
def findField {α : Type} (fields : List (Str × α)) (key : Str) : Option α :=
  match fields.find? (fun f => f.1 = key) with
  | some f => some f.2
  | none => (fields.find? fun f => equalFold key (f.1.map toLower)).map (·.2)

/-- `object` and `literalStore` for a struct -/
def storeStruct {α : Type} (fields : List (Str × (Raw → α → Option α))) (raw : Raw) (old : α) : Option α :=
  match raw with
  | .literal item => if item = nullItem then some old else none
  | .array _ => none
  | .object ms => ms.foldlM (fun acc m => do
      let key ← goUnquote m.1
      match findField fields key with
      | none => some acc
      | some store => store m.2 acc) old

/-- `object` and `literalStore` for a `map[string]T` -/
def storeMap {α : Type} (store : Raw → α → Option α) (zero : α) (raw : Raw) (old : Option (Std.ExtTreeMap Str α)) :
    Option (Option (Std.ExtTreeMap Str α)) :=
  match raw with
  | .literal item => if item = nullItem then some none else none
  | .array _ => none
  | .object ms => (ms.foldlM (fun (acc : Std.ExtTreeMap Str α) (m : Str × Raw) => do
      let key ← goUnquote m.1
      let a ← store m.2 zero
      some (acc.insert key a)) (old.getD ∅)).map some

/-! ## The types of codec/jaeger.go -/

/-- codec/jaeger.go:23-26 -/
def storeReference : Raw → Str × Id → Option (Str × Id) :=
  storeStruct [
    (b!"refType", fun v r => (storeString v r.1).map fun x => (x, r.2)),
    (b!"spanID", fun v r => (storeId v r.2).map fun x => (r.1, x))]

/-- codec/jaeger.go:12-15 -/
def storeTag (floatFails : Str → Bool) : Raw → Str × JaegerValue → Option (Str × JaegerValue) :=
  storeStruct [
    (b!"key", fun v r => (storeString v r.1).map fun x => (x, r.2)),
    (b!"value", fun v r => (storeAny floatFails v r.2).map fun x => (r.1, x))]

/-- codec/jaeger.go:17-33 as it is in memory -/
structure JaegerCell where
  traceId : Id := 0
  spanId : Id := 0
  operationName : Str := []
  references : JsonSlice (Str × Id) := {}
  timestamp : UInt64 := 0
  duration : UInt64 := 0
  processId : Str := []
  tags : JsonSlice (Str × JaegerValue) := {}

/-- codec/jaeger.go:17-33 -/
def storeSpan (floatFails : Str → Bool) : Raw → JaegerCell → Option JaegerCell :=
  storeStruct [
    (b!"traceID", fun v r => (storeId v r.traceId).map fun x => { r with traceId := x }),
    (b!"spanID", fun v r => (storeId v r.spanId).map fun x => { r with spanId := x }),
    (b!"operationName", fun v r => (storeString v r.operationName).map fun x => { r with operationName := x }),
    (b!"references", fun v r => (storeSlice storeReference ([], 0) v r.references).map fun x => { r with references := x }),
    (b!"startTime", fun v r => (storeUint v r.timestamp).map fun x => { r with timestamp := x }),
    (b!"duration", fun v r => (storeUint v r.duration).map fun x => { r with duration := x }),
    (b!"processID", fun v r => (storeString v r.processId).map fun x => { r with processId := x }),
    (b!"tags", fun v r => (storeSlice (storeTag floatFails) ([], .other) v r.tags).map fun x => { r with tags := x })]

/-- codec/jaeger.go:42-44; the only field is the name of the service -/
def storeProcess : Raw → Str → Option Str := storeStruct [(b!"serviceName", storeString)]

/-- codec/jaeger.go:36-39 as it is in memory -/
structure JaegerDataCell where
  spans : JsonSlice JaegerCell := {}
  processes : Option TagMap := none

/-- codec/jaeger.go:36-39 -/
def storeData (floatFails : Str → Bool) : Raw → JaegerDataCell → Option JaegerDataCell :=
  storeStruct [
    (b!"spans", fun v r => (storeSlice (storeSpan floatFails) {} v r.spans).map fun x => { r with spans := x }),
    (b!"processes", fun v r => (storeMap storeProcess [] v r.processes).map fun x => { r with processes := x })]

/-- codec/jaeger.go:35-40; the only field is the data -/
def storeObject (floatFails : Str → Bool) : Raw → JsonSlice JaegerDataCell → Option (JsonSlice JaegerDataCell) :=
  storeStruct [(b!"data", storeSlice (storeData floatFails) {})]

/-- What the rest of codec/jaeger.go sees of a decoded span. -/
def JaegerCell.toSpan (c : JaegerCell) : JaegerSpan :=
  { traceId := c.traceId, spanId := c.spanId, operationName := c.operationName, references := c.references.elems, timestamp := c.timestamp, duration := c.duration,
    processId := c.processId, tags := c.tags.elems }

/-- What the rest of codec/jaeger.go sees of the data. A nil map is like an empty one for reading. -/
def JaegerDataCell.toData (d : JaegerDataCell) : JaegerData := { spans := d.spans.elems.map JaegerCell.toSpan, processes := d.processes.getD ∅ }

/-- codec/jaeger.go:48-51: `json.NewDecoder(input).Decode(&decoded)` for the bytes that the reader delivers. -/
def goDecodeJaeger (floatFails : Str → Bool) (data : Str) : Option (List JaegerData) := do
  let (raw, _) ← scanValue (data.length + 1) maxNestingDepth (skipSpace data)
  let decoded ← storeObject floatFails raw {}
  some (decoded.elems.map JaegerDataCell.toData)

end Verif
