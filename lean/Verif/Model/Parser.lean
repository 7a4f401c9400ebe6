import Verif.Model.JsonString

/-!
# codec/hyperjson/parser.go: the streaming tokenizer

The parser works on a buffer that it refills from an `io.Reader`. Its operations are functions from a parser to an outcome. Loops take
`fuel`, a bound on the number of their iterations; an outcome `timeout` for every fuel means that the loop does not end.

Simplifications:
* The text of an error is dropped, so `wrongTypeError` (lines 371-378), which only formats one, is not modelled. (It
  calls `current`, like every caller of it did before in the same state.)
* `TypeError` (0), the value of `symbolTable` for all characters without an entry, is `JType.error`.
* The buffer given to `NewWithReader` is not nil (it comes from a pool in the only callers), so lines 416-418 are not modelled.
* `int` is `Nat`; a subtraction is only made where it does not go below zero (`Parser.available`; see the theorems for C23).
-/

namespace Verif

/-! ## The reader -/

/-- How a reader answers one call of `Read`: the bytes it gives at most, and whether it reports the end together with the last
bytes. -/
structure ReadStep where
  want : Nat
  signal : Bool

/-- An `io.Reader`: the bytes it will deliver, followed by the end of the file, or by a failure.
`script` tells how it answers the next calls (it may give fewer bytes than asked for, also none); once
the script is used up, it gives as many bytes as it can, and then reports the end.
`idle`: it answers a call with an empty slice by `0, nil`, whatever its state.
Bytes that a failing reader returns together with its failure are not counted here: line 437 throws them away. -/
structure Reader where
  data : List UInt8
  script : List ReadStep
  failing : Bool
  idle : Bool

/-- The `error` returned by `Read`. -/
inductive ReadErr
  | nil | eof | fail
deriving DecidableEq

/-- The error at the end. -/
def Reader.endErr (r : Reader) : ReadErr := if r.failing then .fail else .eof

/-- `Read` of a slice with `n` bytes: the bytes written to the slice (their number is the `count`), the error, the reader afterwards. -/
def Reader.read (r : Reader) (n : Nat) : List UInt8 × ReadErr × Reader :=
  if n = 0 ∧ r.idle then ([], .nil, r)
  else match r.script with
    | s :: script =>
      let got := r.data.take (min s.want n)
      let data := r.data.drop (min s.want n)
      let r' := { r with data, script }
      if data = [] ∧ s.signal ∧ (r.failing → got = []) then (got, r.endErr, r') else (got, .nil, r')
    | [] =>
      if r.data = [] then ([], r.endErr, r)
      else (r.data.take n, .nil, { r with data := r.data.drop n })

/-! ## Types of tokens -/

/-- codec/hyperjson/parser.go:11-23. -/
inductive JType
  | error | null | objectBegin | objectEnd | arrayBegin | arrayEnd | boolean | number | string | whitespace
deriving DecidableEq

/-- codec/hyperjson/parser.go:326-361 `symbolTable`. -/
def symbolTable (c : UInt8) : JType :=
  if c = 0x09 ∨ c = 0x0A ∨ c = 0x0B ∨ c = 0x0C ∨ c = 0x0D ∨ c = c!" " ∨ c = c!":" ∨ c = c!"," ∨ c = 0x85 ∨ c = 0xA0 then
    .whitespace
  else if c = c!"-" ∨ c = c!"0" ∨ c = c!"1" ∨ c = c!"2" ∨ c = c!"3" ∨ c = c!"4" ∨ c = c!"5" ∨ c = c!"6" ∨ c = c!"7" ∨
      c = c!"8" ∨ c = c!"9" then .number
  else if c = c!"n" then .null
  else if c = c!"t" ∨ c = c!"f" then .boolean
  else if c = c!"\"" then .string
  else if c = c!"{" then .objectBegin
  else if c = c!"}" then .objectEnd
  else if c = c!"[" then .arrayBegin
  else if c = c!"]" then .arrayEnd
  else .error

/-- codec/hyperjson/parser.go:363-365. -/
def isCharSpace (c : UInt8) : Bool := symbolTable c = .whitespace

/-- codec/hyperjson/parser.go:367-369. -/
def isCharDigit (c : UInt8) : Bool := symbolTable c = .number

/-! ## The parser -/

/-- codec/hyperjson/parser.go:25-31. -/
structure Parser where
  input : Reader
  buffer : List UInt8
  tail : Nat
  head : Nat
  eof : Bool

/-- codec/hyperjson/parser.go:33-38. -/
def Parser.newWithReader (r : Reader) (buf : List UInt8) : Parser :=
  { input := r, buffer := buf, tail := 0, head := 0, eof := false }

/-- codec/hyperjson/parser.go:40-47. (There is no reader, and none is used.) -/
def Parser.newWithBytes (buf : List UInt8) : Parser :=
  { input := { data := [], script := [], failing := false, idle := false }, buffer := buf, tail := 0, head := buf.length, eof := true }

/-- The outcome of an operation. The parser remains usable after an error. -/
inductive Run (α : Type)
  | ok (a : α) (p : Parser)
  | err (p : Parser)
  | panic
  | timeout

namespace Parser

/-- codec/hyperjson/parser.go:406-408. -/
def available (p : Parser) : Nat := p.head - p.tail

/-- codec/hyperjson/parser.go:380-382; `none`: the index is out of range. -/
def current (p : Parser) : Option UInt8 := p.buffer[p.tail]?

/-- codec/hyperjson/parser.go:411-443. A slice expression `b[i:j]` needs `i ≤ j ≤ cap(b)`. (The buffer is a whole array: its capacity is
its length.) -/
def bufferMore (p : Parser) : Run Unit :=
  if p.eof then .err p
  else
    -- lines 421-426
    let moved : Option Parser :=
      if p.tail > 0 then
        let previousCount := p.available
        if p.tail ≤ p.head ∧ p.head ≤ p.buffer.length ∧ previousCount ≤ p.buffer.length then
          let kept := (p.buffer.drop p.tail).take previousCount
          some { p with buffer := kept ++ p.buffer.drop previousCount, tail := 0, head := previousCount }
        else none
      else some p
    match moved with
    | none => .panic
    | some p =>
      if p.head > p.buffer.length then .panic
      else
        -- line 429
        let (got, e, input) := p.input.read (p.buffer.length - p.head)
        let p := { p with input, buffer := p.buffer.take p.head ++ got ++ p.buffer.drop (p.head + got.length) }
        match e with
        | .eof =>
          -- lines 430-435
          let p := { p with eof := true }
          if got.length = 0 then .err p else .ok () { p with head := p.head + got.length }
        -- lines 437-439
        | .fail => .err p
        -- line 441
        | .nil => .ok () { p with head := p.head + got.length }

/-- codec/hyperjson/parser.go:259-272. -/
def skipWhitespace : Nat → Parser → Run Unit
  | 0, _ => .timeout
  | fuel + 1, p =>
    if p.tail < p.head then
      match p.buffer[p.tail]? with
      | none => .panic
      | some c => if isCharSpace c then skipWhitespace fuel { p with tail := p.tail + 1 } else .ok () p
    else
      match p.bufferMore with
      | .ok _ p => skipWhitespace fuel p
      | r => r

/-- codec/hyperjson/parser.go:171-189: the end of a string was found after `n` bytes. -/
def finishString (p : Parser) (n : Nat) (escaped : Bool) : Run Str :=
  if p.tail + n > p.buffer.length then .panic
  else
    let value := (p.buffer.drop p.tail).take n
    -- the memory of the token is overwritten
    let over (v : List UInt8) : Parser := { p with buffer := p.buffer.take p.tail ++ v ++ p.buffer.drop (p.tail + n) }
    if escaped then
      match decodeStringInPlace value with
      | some (.done st) => .ok (st.buf.take st.n) { over st.buf with tail := p.tail + n + 1 }
      | some (.err st) => .err (over st.buf)
      | none => .timeout
      | _ => .panic
    else .ok value { p with tail := p.tail + n + 1 }

/-- codec/hyperjson/parser.go:155-196: the two nested loops. -/
def readStringLoop : Nat → Parser → (n : Nat) → (escapeNext escaped : Bool) → Run Str
  | 0, _, _, _, _ => .timeout
  | fuel + 1, p, n, escapeNext, escaped =>
    if n < p.available then
      match p.buffer[p.tail + n]? with
      | none => .panic
      | some c =>
        if escapeNext then readStringLoop fuel p (n + 1) false escaped
        else if c = c!"\\" then readStringLoop fuel p (n + 1) true true
        else if c = c!"\"" then p.finishString n escaped
        else readStringLoop fuel p (n + 1) false escaped
    else
      match p.bufferMore with
      | .ok _ p => readStringLoop fuel p n escapeNext escaped
      | .err p => .err p
      | .panic => .panic
      | .timeout => .timeout

/-- codec/hyperjson/parser.go:149-197. -/
def readString (fuel : Nat) (p : Parser) : Run Str :=
  match p.current with
  | none => .panic
  | some c =>
    if c ≠ c!"\"" then .err p
    else readStringLoop fuel { p with tail := p.tail + 1 } 0 false false

/-- codec/hyperjson/parser.go:213-234. -/
def readNumberLoop : Nat → Parser → (n : Nat) → Run Str
  | 0, _, _ => .timeout
  | fuel + 1, p, n =>
    if n < p.available then
      match p.buffer[p.tail + n]? with
      | none => .panic
      | some c =>
        if !isCharDigit c && c ≠ c!"." && c ≠ c!"e" then
          if p.tail + n > p.buffer.length then .panic
          else .ok ((p.buffer.drop p.tail).take n) { p with tail := p.tail + n }
        else readNumberLoop fuel p (n + 1)
    else
      match p.bufferMore with
      | .ok _ p => readNumberLoop fuel p n
      | .err p => .err p
      | .panic => .panic
      | .timeout => .timeout

/-- codec/hyperjson/parser.go:207-235. -/
def readNumber (fuel : Nat) (p : Parser) : Run Str :=
  match p.current with
  | none => .panic
  | some c => if !isCharDigit c then .err p else readNumberLoop fuel p 1

/-- codec/hyperjson/parser.go:388-395: makes room in the buffer. -/
def grow (p : Parser) (n : Nat) : Option Parser :=
  let missing := n - p.available
  let free := p.buffer.length - p.available
  if free < missing then
    -- `copy(p.buffer[:len(buf)], buf)`
    if p.buffer.length > p.available + n then none
    else some { p with buffer := p.buffer ++ List.replicate (p.available + n - p.buffer.length) 0 }
  else some p

/-- codec/hyperjson/parser.go:384-403. -/
def require : Nat → Parser → (n : Nat) → Run Unit
  | 0, _, _ => .timeout
  | fuel + 1, p, n =>
    if p.available < n then
      match p.grow n with
      | none => .panic
      | some p =>
        match p.bufferMore with
        | .ok _ p => require fuel p n
        | r => r
    else .ok () p

/-- codec/hyperjson/parser.go:284-296. -/
def readN (fuel : Nat) (p : Parser) (first : UInt8) (n : Nat) : Run Str :=
  match require fuel p n with
  | .ok _ p =>
    match p.current with
    | none => .panic
    | some c =>
      if c ≠ first then .err p
      else if p.tail + n > p.buffer.length then .panic
      else .ok ((p.buffer.drop p.tail).take n) { p with tail := p.tail + n }
  | .err p => .err p
  | .panic => .panic
  | .timeout => .timeout

/-- codec/hyperjson/parser.go:57-64, 74-81, 91-98, 108-115: the four `consume` methods. -/
def consume (p : Parser) (t : JType) : Run Unit :=
  match p.current with
  | none => .panic
  | some c => if symbolTable c ≠ t then .err p else .ok () { p with tail := p.tail + 1 }

end Parser

end Verif
