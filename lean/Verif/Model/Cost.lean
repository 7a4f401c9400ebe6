import Verif.Model.Json

/-!
# How much is done to parse a request

The same loops as in `Model/Parser.lean`, counting: iterations, calls of `Read`, bytes moved by `copy`, iterations of the loop that decodes escapes (each looks at six bytes at most), and
the bytes of the tokens that are handed out (what decoders do with a token is proportional to its length: digits are added up, strings are looked up in the cache). Every operation counts at
least one. Not counted: what the reader does; the growth of slices.
-/

namespace Verif

namespace Parser

/-- codec/hyperjson/parser.go:411-443: the call, and the bytes moved to the front of the buffer. -/
def bufferMoreSteps (p : Parser) : Nat := 1 + if p.eof = false ∧ p.tail > 0 then p.available else 0

/-- codec/hyperjson/parser.go:259-272. -/
def skipWhitespaceSteps : Nat → Parser → Nat
  | 0, _ => 0
  | fuel + 1, p =>
    if p.tail < p.head then
      match p.buffer[p.tail]? with
      | none => 0
      | some c => 1 + if isCharSpace c then skipWhitespaceSteps fuel { p with tail := p.tail + 1 } else 0
    else
      p.bufferMoreSteps + match p.bufferMore with
      | .ok _ p => skipWhitespaceSteps fuel p
      | _ => 0

end Parser

/-- codec/hyperjson/string.go:11-49. -/
def unescapeSteps : Nat → Unescape → Nat
  | 0, _ => 0
  | fuel + 1, st =>
    1 + match st.step with
    | .continue st => unescapeSteps fuel st
    | _ => 0

namespace Parser

/-- codec/hyperjson/parser.go:171-189. -/
def finishStringSteps (p : Parser) (n : Nat) (escaped : Bool) : Nat :=
  n + if escaped then unescapeSteps (n + 1) { buf := (p.buffer.drop p.tail).take n, n := 0, idx := 0 } else 0

/-- codec/hyperjson/parser.go:155-196. -/
def readStringSteps : Nat → Parser → (n : Nat) → (escapeNext escaped : Bool) → Nat
  | 0, _, _, _, _ => 0
  | fuel + 1, p, n, escapeNext, escaped =>
    if n < p.available then
      match p.buffer[p.tail + n]? with
      | none => 0
      | some c =>
        1 +
          if escapeNext then readStringSteps fuel p (n + 1) false escaped
          else if c = c!"\\" then readStringSteps fuel p (n + 1) true true
          else if c = c!"\"" then p.finishStringSteps n escaped
          else readStringSteps fuel p (n + 1) false escaped
    else
      p.bufferMoreSteps + match p.bufferMore with
      | .ok _ p => readStringSteps fuel p n escapeNext escaped
      | _ => 0

/-- codec/hyperjson/parser.go:213-234. -/
def readNumberSteps : Nat → Parser → (n : Nat) → Nat
  | 0, _, _ => 0
  | fuel + 1, p, n =>
    if n < p.available then
      match p.buffer[p.tail + n]? with
      | none => 0
      | some c => 1 + if !isCharDigit c && c ≠ c!"." && c ≠ c!"e" then n else readNumberSteps fuel p (n + 1)
    else
      p.bufferMoreSteps + match p.bufferMore with
      | .ok _ p => readNumberSteps fuel p n
      | _ => 0

/-- codec/hyperjson/parser.go:388-395: the bytes copied to a new buffer. -/
def growSteps (p : Parser) (n : Nat) : Nat := if p.buffer.length - p.available < n - p.available then p.buffer.length else 0

/-- codec/hyperjson/parser.go:384-403. -/
def requireSteps : Nat → Parser → (n : Nat) → Nat
  | 0, _, _ => 0
  | fuel + 1, p, n =>
    if p.available < n then
      p.growSteps n + match p.grow n with
      | none => 0
      | some p =>
        p.bufferMoreSteps + match p.bufferMore with
        | .ok _ p => requireSteps fuel p n
        | _ => 0
    else 0

end Parser

/-- What an operation does on a parser. -/
def Op.steps (fuel : Nat) (p : Parser) : Op → Nat
  | .skipWhitespace => 1 + Parser.skipWhitespaceSteps fuel p
  | .current => 1
  | .consume _ => 1
  | .readString => 1 + if p.current = some c!"\"" then Parser.readStringSteps fuel { p with tail := p.tail + 1 } 0 false false else 0
  | .readNumber => 1 + if p.current.any isCharDigit then Parser.readNumberSteps fuel p 1 else 0
  | .readWord w => 1 + Parser.requireSteps fuel p w.length + w.length

/-- What a decoder does. -/
def Prog.steps {σ : Type} (fuel : Nat) : Prog σ → Parser → Nat
  | .done _, _ => 0
  | .fail _, _ => 0
  | .timeout, _ => 0
  | .op o _ k, p =>
    o.steps fuel p + match o.run fuel p with
    | .ok a p => (k a).steps fuel p
    | _ => 0

/-- What is done to parse a body of version 2, see `parseJsonV2`. -/
def stepsJsonV2 (newCap : Nat → Nat → Nat) (fuel : Nat) (input : Reader) (buf : List UInt8) : Nat :=
  (decoderSliceSpanV2 newCap fuel { cells := [], len := 0 }).steps fuel (Parser.newWithReader input buf)

/-- What is done to parse a body of version 1, see `parseJsonV1`. -/
def stepsJsonV1 (newCap : Nat → Nat → Nat) (fuel : Nat) (input : Reader) (buf : List UInt8) (pool : List SpanV1) : Nat :=
  (decoderSliceSpanV1 newCap fuel { cells := pool, len := 0 }).steps fuel (Parser.newWithReader input buf)

end Verif
