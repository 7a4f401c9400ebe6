import Verif.Model.Parser
import Verif.Model.Id

/-!
# codec/hyperjson/bind.go, parser_skip.go, parser_array.go, parser_object.go, codec/json.go: decoders

A decoder writes to a target in memory while it calls operations of the parser, and stops at the first error. It is modelled as a
program: a tree of parser operations, each with the memory `m` that the caller finds if this operation fails. Programs are run by
`Prog.run` on a parser.

The string that a decoder stores is `cache.StringForByteSliceCopy(tok.Value)`: an equal string, see C17.
-/

namespace Verif

/-- The four kinds of token with one character. -/
inductive Punct
  | objectBegin | objectEnd | arrayBegin | arrayEnd
deriving DecidableEq

def Punct.type : Punct → JType
  | .objectBegin => .objectBegin
  | .objectEnd => .objectEnd
  | .arrayBegin => .arrayBegin
  | .arrayEnd => .arrayEnd

/-- The arguments of `readN` at codec/hyperjson/parser.go:306-308, 318-324. -/
inductive Word
  | null | true | false
deriving DecidableEq

def Word.first : Word → UInt8
  | .null => c!"n"
  | .true => c!"t"
  | .false => c!"f"

def Word.length : Word → Nat
  | .null => 4
  | .true => 4
  | .false => 5

/-- The operations of a parser used by decoders. -/
inductive Op
  | skipWhitespace
  | current
  | consume (t : Punct)
  | readString
  | readNumber
  | readWord (w : Word)

/-- What the operation returns to the decoder. -/
@[reducible] def Op.Res : Op → Type
  | .skipWhitespace => Unit
  | .current => UInt8
  | .consume _ => Unit
  | .readString => Str
  | .readNumber => Str
  | .readWord _ => Str

/-- The operation on a parser. -/
def Op.run (fuel : Nat) (p : Parser) : (o : Op) → Run o.Res
  | .skipWhitespace => Parser.skipWhitespace fuel p
  | .current => match p.current with
    | none => .panic
    | some c => .ok c p
  | .consume t => p.consume t.type
  | .readString => Parser.readString fuel p
  | .readNumber => Parser.readNumber fuel p
  | .readWord w => Parser.readN fuel p w.first w.length

/-- A decoder applied to its target. -/
inductive Prog (σ : Type)
  /-- returns nil, with this memory -/
  | done (m : σ)
  /-- returns an error, with this memory -/
  | fail (m : σ)
  /-- the fuel of a loop of the decoder is used up -/
  | timeout
  /-- calls an operation; if it fails, returns its error, with this memory -/
  | op (o : Op) (m : σ) (k : o.Res → Prog σ)

/-- The outcome of a decoder. -/
inductive Decoded (σ : Type)
  | ok (m : σ) (p : Parser)
  | err (m : σ) (p : Parser)
  | panic
  | timeout

/-- Runs a decoder. -/
def Prog.run {σ : Type} (fuel : Nat) : Prog σ → Parser → Decoded σ
  | .done m, p => .ok m p
  | .fail m, p => .err m p
  | .timeout, _ => .timeout
  | .op o m k, p =>
    match o.run fuel p with
    | .ok a p => (k a).run fuel p
    | .err p => .err m p
    | .panic => .panic
    | .timeout => .timeout

/-- A decoder for a part of the target (or a local variable), and then the rest; `f` gives the memory in case of an error. -/
def Prog.andThen {τ σ : Type} (f : τ → σ) (k : τ → Prog σ) : Prog τ → Prog σ
  | .done m => k m
  | .fail m => .fail (f m)
  | .timeout => .timeout
  | .op o m k' => .op o (f m) fun a => (k' a).andThen f k

/-- codec/hyperjson/bind.go:10 `ValueDecoder`. -/
abbrev ValueDecoder (σ : Type) := σ → Prog σ

/-- A decoder for a field of a struct. -/
def ValueDecoder.field {τ σ : Type} (get : σ → τ) (set : τ → σ → σ) (d : ValueDecoder τ) : ValueDecoder σ :=
  fun m => (d (get m)).andThen (set · m) (fun v => .done (set v m))

section
variable {σ : Type}

/-! ## Public operations of the parser -/

/-- codec/hyperjson/parser.go:237-253 `NextType`. -/
def nextType (m : σ) (k : JType → Prog σ) : Prog σ :=
  .op .skipWhitespace m fun _ => .op .current m fun (c : UInt8) =>
    if symbolTable c = .error then .fail m else k (symbolTable c)

/-- codec/hyperjson/parser.go:49-115: the four `Consume` methods. -/
def consume (t : Punct) (m : σ) (k : Prog σ) : Prog σ :=
  .op .skipWhitespace m fun _ => .op (.consume t) m fun _ => k

/-- codec/hyperjson/parser.go:141-147 `ReadString`. -/
def readString (m : σ) (k : Str → Prog σ) : Prog σ :=
  .op .skipWhitespace m fun _ => .op .readString m k

/-- codec/hyperjson/parser.go:199-205 `ReadNumber`. -/
def readNumber (m : σ) (k : Str → Prog σ) : Prog σ :=
  .op .skipWhitespace m fun _ => .op .readNumber m k

/-- codec/hyperjson/parser.go:318-324 `readBoolean`. -/
def readBoolean (m : σ) (k : Str → Prog σ) : Prog σ :=
  .op .current m fun (c : UInt8) =>
    if c = c!"t" then .op (.readWord .true) m k else .op (.readWord .false) m k

/-- codec/hyperjson/parser.go:306-308 `readNull`. -/
def readNull (m : σ) (k : Str → Prog σ) : Prog σ := .op (.readWord .null) m k

/-- codec/hyperjson/parser.go:117-139 `ReadLiteral`. -/
def readLiteral (m : σ) (k : Str → Prog σ) : Prog σ :=
  nextType m fun next =>
    match next with
    | .string => .op .readString m k
    | .number => .op .readNumber m k
    | .boolean => readBoolean m k
    | .null => readNull m k
    | _ => .fail m

end

/-! ## Skip -/

mutual

/-- codec/hyperjson/parser_skip.go:14-40 `skip`. -/
def skip : Nat → JType → Prog Unit
  | 0, _ => .timeout
  | fuel + 1, next =>
    match next with
    | .string => .op .readString () fun _ => .done ()
    | .number => .op .readNumber () fun _ => .done ()
    | .boolean => readBoolean () fun _ => .done ()
    | .null => readNull () fun _ => .done ()
    | .objectBegin => .op (.consume .objectBegin) () fun _ => skipObjectLoop fuel
    | .arrayBegin => .op (.consume .arrayBegin) () fun _ => skipArrayLoop fuel
    | _ => .fail ()

/-- codec/hyperjson/parser_skip.go:47-62: the loop of `skipArray`. -/
def skipArrayLoop : Nat → Prog Unit
  | 0 => .timeout
  | fuel + 1 =>
    nextType () fun next =>
      if next = .arrayEnd then .op (.consume .arrayEnd) () fun _ => .done ()
      else (skip fuel next).andThen id fun _ => skipArrayLoop fuel

/-- codec/hyperjson/parser_skip.go:70-89: the loop of `skipObject`. -/
def skipObjectLoop : Nat → Prog Unit
  | 0 => .timeout
  | fuel + 1 =>
    nextType () fun next =>
      if next = .objectEnd then .op (.consume .objectEnd) () fun _ => .done ()
      else .op .readString () fun _ =>
        (nextType () fun next => skip fuel next).andThen id fun _ => skipObjectLoop fuel

end

/-- codec/hyperjson/parser_skip.go:5-12 `Skip`. -/
def skipValue (fuel : Nat) : Prog Unit := nextType () fun next => skip fuel next

/-! ## Reading arrays and objects with a consumer

No part of the program uses these two methods. -/

/-- codec/hyperjson/parser_array.go:10-25: the loop of `ReadArray`. -/
def readArrayLoop {σ : Type} (consumer : σ → Prog σ) : Nat → σ → Prog σ
  | 0, _ => .timeout
  | fuel + 1, m =>
    nextType m fun next =>
      if next = .arrayEnd then .op (.consume .arrayEnd) m fun _ => .done m
      else (consumer m).andThen id fun m => readArrayLoop consumer fuel m

/-- codec/hyperjson/parser_array.go:5-26 `ReadArray`. -/
def readArray {σ : Type} (fuel : Nat) (consumer : σ → Prog σ) (m : σ) : Prog σ := consume .arrayBegin m (readArrayLoop consumer fuel m)

/-- codec/hyperjson/parser_object.go:11-32: the loop of `ReadObject`. -/
def readObjectLoop {σ : Type} (consumer : Str → σ → Prog σ) : Nat → σ → Prog σ
  | 0, _ => .timeout
  | fuel + 1, m =>
    nextType m fun next =>
      if next ≠ .string then .op (.consume .objectEnd) m fun _ => .done m
      else .op .readString m fun key => (consumer key m).andThen id fun m => readObjectLoop consumer fuel m

/-- codec/hyperjson/parser_object.go:6-33 `ReadObject`. -/
def readObject {σ : Type} (fuel : Nat) (consumer : Str → σ → Prog σ) (m : σ) : Prog σ :=
  consume .objectBegin m (readObjectLoop consumer fuel m)

/-! ## Decoders of values -/

/-- codec/hyperjson/bind.go:18-25: the digits of an unsigned number (arithmetic wraps around). -/
def decimal (digits : Str) : Option UInt64 :=
  digits.foldl (fun r c => r.bind fun r =>
    if c < c!"0" ∨ c > c!"9" then none else some (r * 10 + (c - c!"0").toUInt64)) (some 0)

/-- codec/hyperjson/bind.go:12-31. -/
def uint64ValueDecoder : ValueDecoder UInt64 := fun m =>
  readNumber m fun tok =>
    match decimal tok with
    | none => .fail m
    | some v => .done v

/-- codec/hyperjson/bind.go:33-43. -/
def stringValueDecoder : ValueDecoder Str := fun m => readString m fun tok => .done tok

/-- codec/json.go:28-38. -/
def anyValueDecoder : ValueDecoder Str := fun m => readLiteral m fun tok => .done tok

/-- codec/json-v2.go:88-112. -/
def idValueDecoder (fuel : Nat) : ValueDecoder Id := fun m =>
  nextType m fun next =>
    if next = .null then (skipValue fuel).andThen (fun _ => 0) fun _ => .done 0
    else readString m fun tok =>
      match parseId tok with
      | none => .fail m
      | some id => .done id

/-- codec/hyperjson/bind.go:52-80: the loop of a map decoder. -/
def mapLoop (keyDecoder valueDecoder : ValueDecoder Str) (m : Option TagMap) : Nat → Option TagMap → Prog (Option TagMap)
  | 0, _ => .timeout
  | fuel + 1, result =>
    nextType m fun next =>
      -- the target is assigned before the end is consumed
      if next = .objectEnd then consume .objectEnd result (.done result)
      else (keyDecoder []).andThen (fun _ => m) fun key =>
        (valueDecoder []).andThen (fun _ => m) fun value =>
          mapLoop keyDecoder valueDecoder m fuel (some ((result.getD ∅).insert key value))

/-- codec/hyperjson/bind.go:45-82 `MakeMapDecoder`. -/
def makeMapDecoder (fuel : Nat) (keyDecoder valueDecoder : ValueDecoder Str) : ValueDecoder (Option TagMap) := fun m =>
  consume .objectBegin m (mapLoop keyDecoder valueDecoder m fuel none)

/-- A Go slice over an array of its own: the elements of the array up to the capacity, and the length. -/
structure GoSlice (α : Type) where
  cells : List α
  len : Nat

namespace GoSlice
variable {α : Type}

/-- The elements of the slice. -/
def elems (s : GoSlice α) : List α := s.cells.take s.len

/-- `reflect2`'s `UnsafeGrow` (which can also make the slice shorter): within the capacity only the length changes, the
elements in the array are kept; otherwise a new array with zero values, into which the elements of the slice are copied.
`newCap` is the capacity that `reflect2` chooses (from the old capacity and the new length). -/
def grow (newCap : Nat → Nat → Nat) (zero : α) (s : GoSlice α) (n : Nat) : GoSlice α :=
  if n ≤ s.cells.length then { s with len := n }
  else { cells := s.elems ++ List.replicate (max n (newCap s.cells.length n) - s.elems.length) zero, len := n }

/-- Assigns to an element. -/
def set (s : GoSlice α) (i : Nat) (a : α) : GoSlice α := { s with cells := s.cells.set i a }

end GoSlice

/-- codec/hyperjson/bind.go:91-116: the loop of a slice decoder. (The element exists: the slice was just grown.) -/
def sliceLoop {α : Type} (newCap : Nat → Nat → Nat) (zero : α) (decoder : ValueDecoder α) : Nat → Nat → GoSlice α → Prog (GoSlice α)
  | 0, _, _ => .timeout
  | fuel + 1, idx, s =>
    nextType s fun next =>
      if next = .arrayEnd then consume .arrayEnd s (.done s)
      else
        let s := s.grow newCap zero (idx + 1)
        (decoder (s.cells.getD idx zero)).andThen (s.set idx) fun el =>
          sliceLoop newCap zero decoder fuel (idx + 1) (s.set idx el)

/-- codec/hyperjson/bind.go:84-118 `MakeSliceDecoder`. -/
def makeSliceDecoder {α : Type} (newCap : Nat → Nat → Nat) (fuel : Nat) (zero : α) (decoder : ValueDecoder α) :
    ValueDecoder (GoSlice α) := fun s =>
  consume .arrayBegin s (sliceLoop newCap zero decoder fuel 0 s)

/-- codec/hyperjson/bind.go:128-156: the loop of an array decoder. The array is a list, its length is that of the list. -/
def arrayLoop {α : Type} (skipFuel : Nat) (zero : α) (decoder : ValueDecoder α) : Nat → Nat → List α → Prog (List α)
  | 0, _, _ => .timeout
  | fuel + 1, idx, a =>
    nextType a fun next =>
      if next = .arrayEnd then consume .arrayEnd a (.done a)
      else if idx < a.length then
        (decoder (a.getD idx zero)).andThen (a.set idx ·) fun el =>
          arrayLoop skipFuel zero decoder fuel (idx + 1) (a.set idx el)
      else (skipValue skipFuel).andThen (fun _ => a) fun _ => arrayLoop skipFuel zero decoder fuel (idx + 1) a

/-- codec/hyperjson/bind.go:120-158 `MakeArrayDecoder`. -/
def makeArrayDecoder {α : Type} (fuel : Nat) (zero : α) (decoder : ValueDecoder α) : ValueDecoder (List α) := fun a =>
  consume .arrayBegin a (arrayLoop fuel zero decoder fuel 0 a)

/-- codec/hyperjson/bind.go:197-223: the loop of a struct decoder. -/
def structLoop {σ : Type} (skipFuel : Nat) (fields : List (Str × ValueDecoder σ)) : Nat → σ → Prog σ
  | 0, _ => .timeout
  | fuel + 1, m =>
    nextType m fun next =>
      if next = .objectEnd then consume .objectEnd m (.done m)
      else readString m fun key =>
        match fields.lookup key with
        | some decoder => (decoder m).andThen id fun m => structLoop skipFuel fields fuel m
        | none => (skipValue skipFuel).andThen (fun _ => m) fun _ => structLoop skipFuel fields fuel m

/-- codec/hyperjson/bind.go:166-224 `MakeStructDecoder` (the names of the fields are distinct). -/
def makeStructDecoder {σ : Type} (fuel : Nat) (fields : List (Str × ValueDecoder σ)) : ValueDecoder σ := fun m =>
  consume .objectBegin m (structLoop fuel fields fuel m)

end Verif
