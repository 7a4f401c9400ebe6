import Verif.Model.Json

/-!
# How deep the calls of a decoder are nested

`skipArray` and `skipObject` (codec/hyperjson/parser_skip.go:42-90), and the decoders made by `MakeMapDecoder`, `MakeSliceDecoder`, `MakeArrayDecoder` and
`MakeStructDecoder` (codec/hyperjson/bind.go), begin by consuming an opening bracket or brace, and return right after they consumed the closing one. In between
they call each other: this is the only recursion of the parser, and nothing limits it. A call is counted from its first token to its last one; so with `n` calls
there are at least `n` frames on the stack of the goroutine, and at most a constant number of frames more for each of them (`Skip`, `skip`, `NextType`, ...).
-/

namespace Verif

/-- The calls that have begun and not ended, after the operation succeeded. -/
def Op.callsAfter (d : Nat) : Op → Nat
  | .consume .objectBegin => d + 1
  | .consume .arrayBegin => d + 1
  | .consume .objectEnd => d - 1
  | .consume .arrayEnd => d - 1
  | _ => d

/-- The largest number of calls at the same time during the run, if there are `d` at its begin. -/
def Prog.calls {σ : Type} (fuel : Nat) : Prog σ → Parser → Nat → Nat
  | .done _, _, d => d
  | .fail _, _, d => d
  | .timeout, _, d => d
  | .op o _ k, p, d =>
    match o.run fuel p with
    | .ok a p => max d ((k a).calls fuel p (o.callsAfter d))
    | _ => d

/-- The calls while a body of version 2 is parsed, see `parseJsonV2`. -/
def callsJsonV2 (newCap : Nat → Nat → Nat) (fuel : Nat) (input : Reader) (buf : List UInt8) : Nat :=
  (decoderSliceSpanV2 newCap fuel { cells := [], len := 0 }).calls fuel (Parser.newWithReader input buf) 0

/-- The calls while a body of version 1 is parsed, see `parseJsonV1`. -/
def callsJsonV1 (newCap : Nat → Nat → Nat) (fuel : Nat) (input : Reader) (buf : List UInt8) (pool : List SpanV1) : Nat :=
  (decoderSliceSpanV1 newCap fuel { cells := pool, len := 0 }).calls fuel (Parser.newWithReader input buf) 0

/-! ## The recursion of `skip` itself

The same functions as `skip` in `Model/Decoder.lean`, with the number of calls `d` of `skipArray` and `skipObject` as an argument, and the largest number of them
as memory: what the measure above counts. -/

mutual

/-- codec/hyperjson/parser_skip.go:14-40 `skip`, below `d` calls, when there were at most `m` of them so far. -/
def skipDeep : Nat → Nat → Nat → JType → Prog Nat
  | 0, _, _, _ => .timeout
  | fuel + 1, d, m, next =>
    match next with
    | .string => .op .readString m fun _ => .done m
    | .number => .op .readNumber m fun _ => .done m
    | .boolean => readBoolean m fun _ => .done m
    | .null => readNull m fun _ => .done m
    | .objectBegin => .op (.consume .objectBegin) m fun _ => skipObjectDeep fuel (d + 1) (max m (d + 1))
    | .arrayBegin => .op (.consume .arrayBegin) m fun _ => skipArrayDeep fuel (d + 1) (max m (d + 1))
    | _ => .fail m

/-- codec/hyperjson/parser_skip.go:47-62, when this is call number `d`. -/
def skipArrayDeep : Nat → Nat → Nat → Prog Nat
  | 0, _, _ => .timeout
  | fuel + 1, d, m =>
    nextType m fun next =>
      if next = .arrayEnd then .op (.consume .arrayEnd) m fun _ => .done m
      else (skipDeep fuel d m next).andThen id fun m => skipArrayDeep fuel d m

/-- codec/hyperjson/parser_skip.go:70-89, when this is call number `d`. -/
def skipObjectDeep : Nat → Nat → Nat → Prog Nat
  | 0, _, _ => .timeout
  | fuel + 1, d, m =>
    nextType m fun next =>
      if next = .objectEnd then .op (.consume .objectEnd) m fun _ => .done m
      else .op .readString m fun _ =>
        (nextType m fun next => skipDeep fuel d m next).andThen id fun m => skipObjectDeep fuel d m

end

end Verif
