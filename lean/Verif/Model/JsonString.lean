import Verif.Model.Go

/-!
# codec/hyperjson/string.go: decoding of escapes in place
-/

namespace Verif

/-- `utf8.EncodeRune` of the standard library, for runes below 65536: the bytes written. -/
def encodeRune (r : Nat) : List UInt8 :=
  if r < 0x80 then [UInt8.ofNat r]
  else if r < 0x800 then [UInt8.ofNat (0xC0 + r / 64), UInt8.ofNat (0x80 + r % 64)]
  else if 0xD800 ≤ r ∧ r ≤ 0xDFFF then [0xEF, 0xBF, 0xBD]
  else [UInt8.ofNat (0xE0 + r / 4096), UInt8.ofNat (0x80 + r / 64 % 64), UInt8.ofNat (0x80 + r % 64)]

/-- codec/hyperjson/string.go:57-66: the value of a hexadecimal digit. -/
def hexDigit? (c : UInt8) : Option Nat :=
  if c!"0" ≤ c ∧ c ≤ c!"9" then some (c - c!"0").toNat
  else if c!"a" ≤ c ∧ c ≤ c!"f" then some (c - c!"a" + 10).toNat
  else if c!"A" ≤ c ∧ c ≤ c!"F" then some (c - c!"A" + 10).toNat
  else none

/-- codec/hyperjson/string.go:55-69: the rune given by four hexadecimal digits. -/
def hexRune (cs : List UInt8) : Option Nat :=
  cs.foldl (fun r c => r.bind fun r => (hexDigit? c).map fun d => r * 16 + d) (some 0)

/-- The state of the loop: the memory of the token, the length of `decoded`, which starts at the same place, and the
position. -/
structure Unescape where
  buf : List UInt8
  n : Nat
  idx : Nat
deriving DecidableEq

/-- What an iteration of the loop leads to. -/
inductive UnescapeResult
  | continue (st : Unescape)
  | done (st : Unescape)
  | err (st : Unescape)
  /-- an index or a slice bound out of range -/
  | panic
  /-- `append` exceeds the capacity: `decoded` moves to other memory -/
  | moved
deriving DecidableEq

/-- `append(decoded, ch)`: within the capacity (that of the token) it writes in place. -/
def Unescape.append (st : Unescape) (c : UInt8) (idx : Nat) : UnescapeResult :=
  if st.n < st.buf.length then .continue { buf := st.buf.set st.n c, n := st.n + 1, idx }
  else .moved

/-- Writes bytes to consecutive positions. -/
def writeAt (buf : List UInt8) (pos : Nat) : List UInt8 → List UInt8
  | [] => buf
  | c :: cs => writeAt (buf.set pos c) (pos + 1) cs

/-- codec/hyperjson/string.go:11-49: one iteration of the loop in `decodeStringInPlace`, with `decodeUnicodeChar`
(lines 54-74). -/
def Unescape.step (st : Unescape) : UnescapeResult :=
  -- lines 11-12
  match st.buf[st.idx]? with
  | none => .done st
  | some ch =>
    -- lines 13-16
    if ch ≠ c!"\\" then st.append ch (st.idx + 1)
    -- lines 18-20
    else if st.idx + 1 ≥ st.buf.length then .err st
    else
      -- lines 23-24
      let idx := st.idx + 1
      match st.buf[idx]? with
      | none => .panic
      | some ch =>
        -- lines 26-30
        if ch ≠ c!"u" then st.append ch (idx + 1)
        -- lines 32-34
        else if idx + 4 ≥ st.buf.length then .err st
        else
          -- lines 37-44, 55-69
          let idx := idx + 1
          if st.buf.length < idx + 4 then .panic
          else match hexRune ((st.buf.drop idx).take 4) with
            | none => .err st
            | some r =>
              -- lines 71-73: `target[len(target):len(target)+4]` is within the capacity
              if st.n + 4 > st.buf.length then .panic
              else
                let cs := encodeRune r
                -- line 48, and the increment of the loop
                .continue { buf := writeAt st.buf st.n cs, n := st.n + cs.length, idx := idx + 4 }

/-- The loop, with at most `fuel` iterations. -/
def unescapeLoop : Nat → Unescape → Option UnescapeResult
  | 0, _ => none
  | fuel + 1, st =>
    match st.step with
    | .continue st => unescapeLoop fuel st
    | r => some r

/-- codec/hyperjson/string.go:8-52 `decodeStringInPlace`: the memory of the token afterwards, and the length of the result, which
starts where the token starts. (`none` if the iterations of the loop, one for each byte and a last one, are not enough.) -/
def decodeStringInPlace (input : List UInt8) : Option UnescapeResult :=
  unescapeLoop (input.length + 1) { buf := input, n := 0, idx := 0 }

end Verif
