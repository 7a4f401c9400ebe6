import Verif.Model.Binary
import Verif.Model.Encode

/-!
# codec/binary.go: the errors

The same functions as in `Model/Binary.lean`, with the errors they return. `C107_agrees` proves that they are the same in all other respects.
-/

namespace Verif

/-- The errors of `BinaryDecode`: `io.EOF`, `io.ErrUnexpectedEOF`, and the one of codec/binary.go:142. -/
inductive BinaryError
  | eof
  | unexpectedEof
  | range (len : Int64)
  deriving DecidableEq

/-- The text of an error; for codec/binary.go:142, `%d` prints an `int64` in decimal. -/
def BinaryError.text : BinaryError → Str
  | .eof => b!"EOF"
  | .unexpectedEof => b!"unexpected EOF"
  | .range len => b!"string length out of range: " ++ encodeNumber len

abbrev DecE (α : Type) := StateT (List UInt8) (Except BinaryError) α

/-- codec/binary.go:15-25: `ReadByte` returns `io.EOF` at the end. -/
def readLongLoopE (v : UInt64) (shift : Nat) : List UInt8 → Except BinaryError (UInt64 × List UInt8)
  | [] => .error .eof
  | b :: bs =>
    let v := v ||| goShl (b &&& 127).toUInt64 shift
    if b &&& 128 == 0 then .ok (v, bs) else readLongLoopE v (shift + 7) bs

/-- codec/binary.go:13-29 `readLong`. -/
def readLongE : DecE Int64 := fun bs =>
  match readLongLoopE 0 0 bs with
  | .error e => .error e
  | .ok (v, rest) => .ok ((v >>> 1).toInt64 ^^^ (-(v &&& 1).toInt64), rest)

/-- `io.ReadFull(r, bb)` with `len(bb) = n > 0`: `io.EOF` if there is nothing to read, `io.ErrUnexpectedEOF` if there is something, but not enough. -/
def readFullE (n : Nat) : DecE (List UInt8) := fun bs =>
  if n ≤ bs.length then .ok (bs.take n, bs.drop n)
  else if bs.length = 0 then .error .eof
  else .error .unexpectedEof

/-- codec/binary.go:133-172 `readString`. -/
def readStringE : DecE Str := do
  let len ← readLongE
  if lengthRefused len then throw (.range len)
  else if len = 0 then return []
  else readFullE len.toInt.toNat

/-- codec/binary.go:48-58. -/
def readEntriesE : Nat → TagMap → DecE TagMap
  | 0, m => pure m
  | n + 1, m => do
    let key ← readStringE
    let val ← readStringE
    readEntriesE n (m.insert key val)

theorem readLongLoopE_length {v s bs r} (h : readLongLoopE v s bs = .ok r) : r.2.length < bs.length := by
  induction bs generalizing v s with
  | nil => simp [readLongLoopE] at h
  | cons b bs ih =>
    simp only [readLongLoopE] at h
    split at h
    · cases h; simp
    · have := ih h; simp only [List.length_cons]; omega

theorem readLongE_length {bs r} (h : readLongE bs = .ok r) : r.2.length < bs.length := by
  unfold readLongE at h
  split at h
  · cases h
  · next hl => cases h; exact readLongLoopE_length hl

theorem DecE.bind_ok {α β} {x : DecE α} {f : α → DecE β} {s r} : (x >>= f) s = .ok r ↔ ∃ a s', x s = .ok (a, s') ∧ f a s' = .ok r := by
  show (x s >>= fun p => f p.1 p.2) = _ ↔ _
  cases x s with
  | error e => constructor
               · intro h; cases h
               · rintro ⟨_, _, h, _⟩; cases h
  | ok p => constructor
            · exact fun h => ⟨p.1, p.2, rfl, h⟩
            · rintro ⟨_, _, h, h'⟩; cases h; exact h'

theorem readFullE_length {n bs r} (h : readFullE n bs = .ok r) : r.2.length ≤ bs.length := by
  unfold readFullE at h
  split at h
  · cases h; simp
  · split at h <;> cases h

theorem readStringE_length {bs r} (h : readStringE bs = .ok r) : r.2.length < bs.length := by
  obtain ⟨len, bs1, h1, h⟩ := DecE.bind_ok.mp h
  have h1 := readLongE_length h1
  simp only at h1
  split at h
  · cases h
  · split at h
    · cases h; exact h1
    · have := readFullE_length h; omega

theorem readEntriesE_length {n m bs r} (h : readEntriesE n m bs = .ok r) : r.2.length ≤ bs.length := by
  induction n generalizing m bs with
  | zero => cases h; exact Nat.le_refl _
  | succ n ih =>
    obtain ⟨k, bs1, h1, h⟩ := DecE.bind_ok.mp h
    obtain ⟨v, bs2, h2, h⟩ := DecE.bind_ok.mp h
    have h1 := readStringE_length h1
    have h2 := readStringE_length h2
    have h3 := ih h
    simp only at h1 h2 h3
    omega

/-- codec/binary.go:31-61 `readMapString`, the outer loop. -/
def readBlocksE (m : TagMap) (bs : List UInt8) : Except BinaryError (TagMap × List UInt8) :=
  match _h : readLongE bs with
  | .error e => .error e
  | .ok (blk, bs1) =>
    if blk = 0 then .ok (m, bs1)
    else if blk < 0 then
      match _h2 : readLongE bs1 with
      | .error e => .error e
      | .ok (_, bs2) =>
        match _h3 : readEntriesE (-blk).toInt.toNat m bs2 with
        | .error e => .error e
        | .ok (m', bs3) => readBlocksE m' bs3
    else
      match _h3 : readEntriesE blk.toInt.toNat m bs1 with
      | .error e => .error e
      | .ok (m', bs3) => readBlocksE m' bs3
termination_by bs.length
decreasing_by
  · have h1 := readLongE_length _h; have h2 := readLongE_length _h2; have h3 := readEntriesE_length _h3
    simp only at h1 h2 h3; omega
  · have h1 := readLongE_length _h; have h3 := readEntriesE_length _h3
    simp only at h1 h3; omega

/-- codec/binary.go:31-61 `readMapString`. -/
def readMapStringE : DecE TagMap := fun bs => readBlocksE ∅ bs

/-- codec/binary.go:78-131 `BinaryDecode`; of the span that is returned with an error, nobody reads anything. -/
def binaryDecodeE : DecE Span := do
  let id ← readLongE
  let trace ← readLongE
  let parent ← readLongE
  let name ← readStringE
  let service ← readStringE
  let timestamp ← readLongE
  let duration ← readLongE
  let cs ← readLongE
  let cr ← readLongE
  let ss ← readLongE
  let sr ← readLongE
  let tags ← readMapStringE
  return { id, trace, parent, name, service, timestamp, duration,
           timings := { CS := cs, CR := cr, SS := ss, SR := sr }, tags := some tags }

/-- balance/receiver.go:47-50, 83-87: the line that `ConsumeClaim` logs for a message, if it cannot be decoded. -/
def consumeLog (value : List UInt8) : Option Str :=
  match binaryDecodeE value with
  | .error e => some (b!"Cannot deserialize kafka message: deserialize avro message: " ++ e.text)
  | .ok _ => none

end Verif
