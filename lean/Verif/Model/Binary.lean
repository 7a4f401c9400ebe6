import Verif.Model.Span

/-!
# codec/binary.go

A `bytes.Reader` is the list of its unread bytes; a decoder maps it to a value and the rest, or to
`none` for an error return (which one: `Model/BinaryError.lean`; `BinaryDecode` propagates all of them).
A `bytes.Buffer` is the list of bytes written; writes to it never fail.
-/

namespace Verif

/-- A function reading from a `*bytes.Reader` and returning `(value, error)`. -/
abbrev Dec (α : Type) := StateT (List UInt8) Option α

theorem Dec.bind_eq_some {α β} {x : Dec α} {f : α → Dec β} {s r} :
    (x >>= f) s = some r ↔ ∃ a s', x s = some (a, s') ∧ f a s' = some r := by
  simp [bind, StateT.bind, Option.bind_eq_some_iff]

theorem Dec.bind_of_some {α β} {x : Dec α} {f : α → Dec β} {s a s'} (h : x s = some (a, s')) :
    (x >>= f) s = f a s' := by
  simp [bind, StateT.bind, h]

theorem Dec.pure_eq_some {α} {a : α} {s r} : (pure a : Dec α) s = some r ↔ r = (a, s) := by
  simp [pure, StateT.pure, eq_comm]

/-- Go shift `x << s` of a `uint64`: shifts by 64 or more give zero. -/
def goShl (x : UInt64) (s : Nat) : UInt64 := if s < 64 then x <<< UInt64.ofNat s else 0

/-- codec/binary.go:15-25, the loop of `readLong`; `ReadByte` fails at the end of the input.
Simplification: `shift` does not wrap around (it would need an input of 2^61 bytes). -/
def readLongLoop (v : UInt64) (shift : Nat) : List UInt8 → Option (UInt64 × List UInt8)
  | [] => none
  | b :: bs =>
    let v := v ||| goShl (b &&& 127).toUInt64 shift
    if b &&& 128 == 0 then some (v, bs) else readLongLoop v (shift + 7) bs

/-- codec/binary.go:13-29 `readLong`. -/
def readLong : Dec Int64 := fun bs =>
  match readLongLoop 0 0 bs with
  | none => none
  | some (v, rest) => some ((v >>> 1).toInt64 ^^^ (-(v &&& 1).toInt64), rest)

/-- codec/json.go:11 `pooledBufferSliceLength`, the capacity of the pooled slices. -/
def pooledBufferSliceLength : Nat := 8 * 1024

/-- codec/binary.go:141: the lengths that are refused. -/
abbrev lengthRefused (len : Int64) : Prop := len < 0 ∨ len > 2147483647

/-- codec/binary.go:149: the condition for a fresh slice; otherwise a pooled one is used. -/
abbrev needsFreshSlice (len : Int64) : Prop := len.toInt > pooledBufferSliceLength

/-- `io.ReadFull(r, bb)` with `len(bb) = n > 0`: all `n` bytes or an error. -/
def readFull (n : Nat) : Dec (List UInt8) := fun bs =>
  if n ≤ bs.length then some (bs.take n, bs.drop n) else none

/-- codec/binary.go:133-172 `readString`. Both branches (fresh slice or pooled slice) read `len` bytes
and return a string with these contents; the interning is modelled in `Model/Cache.lean`
(C17 proves that it returns a string with the given contents). -/
def readBinaryString : Dec Str := do
  let len ← readLong
  if lengthRefused len then failure
  else if len = 0 then return []
  else readFull len.toInt.toNat

/-- codec/binary.go:150: the number of bytes requested from `make` by `readString` on this input
(zero if the pooled slice is used or the length is refused). -/
def readStringRequest (bs : List UInt8) : Nat :=
  match readLong bs with
  | none => 0
  | some (len, _) =>
    if lengthRefused len then 0
    else if needsFreshSlice len then len.toInt.toNat
    else 0

/-- codec/binary.go:150 and 160: whether `readString` panics on this input: `make` panics for a
negative length, `[:len]` for a negative length or one beyond the capacity of the pooled slice.
(`readString` above gives no meaning to a negative length; C07 proves that this case does not occur.) -/
def readStringPanics (bs : List UInt8) : Prop :=
  match readLong bs with
  | none => False
  | some (len, _) =>
    if lengthRefused len then False
    else if len = 0 then False
    else if needsFreshSlice len then len < 0
    else len < 0 ∨ len.toInt > pooledBufferSliceLength

/-- codec/binary.go:48-58, the inner loop of `readMapString`: `n` remaining iterations. -/
def readEntries : Nat → TagMap → Dec TagMap
  | 0, m => pure m
  | n + 1, m => do
    let key ← readBinaryString
    let val ← readBinaryString
    readEntries n (m.insert key val)

theorem readLongLoop_length {v s bs r} (h : readLongLoop v s bs = some r) : r.2.length < bs.length := by
  induction bs generalizing v s with
  | nil => simp [readLongLoop] at h
  | cons b bs ih =>
    simp only [readLongLoop] at h
    split at h
    · simp only [Option.some.injEq] at h; subst h; simp
    · have := ih h; simp only [List.length_cons]; omega

theorem readLong_length {bs r} (h : readLong bs = some r) : r.2.length < bs.length := by
  unfold readLong at h
  split at h
  · contradiction
  · next hl => simp only [Option.some.injEq] at h; subst h; exact readLongLoop_length hl

theorem readFull_length {n bs r} (h : readFull n bs = some r) : r.2.length ≤ bs.length := by
  unfold readFull at h
  split at h
  · simp only [Option.some.injEq] at h; subst h; simp
  · contradiction

theorem readString_length {bs r} (h : readBinaryString bs = some r) : r.2.length < bs.length := by
  obtain ⟨len, bs1, h1, h⟩ := Dec.bind_eq_some.mp h
  have h1 := readLong_length h1
  simp only at h1
  split at h
  · contradiction
  · split at h
    · rw [Dec.pure_eq_some.mp h]; exact h1
    · have := readFull_length h; omega

theorem readEntries_length {n m bs r} (h : readEntries n m bs = some r) : r.2.length ≤ bs.length := by
  induction n generalizing m bs with
  | zero => rw [Dec.pure_eq_some.mp h]; simp
  | succ n ih =>
    obtain ⟨k, bs1, h1, h⟩ := Dec.bind_eq_some.mp h
    obtain ⟨v, bs2, h2, h⟩ := Dec.bind_eq_some.mp h
    have h1 := readString_length h1
    have h2 := readString_length h2
    have h3 := ih h
    simp only at h1 h2 h3
    omega

/-- codec/binary.go:31-61 `readMapString`, the outer loop over blocks with the map read so far.
The negation `-blkSize` wraps for the smallest int64, which then gives no iteration. -/
def readBlocks (m : TagMap) (bs : List UInt8) : Option (TagMap × List UInt8) :=
  match _h : readLong bs with
  | none => none
  | some (blk, bs1) =>
    if blk = 0 then some (m, bs1)
    else if blk < 0 then
      match _h2 : readLong bs1 with
      | none => none
      | some (_, bs2) =>
        match _h3 : readEntries (-blk).toInt.toNat m bs2 with
        | none => none
        | some (m', bs3) => readBlocks m' bs3
    else
      match _h3 : readEntries blk.toInt.toNat m bs1 with
      | none => none
      | some (m', bs3) => readBlocks m' bs3
termination_by bs.length
decreasing_by
  · have h1 := readLong_length _h; have h2 := readLong_length _h2; have h3 := readEntries_length _h3
    simp only at h1 h2 h3; omega
  · have h1 := readLong_length _h; have h3 := readEntries_length _h3
    simp only at h1 h3; omega

/-- codec/binary.go:31-61 `readMapString`. -/
def readMapString : Dec TagMap := fun bs => readBlocks ∅ bs

/-- codec/binary.go:78-131 `BinaryDecode` (with `readId`, `readTimestamp`, `readDuration` of lines
63-76, which only convert the type of `readLong`'s result). -/
def binaryDecode : Dec Span := do
  let id ← readLong
  let trace ← readLong
  let parent ← readLong
  let name ← readBinaryString
  let service ← readBinaryString
  let timestamp ← readLong
  let duration ← readLong
  let cs ← readLong
  let cr ← readLong
  let ss ← readLong
  let sr ← readLong
  let tags ← readMapString
  return { id, trace, parent, name, service, timestamp, duration,
           timings := { CS := cs, CR := cr, SS := ss, SR := sr }, tags := some tags }

/-- codec/binary.go:187-197, the loop of `encodeInt` for a positive argument. -/
def encodeIntLoop (encoded : UInt64) : List UInt8 :=
  if _h : encoded > 0 then
    let b := (encoded &&& 127).toUInt8
    let encoded' := encoded >>> 7
    (if encoded' ≠ 0 then b ||| 128 else b) :: encodeIntLoop encoded'
  else []
termination_by encoded.toNat
decreasing_by
  rw [UInt64.toNat_shiftRight]
  have : 0 < encoded.toNat := by simpa [UInt64.lt_iff_toNat_lt] using _h
  simp [Nat.shiftRight_eq_div_pow]; omega

/-- codec/binary.go:180-201 `encodeInt`: the bytes appended to the buffer. -/
def encodeInt (encoded : UInt64) : List UInt8 :=
  if encoded = 0 then [0] else encodeIntLoop encoded

/-- codec/binary.go:174-178 `writeLong`: the bytes appended to the buffer. -/
def writeLong (r : Int64) : List UInt8 := encodeInt ((r <<< 1) ^^^ (r >>> 63)).toUInt64

/-- codec/binary.go:275-283 `writeString`. -/
def writeString (s : Str) : List UInt8 := writeLong (Int64.ofNat s.length) ++ s

/-- codec/binary.go:203-219 `writeMapString`, where `ord` is the sequence of entries that
`range` and `len` see. -/
def writeMapString (ord : List (Str × Str)) : List UInt8 :=
  writeLong (Int64.ofNat ord.length) ++
    if ord.length = 0 then []
    else ord.flatMap (fun e => writeString e.1 ++ writeString e.2) ++ writeLong 0

/-- codec/binary.go:221-273 `BinaryEncode`, the bytes appended to the buffer; `ord` is the iteration
order over `r.Tags`. -/
def binaryEncode (r : Span) (ord : List (Str × Str)) : List UInt8 :=
  writeLong r.id ++ writeLong r.trace ++ writeLong r.parent ++
  writeString r.name ++ writeString r.service ++
  writeLong r.timestamp ++ writeLong r.duration ++
  writeLong r.timings.CS ++ writeLong r.timings.CR ++ writeLong r.timings.SS ++ writeLong r.timings.SR ++
  writeMapString ord

end Verif
