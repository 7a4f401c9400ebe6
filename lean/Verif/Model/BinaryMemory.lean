import Verif.Model.Binary

/-!
# codec/binary.go: what decoding a message costs

The same functions as in `Model/Binary.lean`, with what they do besides: the calls of `ReadByte`, the slices they make, the slices they take from `bufferPool` and put back, and the
entries they write to the map. `C109_agrees` proves that they are the same in all other respects.

Not counted: what the runtime allocates for the map itself and for the strings that the cache copies (at most as many bytes as were read: C17).
-/

namespace Verif

/-- What a decoder does besides reading. -/
inductive MemEvent
  /-- a call of `ReadByte` -/
  | byte
  /-- codec/binary.go:150 `make([]byte, n)` -/
  | make (n : Nat)
  /-- codec/binary.go:159 `bufferPool.Get()` -/
  | get
  /-- codec/binary.go:162 `bufferPool.Put(…)`, deferred -/
  | put
  /-- codec/binary.go:57 `m[key] = val` -/
  | insert
  deriving DecidableEq

/-- A decoder: its result as in `Dec`, and what it did. -/
abbrev DecM (α : Type) := List UInt8 → Option (α × List UInt8) × List MemEvent

def DecM.pure {α : Type} (a : α) : DecM α := fun bs => (some (a, bs), [])

/-- One after the other; an error of the first one is returned at once. -/
def DecM.bind {α β : Type} (x : DecM α) (f : α → DecM β) : DecM β := fun bs =>
  match x bs with
  | (none, e) => (none, e)
  | (some (a, rest), e) => ((f a rest).1, e ++ (f a rest).2)

instance : Monad DecM where
  pure := DecM.pure
  bind := DecM.bind

/-- codec/binary.go:15-25. -/
def readLongLoopM (v : UInt64) (shift : Nat) : List UInt8 → Option (UInt64 × List UInt8) × List MemEvent
  | [] => (none, [.byte])
  | b :: bs =>
    let v := v ||| goShl (b &&& 127).toUInt64 shift
    if b &&& 128 == 0 then (some (v, bs), [.byte])
    else
      let r := readLongLoopM v (shift + 7) bs
      (r.1, .byte :: r.2)

/-- codec/binary.go:13-29 `readLong`. -/
def readLongM : DecM Int64 := fun bs =>
  match readLongLoopM 0 0 bs with
  | (none, e) => (none, e)
  | (some (v, rest), e) => (some ((v >>> 1).toInt64 ^^^ (-(v &&& 1).toInt64), rest), e)

/-- codec/binary.go:133-172 `readString`: the pooled slice goes back when the function returns, with or without an error. -/
def readStringM : DecM Str := do
  let len ← readLongM
  if lengthRefused len then fun _ => (none, [])
  else if len = 0 then return []
  else if needsFreshSlice len then fun bs => (readFull len.toInt.toNat bs, [.make len.toInt.toNat])
  else fun bs => (readFull len.toInt.toNat bs, [.get, .put])

/-- codec/binary.go:48-58. -/
def readEntriesM : Nat → TagMap → DecM TagMap
  | 0, m => pure m
  | n + 1, m => do
    let key ← readStringM
    let val ← readStringM
    let m ← fun bs => (some (m.insert key val, bs), [.insert])
    readEntriesM n m

theorem DecM.bind_fst {α β : Type} {x : DecM α} {f : α → DecM β} {x' : Dec α} {f' : α → Dec β} (hx : ∀ bs, (x bs).1 = x' bs) (hf : ∀ a bs, (f a bs).1 = f' a bs) (bs : List UInt8) :
    ((x >>= f) bs).1 = (x' >>= f') bs := by
  show (DecM.bind x f bs).1 = _
  have h := hx bs
  unfold DecM.bind
  show _ = (x' bs >>= fun p => f' p.1 p.2)
  rw [← h]
  rcases hb : x bs with ⟨r | ⟨a, rest⟩, e⟩
  · rfl
  · exact hf a rest

theorem readLongLoopM_fst (v : UInt64) (shift : Nat) (bs : List UInt8) : (readLongLoopM v shift bs).1 = readLongLoop v shift bs := by
  induction bs generalizing v shift with
  | nil => rfl
  | cons b bs ih =>
    simp only [readLongLoopM, readLongLoop]
    split
    · rfl
    · exact ih ..

theorem readLongM_fst (bs : List UInt8) : (readLongM bs).1 = readLong bs := by
  unfold readLongM readLong
  rw [← readLongLoopM_fst]
  rcases readLongLoopM 0 0 bs with ⟨r | ⟨a, rest⟩, e⟩ <;> rfl

theorem readStringM_fst (bs : List UInt8) : (readStringM bs).1 = readBinaryString bs := by
  refine DecM.bind_fst readLongM_fst (fun len bs => ?_) bs
  split
  · rfl
  · split
    · rfl
    · split <;> rfl

theorem readEntriesM_fst (n : Nat) (m : TagMap) (bs : List UInt8) : (readEntriesM n m bs).1 = readEntries n m bs := by
  induction n generalizing m bs with
  | zero => rfl
  | succ n ih =>
    refine DecM.bind_fst readStringM_fst (fun key bs => ?_) bs
    refine DecM.bind_fst readStringM_fst (fun val bs => ?_) bs
    exact ih _ _

/-- codec/binary.go:31-61 `readMapString`, the outer loop. -/
def readBlocksM (m : TagMap) (bs : List UInt8) : Option (TagMap × List UInt8) × List MemEvent :=
  match _h : readLongM bs with
  | (none, e) => (none, e)
  | (some (blk, bs1), e1) =>
    if blk = 0 then (some (m, bs1), e1)
    else if blk < 0 then
      match _h2 : readLongM bs1 with
      | (none, e2) => (none, e1 ++ e2)
      | (some (_, bs2), e2) =>
        match _h3 : readEntriesM (-blk).toInt.toNat m bs2 with
        | (none, e3) => (none, e1 ++ e2 ++ e3)
        | (some (m', bs3), e3) => ((readBlocksM m' bs3).1, e1 ++ e2 ++ e3 ++ (readBlocksM m' bs3).2)
    else
      match _h3 : readEntriesM blk.toInt.toNat m bs1 with
      | (none, e3) => (none, e1 ++ e3)
      | (some (m', bs3), e3) => ((readBlocksM m' bs3).1, e1 ++ e3 ++ (readBlocksM m' bs3).2)
termination_by bs.length
decreasing_by
  all_goals
    have h1 := readLong_length (by rw [← readLongM_fst, _h])
    have h3 := readEntries_length (by rw [← readEntriesM_fst, _h3])
    try have h2 := readLong_length (by rw [← readLongM_fst, _h2])
    simp only at h1 h3
    try simp only at h2
    omega

/-- codec/binary.go:31-61 `readMapString`. -/
def readMapStringM : DecM TagMap := fun bs => readBlocksM ∅ bs

/-- codec/binary.go:78-131 `BinaryDecode`. -/
def binaryDecodeM : DecM Span := do
  let id ← readLongM
  let trace ← readLongM
  let parent ← readLongM
  let name ← readStringM
  let service ← readStringM
  let timestamp ← readLongM
  let duration ← readLongM
  let cs ← readLongM
  let cr ← readLongM
  let ss ← readLongM
  let sr ← readLongM
  let tags ← readMapStringM
  return { id, trace, parent, name, service, timestamp, duration,
           timings := { CS := cs, CR := cr, SS := ss, SR := sr }, tags := some tags }

end Verif
