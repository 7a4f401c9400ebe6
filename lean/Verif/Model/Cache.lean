import Verif.Model.Lru
import Verif.Model.Memory

/-!
# cache/cache.go: interning of strings

Any number of goroutines call `lookupCache`, and write to their buffers between the calls. Steps of different goroutines
interleave arbitrarily; the two sections under the lock are atomic.
-/

namespace Verif

/-- Where a call of `lookupCache` is. -/
inductive LookupPc
  /-- before the first section under the lock (lines 35-37) -/
  | start
  /-- the string was not found (line 44) -/
  | missed
  /-- the string to insert is known: before the second section under the lock (lines 52-54) -/
  | ready (key : Slice)

/-- A running call of `lookupCache`. The contents of the argument at the time of the call are kept for the statements. -/
structure Lookup where
  copyOnInsert : Bool
  value : Slice
  pc : LookupPc
  arg : Str

/-- The state of all. -/
structure Interner where
  mem : Mem UInt8
  /-- cache/cache.go:12 `binaryCache`. The strings in it are slices of the memory. -/
  cache : Lru Slice
  calls : List Lookup
  /-- the memory that became part of a Go string: the buffers handed to the variant that does not copy, and the copies -/
  frozen : List Slice
  /-- the strings returned so far, with the contents that the argument had at the time of the call -/
  returned : List (Slice × Str)

/-- The memory cells that `len(vs)` bytes at the position cover are not part of the slice. -/
def Slice.Avoids (s : Slice) (block off n : Nat) : Prop :=
  s.block ≠ block ∨ off + n ≤ s.off ∨ s.off + s.len ≤ off

namespace Interner

/-- At the start: an empty cache with a limit of 5 MiB. -/
def init : Interner :=
  { mem := { data := fun _ _ => 0 }, cache := Lru.new (5 * 1024 * 1024) {}, calls := [], frozen := [], returned := [] }

/-- All that can happen. -/
inductive Step : Interner → Interner → Prop
  /-- A goroutine allocates a buffer. -/
  | alloc (st : Interner) (n : Nat) : Step st { st with mem := (st.mem.alloc 0 n).1 }
  /-- A goroutine writes to a buffer. It does not write to a buffer that it or another goroutine is looking up at the moment,
  nor to one it handed to the variant that does not copy, nor to a string. -/
  | write (st : Interner) (block off : Nat) (vs : Str) :
      (∀ s ∈ st.frozen, s.Avoids block off vs.length) → (∀ c ∈ st.calls, c.value.Avoids block off vs.length) →
      Step st { st with mem := st.mem.write block off vs }
  /-- A call with a slice of an allocated block. -/
  | call (st : Interner) (copyOnInsert : Bool) (value : Slice) : value.block < st.mem.sizes.length →
      Step st { st with
        calls := st.calls ++ [{ copyOnInsert, value, pc := .start, arg := st.mem.read value }]
        frozen := if copyOnInsert then st.frozen else value :: st.frozen }
  /-- cache/cache.go:29-31: the empty string. -/
  | empty {st : Interner} {j : Nat} {c : Lookup} : st.calls[j]? = some c → c.pc = .start → c.value.len = 0 →
      Step st { st with calls := st.calls.eraseIdx j, returned := ({}, c.arg) :: st.returned }
  /-- cache/cache.go:35-42: found (and not empty). -/
  | hit {st : Interner} {j : Nat} {c : Lookup} {cached : Str × Slice} : st.calls[j]? = some c → c.pc = .start → c.value.len ≠ 0 →
      (st.cache.get (st.mem.read c.value)).2 = some cached → cached.2.len ≠ 0 →
      Step st { st with
        cache := (st.cache.get (st.mem.read c.value)).1
        calls := st.calls.eraseIdx j
        returned := (cached.2, c.arg) :: st.returned }
  /-- cache/cache.go:35-39: not found. -/
  | miss {st : Interner} {j : Nat} {c : Lookup} : st.calls[j]? = some c → c.pc = .start → c.value.len ≠ 0 →
      (∀ cached, (st.cache.get (st.mem.read c.value)).2 = some cached → cached.2.len = 0) →
      Step st { st with
        cache := (st.cache.get (st.mem.read c.value)).1
        calls := st.calls.set j { c with pc := .missed } }
  /-- cache/cache.go:44-48: without a copy. -/
  | keep {st : Interner} {j : Nat} {c : Lookup} : st.calls[j]? = some c → c.pc = .missed → c.copyOnInsert = false →
      Step st { st with calls := st.calls.set j { c with pc := .ready c.value } }
  /-- cache/cache.go:44-48: with a copy. -/
  | copy {st : Interner} {j : Nat} {c : Lookup} : st.calls[j]? = some c → c.pc = .missed → c.copyOnInsert = true →
      Step st { st with
        mem := (st.mem.alloc 0 c.value.len).1.write st.mem.sizes.length 0 (st.mem.read c.value)
        frozen := (st.mem.alloc 0 c.value.len).2 :: st.frozen
        calls := st.calls.set j { c with pc := .ready (st.mem.alloc 0 c.value.len).2 } }
  /-- cache/cache.go:52-56: insertion. -/
  | set {st : Interner} {j : Nat} {c : Lookup} {key : Slice} {fuel : Nat} {cache : Lru Slice} : st.calls[j]? = some c → c.pc = .ready key →
      st.cache.set fuel (st.mem.read key) key = some cache →
      Step st { st with cache, calls := st.calls.eraseIdx j, returned := (key, c.arg) :: st.returned }

/-- All histories. -/
inductive Reachable : Interner → Prop
  | init : Reachable init
  | step {st st' : Interner} : Reachable st → Step st st' → Reachable st'

/-- The states after a state. -/
inductive Later : Interner → Interner → Prop
  | refl {st : Interner} : Later st st
  | step {st st' st'' : Interner} : Later st st' → Step st' st'' → Later st st''

end Interner

end Verif
