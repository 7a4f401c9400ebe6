import Verif.Model.Go

/-!
# cache/cache.go: the counters of hits and misses, and the gauge of the hit rate

Any number of goroutines look up strings, and any number read the gauge (the reporters of metrics and the admin page). The cache itself is in Model/Cache; here a lookup hits or misses
arbitrarily. `sync/atomic` operations are atomic. A rate `float64(h) / float64(h+m)` is modelled by the two numbers that are divided.
-/

namespace Verif

/-- Where a goroutine is. -/
inductive CounterPc
  /-- not in the code of the package -/
  | idle
  /-- cache/cache.go:40: found, before counting -/
  | hit
  /-- cache/cache.go:44-50: not found, before counting -/
  | miss
  /-- cache/cache.go:75: between the two exchanges, with the number of hits taken -/
  | reading (hits : UInt64)

structure CacheCounters where
  /-- cache/cache.go:14 `metricHitCount`, `metricMissCount` -/
  hits : UInt64 := 0
  misses : UInt64 := 0
  goroutines : List CounterPc
  /-- numerator and denominator of the rates reported so far -/
  rates : List (UInt64 × UInt64) := []
  /-- How many lookups hit and missed, for the statements. -/
  hitTotal : Nat := 0
  missTotal : Nat := 0

namespace CacheCounters

inductive Step : CacheCounters → CacheCounters → Prop
  /-- lines 35-39 -/
  | found {st : CacheCounters} {j : Nat} : st.goroutines[j]? = some .idle → Step st { st with goroutines := st.goroutines.set j .hit, hitTotal := st.hitTotal + 1 }
  /-- lines 35-39 -/
  | missing {st : CacheCounters} {j : Nat} : st.goroutines[j]? = some .idle → Step st { st with goroutines := st.goroutines.set j .miss, missTotal := st.missTotal + 1 }
  /-- line 40 -/
  | addHit {st : CacheCounters} {j : Nat} : st.goroutines[j]? = some .hit → Step st { st with goroutines := st.goroutines.set j .idle, hits := st.hits + 1 }
  /-- line 50 -/
  | addMiss {st : CacheCounters} {j : Nat} : st.goroutines[j]? = some .miss → Step st { st with goroutines := st.goroutines.set j .idle, misses := st.misses + 1 }
  /-- line 73 -/
  | takeHits {st : CacheCounters} {j : Nat} : st.goroutines[j]? = some .idle → Step st { st with goroutines := st.goroutines.set j (.reading st.hits), hits := 0 }
  /-- lines 74-75 -/
  | takeMisses {st : CacheCounters} {j : Nat} {h : UInt64} : st.goroutines[j]? = some (.reading h) →
      Step st { st with goroutines := st.goroutines.set j .idle, misses := 0, rates := st.rates ++ [(h, h + st.misses)] }

/-- All histories, of any number of goroutines. -/
inductive Reachable : CacheCounters → Prop
  | init (n : Nat) : Reachable { goroutines := List.replicate n .idle }
  | step {st st' : CacheCounters} : Reachable st → Step st st' → Reachable st'

end CacheCounters

end Verif
