import Verif.Model.CacheMetrics
import Verif.Props.System

/-!
# C75: the hit rate of the cache
-/

namespace Verif

namespace CacheCounters

/-- The hits that a goroutine is about to count or has taken out of the counter. -/
def heldHits : CounterPc → Nat
  | .hit => 1
  | .reading h => h.toNat
  | _ => 0

/-- The misses that a goroutine is about to count. -/
def heldMisses : CounterPc → Nat
  | .miss => 1
  | _ => 0

/-- Nothing is lost, nothing is counted twice. -/
structure Conserved (st : CacheCounters) : Prop where
  hits : (st.rates.map fun r => r.1.toNat).sum + st.hits.toNat + (st.goroutines.map heldHits).sum = st.hitTotal
  lookups : (st.rates.map fun r => r.2.toNat).sum + st.hits.toNat + st.misses.toNat + (st.goroutines.map heldHits).sum + (st.goroutines.map heldMisses).sum =
    st.hitTotal + st.missTotal
  rate : ∀ r ∈ st.rates, r.1.toNat ≤ r.2.toNat

theorem toNat_succ {x : UInt64} {n : Nat} (h : x.toNat + 1 ≤ n) (hn : n < 2 ^ 64) : (x + 1).toNat = x.toNat + 1 := by
  rw [UInt64.toNat_add]
  exact Nat.mod_eq_of_lt (by show x.toNat + 1 < _; omega)

theorem reachable_total {st st' : CacheCounters} (h : Step st st') (hb : st'.hitTotal + st'.missTotal < 2 ^ 64) : st.hitTotal + st.missTotal < 2 ^ 64 := by
  cases h <;> dsimp only at hb <;> omega

theorem conserved {st : CacheCounters} (h : Reachable st) (hb : st.hitTotal + st.missTotal < 2 ^ 64) : Conserved st := by
  induction h with
  | init n =>
    refine ⟨?_, ?_, by simp⟩ <;> simp [heldHits, heldMisses]
  | @step st st' _ hs ih =>
    obtain ⟨i1, i2, i3⟩ := ih (reachable_total hs hb)
    cases hs with
    | found hj =>
      have a := sum_map_set heldHits (q' := .hit) hj
      have b := sum_map_set heldMisses (q' := .hit) hj
      simp only [heldHits, heldMisses] at a b
      exact ⟨by dsimp only; omega, by dsimp only; omega, i3⟩
    | missing hj =>
      have a := sum_map_set heldHits (q' := .miss) hj
      have b := sum_map_set heldMisses (q' := .miss) hj
      simp only [heldHits, heldMisses] at a b
      exact ⟨by dsimp only; omega, by dsimp only; omega, i3⟩
    | addHit hj =>
      have a := sum_map_set heldHits (q' := .idle) hj
      have b := sum_map_set heldMisses (q' := .idle) hj
      simp only [heldHits, heldMisses] at a b
      dsimp only at hb
      have e := toNat_succ (x := st.hits) (n := st.hitTotal + st.missTotal) (by omega) hb
      exact ⟨by dsimp only; omega, by dsimp only; omega, i3⟩
    | addMiss hj =>
      have a := sum_map_set heldHits (q' := .idle) hj
      have b := sum_map_set heldMisses (q' := .idle) hj
      simp only [heldHits, heldMisses] at a b
      dsimp only at hb
      have e := toNat_succ (x := st.misses) (n := st.hitTotal + st.missTotal) (by omega) hb
      exact ⟨by dsimp only; omega, by dsimp only; omega, i3⟩
    | takeHits hj =>
      have a := sum_map_set heldHits (q' := .reading st.hits) hj
      have b := sum_map_set heldMisses (q' := .reading st.hits) hj
      simp only [heldHits, heldMisses] at a b
      have e : (0 : UInt64).toNat = 0 := rfl
      exact ⟨by dsimp only; omega, by dsimp only; omega, i3⟩
    | @takeMisses j x hj =>
      have a := sum_map_set heldHits (q' := .idle) hj
      have b := sum_map_set heldMisses (q' := .idle) hj
      simp only [heldHits, heldMisses] at a b
      dsimp only at hb
      have e : (0 : UInt64).toNat = 0 := rfl
      have e2 : (x + st.misses).toNat = x.toNat + st.misses.toNat := by
        rw [UInt64.toNat_add]
        exact Nat.mod_eq_of_lt (by omega)
      refine ⟨?_, ?_, ?_⟩
      · dsimp only
        simp only [List.map_append, List.sum_append, List.map_cons, List.map_nil, List.sum_cons, List.sum_nil]
        omega
      · dsimp only
        simp only [List.map_append, List.sum_append, List.map_cons, List.map_nil, List.sum_cons, List.sum_nil]
        omega
      · intro r hr
        rcases List.mem_append.mp hr with hr | hr
        · exact i3 r hr
        · rw [List.mem_singleton] at hr
          subst hr
          dsimp only
          omega

/-- C75: Whatever the goroutines that look up and the readers do, every lookup is counted in exactly one reading of the gauge: when nobody is on the way, the numerators of all reported rates
and what is left in the counter make up all hits, and the denominators make up all lookups. -/
theorem C75_conserved {st : CacheCounters} (h : Reachable st) (hb : st.hitTotal + st.missTotal < 2 ^ 64) (hidle : ∀ g ∈ st.goroutines, g = .idle) :
    (st.rates.map fun r => r.1.toNat).sum + st.hits.toNat = st.hitTotal ∧
    (st.rates.map fun r => r.2.toNat).sum + (st.hits.toNat + st.misses.toNat) = st.hitTotal + st.missTotal := by
  obtain ⟨h1, h2, _⟩ := conserved h hb
  have hz : ∀ (f : CounterPc → Nat), f .idle = 0 → ∀ l : List CounterPc, (∀ g ∈ l, g = .idle) → (l.map f).sum = 0 := by
    intro f hf l hl
    induction l with
    | nil => rfl
    | cons x l ih =>
      rw [List.map_cons, List.sum_cons, hl x (by simp), hf, ih fun g hg => hl g (by simp [hg])]
  rw [hz heldHits rfl _ hidle] at h1 h2
  rw [hz heldMisses rfl _ hidle] at h2
  omega

/-- C75: a rate is never above one. -/
theorem C75_rate {st : CacheCounters} (h : Reachable st) (hb : st.hitTotal + st.missTotal < 2 ^ 64) {r : UInt64 × UInt64} (hr : r ∈ st.rates) : r.1 ≤ r.2 :=
  UInt64.le_iff_toNat_le.mpr ((conserved h hb).rate r hr)

/-- C75, what remains true: every lookup is counted once, and a rate is between 0 and 1 if something was looked up since the gauge was last read (missing: then it is `0 / 0`, see
`C75_fails`; its denominator is 0 in no other case). -/
theorem C75_partial {st : CacheCounters} (h : Reachable st) (hb : st.hitTotal + st.missTotal < 2 ^ 64) :
    ((∀ g ∈ st.goroutines, g = .idle) → (st.rates.map fun r => r.1.toNat).sum + st.hits.toNat = st.hitTotal ∧
      (st.rates.map fun r => r.2.toNat).sum + (st.hits.toNat + st.misses.toNat) = st.hitTotal + st.missTotal) ∧
    ∀ r ∈ st.rates, r.1 ≤ r.2 ∧ (r.2 = 0 → r = (0, 0)) := by
  refine ⟨C75_conserved h hb, fun r hr => ⟨C75_rate h hb hr, fun h0 => ?_⟩⟩
  have := C75_rate h hb hr
  obtain ⟨a, b⟩ := r
  cases h0
  have : a = 0 := UInt64.le_antisymm this UInt64.zero_le
  rw [this]
  rfl

/-- C75 is false in one point: the gauge is not always a number. If nothing was looked up since it was last read, it is `0 / 0`. -/
theorem C75_fails : ∃ st, Reachable st ∧ (0, 0) ∈ st.rates :=
  ⟨_, .step (.step (.init 1) (.takeHits (j := 0) rfl)) (.takeMisses (j := 0) (h := 0) rfl), by simp⟩

/-- A hit is counted while another goroutine reads the gauge, between its two exchanges: the hit is in the next reading, 0 of 1 and 1 of 1. -/
theorem C75_witness : Reachable { goroutines := [.idle, .idle], rates := [(0, 1), (1, 1)], hitTotal := 1, missTotal := 1 } := by
  have h0 : Reachable { goroutines := [.idle, .idle] } := .init 2
  have h1 := h0.step (.missing (j := 0) rfl)
  have h2 := h1.step (.addMiss (j := 0) rfl)
  have h3 := h2.step (.takeHits (j := 0) rfl)
  have h4 := h3.step (.found (j := 1) rfl)
  have h5 := h4.step (.addHit (j := 1) rfl)
  have h6 := h5.step (.takeMisses (j := 0) (h := 0) rfl)
  have h7 := h6.step (.takeHits (j := 0) rfl)
  exact h7.step (.takeMisses (j := 0) (h := 1) rfl)

end CacheCounters

end Verif
