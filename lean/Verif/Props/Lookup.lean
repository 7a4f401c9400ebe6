import Verif.Model.Lookup
import Verif.Props.Tree
import Verif.Proofs.Debug
import Verif.Proofs.World

/-!
# C133: looking up spans; C134: units of time
-/

namespace Verif

open Spec Std

/-- Whether the span at this index has this parent. -/
def parentAt (spans : List Span) (p : Id) (i : Nat) : Bool :=
  match spans[i]? with
  | some s => s.parent == p
  | none => false

theorem byParent_fold (spans : List Span) (p : Id) : ∀ n, n ≤ spans.length →
    (((List.range n).foldl (byParentStep spans) ∅)[p]?).getD [] = (List.range n).filter (parentAt spans p) := by
  intro n
  induction n with
  | zero => intro _; simp
  | succ n ih =>
    intro hn
    rw [List.range_succ, List.foldl_append, List.filter_append, List.foldl_cons, List.foldl_nil]
    have ih := ih (by omega)
    rw [← ih]
    obtain ⟨s, hs⟩ : ∃ s, spans[n]? = some s := ⟨_, List.getElem?_eq_getElem (by omega)⟩
    generalize List.foldl _ (∅ : ExtTreeMap Id (List Nat)) (List.range n) = m
    unfold byParentStep
    rw [hs]
    dsimp only
    by_cases h : s.parent = p
    · subst h
      rw [ExtTreeMap.getElem?_insert_self, List.filter_cons_of_pos (by simp [parentAt, hs])]
      rfl
    · rw [get_insert, if_neg h, List.filter_cons_of_neg (by simp [parentAt, hs, h]), List.filter_nil, List.append_nil]

/-- The spans of the trace with this parent, in order. -/
def withParent (spans : List Span) (p : Id) : List Span := spans.filter fun s => s.parent = p

/-- C133: the groups of `ByParent` are the spans with that parent, in the order of the trace. -/
theorem C133_byParent (spans : List Span) (p : Id) :
    (((byParent spans)[p]?).getD []).map (spans[·]?) = (withParent spans p).map some := by
  unfold byParent withParent
  rw [byParent_fold spans p _ (Nat.le_refl _)]
  unfold parentAt
  refine (range_filter_get spans fun s => s.parent == p).trans ?_
  congr 1

/-- C133: the children of a span are the spans in its group that have a parent: a span that is its own parent is not its own child. -/
theorem C133_children (spans : List Span) (p : Id) :
    (childrenOf spans p).map (spans[·]?) = ((withParent spans p).filter Span.hasParent).map some := by
  rw [childrenOf_siblings]
  congr 1
  unfold siblings withParent
  rw [List.filter_filter]
  apply List.filter_congr
  intro s _
  unfold Span.hasParent Span.isRoot
  by_cases h : s.parent = p <;> by_cases h' : s.parent = s.id <;> simp_all

/-- C133: in a trace made of any spans, in any order and with any repetitions, `GetSpan` finds the span with the id, and nothing else; there is at most one. -/
theorem C133_getSpan (now : Time) (k : Id) (l : List (Time × Span)) (id : Id) :
    let t := assemble now k l
    (∀ i, t.getSpan id = some i ↔ ∃ s, t.spans[i]? = some s ∧ s.id = id) ∧
    (hasSpan t.spans id = true ↔ ∃ e ∈ l, e.2.id = id) ∧
    (∀ s ∈ t.spans, ∀ q ∈ t.spans, s.id = q.id → s = q) := by
  intro t
  obtain ⟨hinv, hm, _⟩ := assemble_inv_members now k l
  refine ⟨fun i => getSpanRef_eq_some hinv.sorted, ?_, fun s hs q hq h => hinv.sorted.uniqueIds s hs q hq h⟩
  have hiff : hasSpan t.spans id = true ↔ ∃ s ∈ t.spans, s.id = id := by
    unfold hasSpan
    cases h : getSpanRef t.spans id with
    | none =>
      constructor
      · intro h; cases h
      · rintro ⟨s, hs, e⟩; exact absurd e (getSpanRef_eq_none hinv.sorted |>.mp h s hs)
    | some i =>
      obtain ⟨s, hs, e⟩ := (getSpanRef_eq_some hinv.sorted).mp h
      exact ⟨fun _ => ⟨s, List.mem_of_getElem? hs, e⟩, fun _ => rfl⟩
  rw [hiff]
  constructor
  · rintro ⟨s, hs, e⟩
    obtain ⟨m, hm', e'⟩ := (held_isSome id t.members).mp (by rw [← e, hinv.mem_held hs]; rfl)
    rw [hm] at hm'
    obtain ⟨x, hx, rfl⟩ := List.mem_map.mp hm'
    exact ⟨x, hx, e'⟩
  · rintro ⟨x, hx, e⟩
    have := (held_isSome id t.members).mpr ⟨x.2, by rw [hm]; exact List.mem_map.mpr ⟨x, hx, rfl⟩, e⟩
    rw [← hinv.holds] at this
    cases h : lookupSpan t.spans id with
    | none => rw [h] at this; cases this
    | some s => exact ⟨s, (lookupSpan_eq_some hinv.sorted).mp h⟩

/-- C133: `Root` is the span whose id is that of the trace. -/
theorem C133_root (now : Time) (k : Id) (l : List (Time × Span)) (i : Nat) :
    (assemble now k l).root = some i ↔ ∃ s, (assemble now k l).spans[i]? = some s ∧ s.id = k := by
  obtain ⟨hinv, _, hk⟩ := assemble_inv_members now k l
  unfold Tree.root
  rw [hk]
  exact getSpanRef_eq_some hinv.sorted

/-- C133: `Root` and `Roots` are different things: here the span with the id of the trace has a parent in the trace, so that it is found by `Root`, but is not among the `Roots`. -/
theorem C133_root_example :
    let t := assemble 0 7 [(0, { id := 7, trace := 7, parent := 8 }), (0, { id := 8, trace := 7, parent := 8 })]
    t.root = some 1 ∧ roots t.spans = [0] ∧ childrenOf t.spans 8 = [1] ∧ ((byParent t.spans)[(8 : Id)]?).getD [] = [0, 1] := by
  decide +kernel

/-- C133: the conversions of an id that may be missing. -/
theorem C133_ids (id : Option Id) (other : Id) :
    idOr id other = id.getD other ∧ idInt64Of id = id.getD 0 ∧ (idUint64Of id).toInt64 = id.getD 0 ∧
    (∀ u, idUint64OrNil id = some u ↔ id = some u.toInt64 ∧ u ≠ 0) := by
  cases id with
  | none => exact ⟨rfl, rfl, rfl, fun u => by simp [idUint64OrNil]⟩
  | some x =>
    refine ⟨rfl, rfl, by simp [idUint64Of, idOrZero], fun u => ?_⟩
    unfold idUint64OrNil
    dsimp only
    by_cases h : x = 0
    · subst h
      rw [if_pos rfl]
      constructor
      · intro h; cases h
      · rintro ⟨h, hu⟩
        exact absurd (by rw [← UInt64.toUInt64_toInt64 u, ← Option.some.inj h]; rfl) hu
    · rw [if_neg h]
      constructor
      · intro e
        cases e
        exact ⟨by simp, fun e => h (by rw [← Int64.toInt64_toUInt64 x, e]; rfl)⟩
      · rintro ⟨e, _⟩
        cases e
        simp

/-! ## C134 -/

/-- C134, in part: a number of microseconds that fits is read back from its timestamp. -/
theorem C134_partial (us : Int64) (h : -9223372036854775 ≤ us.toInt ∧ us.toInt ≤ 9223372036854775) :
    (microseconds us).toInt = us.toInt * 1000 ∧ toMicros (microseconds us) = us := by
  have e : (microseconds us).toInt = us.toInt * 1000 := by
    unfold microseconds microsecond
    rw [Int64.toInt_mul]
    show (us.toInt * 1000).bmod (2 ^ 64) = _
    rw [Int.bmod_eq_of_le] <;> omega
  refine ⟨e, ?_⟩
  apply Int64.toInt_inj.mp
  unfold toMicros
  rw [Int64.toInt_div_of_ne_right _ _ (by decide), e]
  exact Int.mul_tdiv_cancel _ (by decide)

/-- C134: these are exactly the numbers that are read back. -/
theorem C134_exact (us : Int64) : toMicros (microseconds us) = us ↔ -9223372036854775 ≤ us.toInt ∧ us.toInt ≤ 9223372036854775 := by
  refine ⟨fun h => ?_, fun h => (C134_partial us h).2⟩
  have e : (toMicros (microseconds us)).toInt = (microseconds us).toInt.tdiv 1000 := Int64.toInt_div_of_ne_right _ _ (by decide)
  rw [h] at e
  have h1 := Int64.le_toInt (microseconds us)
  have h2 := Int64.toInt_lt (microseconds us)
  generalize (microseconds us).toInt = x at *
  rw [e]
  obtain ⟨n, rfl | rfl⟩ := Int.eq_nat_or_neg x
  · rw [Int.tdiv_eq_ediv_of_nonneg (by omega)]
    omega
  · rw [Int.neg_tdiv, Int.tdiv_eq_ediv_of_nonneg (by omega)]
    omega

/-- C134 does not hold: a time told in nanoseconds by mistake is taken for another time. -/
theorem C134_fails : ¬ ∀ us : Int64, toMicros (microseconds us) = us := by
  intro h
  exact absurd (h 1600000000000000000) (by decide)

/-- C134: a timestamp in other units: what is cut off is less than one unit. (Of a time before 1970, the time is rounded up.) -/
theorem C134_units (ts : Timestamp) :
    toNanos ts = ts ∧ (toMicros ts).toInt = ts.toInt.tdiv 1000 ∧ (toMillis ts).toInt = ts.toInt.tdiv 1000000 ∧ toMillis ts = toMicros ts / 1000 := by
  have h1 : (toMicros ts).toInt = ts.toInt.tdiv 1000 := Int64.toInt_div_of_ne_right _ _ (by decide)
  have h2 : (toMillis ts).toInt = ts.toInt.tdiv 1000000 := Int64.toInt_div_of_ne_right _ _ (by decide)
  refine ⟨rfl, h1, h2, ?_⟩
  apply Int64.toInt_inj.mp
  rw [h2, Int64.toInt_div_of_ne_right _ _ (by decide), h1]
  show _ = (ts.toInt.tdiv 1000).tdiv 1000
  generalize ts.toInt = x
  obtain ⟨n, rfl | rfl⟩ := Int.eq_nat_or_neg x
  · rw [Int.tdiv_eq_ediv_of_nonneg (a := (n : Int)) (b := 1000000) (by omega),
      Int.tdiv_eq_ediv_of_nonneg (a := (n : Int)) (b := 1000) (by omega), Int.tdiv_eq_ediv_of_nonneg (by omega)]
    omega
  · rw [Int.neg_tdiv, Int.neg_tdiv, Int.neg_tdiv, Int.tdiv_eq_ediv_of_nonneg (a := (n : Int)) (b := 1000000) (by omega),
      Int.tdiv_eq_ediv_of_nonneg (a := (n : Int)) (b := 1000) (by omega), Int.tdiv_eq_ediv_of_nonneg (by omega)]
    omega

end Verif
