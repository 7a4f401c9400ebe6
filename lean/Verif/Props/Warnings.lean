import Verif.Proofs.Warnings
import Verif.Props.Collector
import Verif.Proofs.Flood

/-!
# C122: what the log says about traces that are dropped
-/

namespace Verif

open Spec Std

/-- What is said when load is shed. -/
theorem shed_says {w : World} (hw : Reachable w) {i : TickInput} (hv : i.Valid w.c) :
    let gone := discardedOf (w.c.tick i).2
    let lost := (gone.map fun r => size r.tree).sum
    Pairwise₂ Says
      (if spanCountOf w.c.traces.toList > maxSpans then
        (b!"There are currently " ++ numberText (spanCountOf w.c.traces.toList) ++ b!" in-flight spans, removing some traces now") :: discardLines i.sorted (w.c.finishLoop i).1
      else [])
      (shedNotices (counted w.c.traces.toList) (total (w.c.tick i).1.traces.toList + lost) gone.length lost) := by
  dsimp only
  have hinv := reachable_inv hw
  obtain ⟨k', hk', hperm, hstay, _⟩ := discarded_perm hw hv
  obtain ⟨f1, f2, f3, f4⟩ := finishLoop_eq w.c i
  obtain ⟨k, hk, s1, s2, s3, _, s5, s6, s7⟩ := shed_eq w.c i
  dsimp only at *
  have hsize : ∀ l : List (Id × Tree), ((l.map fun e => (⟨e.1, e.2, .discarded⟩ : Removal)).map fun r => size r.tree).sum = total l := by
    intro l; rw [List.map_map]; rfl
  have hlost : ((discardedOf (w.c.tick i).2).map fun r => size r.tree).sum = total (i.sorted.take k') := by
    rw [← hsize]; exact (hperm.map _).sum_nat
  have hsplit : ∀ j, total i.sorted = total (i.sorted.take j) + total (i.sorted.drop j) := by
    intro j
    conv => lhs; rw [← List.take_append_drop j i.sorted]
    unfold total
    rw [List.map_append, List.sum_append]
  have hrest : total (w.c.tick i).1.traces.toList + ((discardedOf (w.c.tick i).2).map fun r => size r.tree).sum = total i.sorted := by
    rw [hlost, total_perm hstay, hsplit k', Nat.add_comm]
  rw [hrest]
  have hsorted : ∀ e ∈ i.sorted, w.c.traces[e.1]? = some e.2 := by
    rintro ⟨id, t⟩ he
    have := (mem_range hv.sorted).mp he
    rw [f2] at this
    split at this
    · contradiction
    · exact this
  have inv : ∀ l : List (Id × Tree), (∀ e ∈ l, e ∈ i.sorted) → ∀ e ∈ l, e.2.Inv := fun l hl e he => (hinv.trees _ _ (hsorted e (hl e he))).inv
  have htot : totalNodes (w.c.finishLoop i).1.traces.toList = total i.sorted := by
    rw [totalNodes_eq, total_perm hv.sorted]
    rintro ⟨id, t⟩ he
    exact inv _ (fun _ h => h) _ ((mem_range hv.sorted).mpr ((mem_range (isRange_refl _)).mp he))
  have hcount : spanCountOf w.c.traces.toList = counted w.c.traces.toList := spanCountOf_eq hinv.inv
  have htick : (w.c.tick i).2 = (w.c.shed i).2 := rfl
  unfold shedNotices
  rw [hcount]
  by_cases hc : counted w.c.traces.toList ≤ 100000
  · rw [if_pos hc, if_neg (show ¬ counted w.c.traces.toList > maxSpans from Nat.not_lt.mpr hc)]; exact .nil
  · rw [if_neg hc, if_pos (show counted w.c.traces.toList > maxSpans from Nat.lt_of_not_le hc)]
    have first := Says.crowded (numberText_spec (counted w.c.traces.toList))
    unfold discardLines
    rw [htot]
    dsimp only
    by_cases hr : total i.sorted < 100000
    · rw [if_pos hr, if_pos (by unfold maxSpans; omega)]
      exact .cons first .nil
    · rw [if_neg hr, if_neg (by unfold maxSpans; omega)]
      refine .cons first (.cons ?_ (.cons ?_ .nil))
      · rw [show ((total i.sorted : Int) - maxSpans).toNat = total i.sorted - 100000 by unfold maxSpans; omega]
        exact .excess (numberText_spec _)
      · obtain ⟨j, hj, d1, _, _, _, d5, d6, _⟩ := discardLoop_eq i.sorted (total i.sorted) (w.c.finishLoop i).1 [] 0 0
        have hshed : (w.c.shed i).2 = (w.c.finishLoop i).2 ++ (discardLoop i.sorted (total i.sorted) (w.c.finishLoop i).1 [] 0 0).2.1 := by
          unfold Collector.shed
          dsimp only
          rw [hcount, if_pos (show counted w.c.traces.toList > maxSpans from Nat.lt_of_not_le hc)]
          unfold discardSuspicious
          dsimp only
          rw [htot, if_neg (by unfold maxSpans; omega)]
          dsimp only
          rw [discardLoop_same]
        have hnone : discardedOf (w.c.finishLoop i).2 = [] := by
          unfold discardedOf
          rw [List.filter_eq_nil_iff, f1]
          intro r hr
          have he := (mem_removals.mp hr).2
          have := finishLine_fate he
          cases hf : r.fate <;> simp_all
        have hall : discardedOf ((i.sorted.take j).map fun e => (⟨e.1, e.2, .discarded⟩ : Removal)) = (i.sorted.take j).map fun e => ⟨e.1, e.2, .discarded⟩ := by
          unfold discardedOf
          rw [List.filter_eq_self]
          intro r hr
          obtain ⟨e, _, rfl⟩ := List.mem_map.mp hr
          rfl
        have hgone : discardedOf (w.c.tick i).2 = (i.sorted.take j).map fun e => (⟨e.1, e.2, .discarded⟩ : Removal) := by
          rw [htick, hshed, d1, List.nil_append]
          conv => rhs; rw [← hall]
          unfold discardedOf at hnone ⊢
          rw [List.filter_append, hnone, List.nil_append]
        rw [totalNodes_eq (inv _ fun e he => List.mem_of_mem_take he)] at d5
        rw [hgone, hsize, List.length_map, List.length_take, Nat.min_eq_left hj]
        rw [show (discardLoop i.sorted (total i.sorted) (w.c.finishLoop i).1 [] 0 0).2.2.1 = total (i.sorted.take j) by omega, d6, Nat.zero_add]
        exact .discarded (numberText_spec _) (numberText_spec _)

/-- C122, partial: at every tick the log has one line for each trace that is dropped because it is too large or too old, in the order of their removal, with its id and the number of its
spans (as seen by the 16 bit counter). If load is shed, it says how many spans there are, how many of those that remain are too much, and how many traces with how many spans are discarded.
There is no other line. Missing: the traces without a unique root, and the ids of the traces that are discarded. -/
theorem C122_partial {w : World} (hw : Reachable w) {i : TickInput} (hv : i.Valid w.c) :
    let gone := discardedOf (w.c.tick i).2
    let lost := (gone.map fun r => size r.tree).sum
    Pairwise₂ Says (w.c.tickLines i)
      ((w.c.tick i).2.filterMap noticeOf ++
        shedNotices (counted w.c.traces.toList) (total (w.c.tick i).1.traces.toList + lost) gone.length lost) := by
  dsimp only
  have hinv := reachable_inv hw
  obtain ⟨f1, f2, f3, f4⟩ := finishLoop_eq w.c i
  obtain ⟨k, hk, s1, s2, s3, _, s5, s6, s7⟩ := shed_eq w.c i
  dsimp only at *
  have htick : (w.c.tick i).2 = (w.c.shed i).2 := rfl
  have hsilent : ((i.sorted.take k).map fun e => (⟨e.1, e.2, .discarded⟩ : Removal)).filterMap noticeOf = [] := by
    rw [List.filterMap_eq_nil_iff]
    intro r hr
    obtain ⟨e, _, rfl⟩ := List.mem_map.mp hr
    rfl
  rw [show (w.c.tick i).2.filterMap noticeOf = (w.c.finishLoop i).2.filterMap noticeOf by rw [htick, s1, List.filterMap_append, hsilent, List.append_nil]]
  refine Pairwise₂.app ?_ (shed_says hw hv)
  rw [f1]
  exact finishLines_says fun e he => (hinv.trees _ _ ((mem_range hv.order).mp he)).inv

namespace WarningsWitness

/-- Two spans of one trace, with different parents that are missing. -/
def pair : List Span := [{ id := 7, trace := 5, parent := 6 }, { id := 8, trace := 5, parent := 9 }]

/-- A tick at this time. -/
def tickAt (now : Time) : TickInput :=
  let i : TickInput := { now1 := now, now2 := now, nowFake := fun _ => 0, order := (flood pair).c.traces.toList, sorted := [], blOrder := [] }
  { i with blOrder := ((flood pair).c.shed i).1.blacklist.toList }

theorem valid {now : Time} (h : ((flood pair).c.finishLoop (tickAt now)).1.traces.toList.length = 0) : (tickAt now).Valid (flood pair).c := by
  refine ⟨isRange_refl (flood pair).c.traces, ?_, List.Pairwise.nil, isRange_refl ((flood pair).c.shed (tickAt now)).1.blacklist, Int.le_refl _⟩
  rw [List.length_eq_zero_iff] at h
  show List.Perm [] _
  rw [h]

end WarningsWitness

open WarningsWitness in
/-- C122 does not hold: a trace without a unique root leaves the collector, it is not sent, and nothing is logged. -/
theorem C122_fails : ¬ ∀ (w : World) (i : TickInput), Reachable w → i.Valid w.c → ∀ r ∈ (w.c.tick i).2, (∀ spans, r.fate ≠ .emitted spans) →
    ∃ line ∈ w.c.tickLines i, ∃ n, Says line (.tooLarge r.id n) ∨ Says line (.tooOld r.id n) := by
  intro h
  have hids : ((flood pair).c.tick (tickAt 9000000000)).2.map Removal.id = [5] := by decide +kernel
  have hnone : (emittedOf ((flood pair).c.tick (tickAt 9000000000)).2).length = 0 := by decide +kernel
  have hlog : (flood pair).c.tickLines (tickAt 9000000000) = [] := by decide +kernel
  obtain ⟨r, hr⟩ : ∃ r, r ∈ ((flood pair).c.tick (tickAt 9000000000)).2 := by
    cases e : ((flood pair).c.tick (tickAt 9000000000)).2 with
    | nil => rw [e] at hids; cases hids
    | cons r l => exact ⟨r, List.mem_cons_self⟩
  obtain ⟨line, hl, _⟩ := h _ _ (flood_reachable pair) (valid (by decide +kernel)) r hr (by
    intro spans hs
    have : spans ∈ emittedOf ((flood pair).c.tick (tickAt 9000000000)).2 := List.mem_filterMap.mpr ⟨r, hr, by rw [hs]⟩
    rw [List.length_eq_zero_iff] at hnone
    rw [hnone] at this
    cases this)
  rw [hlog] at hl
  cases hl

open WarningsWitness in
/-- The same trace, if the tick comes after a minute: it is too old, and its line is this. -/
theorem C122_witness : Reachable (flood pair) ∧ (tickAt 60000000000).Valid (flood pair).c ∧
    (flood pair).c.tickLines (tickAt 60000000000) = [b!"Trace 0000000000000005 with 2 nodes is too old"] ∧
    Says b!"Trace 0000000000000005 with 2 nodes is too old" (.tooOld 5 2) :=
  ⟨flood_reachable _, valid (by decide +kernel), by decide +kernel, .tooOld (i := b!"0000000000000005") (n := b!"2") (by unfold IdText; decide) (by unfold CountText; decide)⟩

/-- C122: what a line says, it says to everyone: no line can be read in two ways. -/
theorem C122_readable {line : Str} {a b : Notice} (ha : Says line a) (hb : Says line b) : a = b := ha.unique hb

end Verif
