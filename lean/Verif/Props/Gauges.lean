import Verif.Props.Divided

/-!
# C141: the gauges of pending spans and traces, and the histogram of sizes
-/

namespace Verif

open Spec

/-- The traces that left, except for the ones that were discarded under load. -/
def Spec.closedOf (l : List Removal) : List Removal := l.filter fun r => match r.fate with | .discarded => false | _ => true

theorem finishTree_not_discarded (now : Time) (t : Tree) : finishTree now t ≠ .discarded := by
  unfold finishTree
  dsimp only
  split
  · split <;> simp
  · simp

theorem removals_not_discarded {dU dS : Time} {nf : Id → Time} {order : List (Id × Tree)} {r : Removal} (h : r ∈ removals dU dS nf order) : r.fate ≠ .discarded := by
  have he := (mem_removals.mp h).2
  unfold examine at he
  split at he
  · cases he
  · split at he
    · injection he with he; rw [← he]; simp
    · split at he
      · injection he with he; rw [← he]; simp
      · injection he with he; rw [← he]; exact finishTree_not_discarded _ _

/-- After every tick, the gauge of pending traces is the number of traces that are pending before some of them are discarded; the gauge of pending spans is the number before the tick, without
too large traces: that is what is still pending, and what just left. -/
theorem C141_gauges_partial {w : World} (hw : Reachable w) {i : TickInput} (hv : i.Valid w.c) :
    (w.c.tick i).1.metrics.tracesInflight = (w.c.tick i).1.traces.size + (discardedOf (w.c.tick i).2).length ∧
    (w.c.tick i).1.metrics.spansInflight = counted w.c.traces.toList ∧
    (w.c.tick i).1.metrics.spansInflight =
      total (w.c.tick i).1.traces.toList + (((w.c.tick i).2.filter fun r => !decide (Large r.tree)).map fun r => size r.tree).sum := by
  have hinv := reachable_inv hw
  have hs : (w.c.tick i).1.metrics.spansInflight = counted w.c.traces.toList := by
    obtain ⟨k, _, _, _, _, ⟨ds, _, s4⟩, _⟩ := shed_eq w.c i
    show (w.c.shed i).1.metrics.spansInflight = _
    rw [s4]
    exact spanCountOf_eq hinv.inv
  refine ⟨?_, hs, ?_⟩
  · obtain ⟨_, _, _, _, _, ⟨ds, _, s4⟩, _⟩ := shed_eq w.c i
    have e : (w.c.tick i).1.metrics.tracesInflight = (w.c.finishLoop i).1.traces.size := by
      show (w.c.shed i).1.metrics.tracesInflight = _
      rw [s4]
    obtain ⟨k, hk, hp, hperm, _⟩ := discarded_perm hw hv
    have h1 := hp.length_eq
    have h2 := hperm.length_eq
    have h3 := hv.sorted.length_eq
    rw [Std.ExtTreeMap.length_toList] at h2 h3
    rw [List.length_map, List.length_take] at h1
    rw [List.length_drop] at h2
    omega
  · rw [hs, counted_perm (tick_partition w.c i hv)]
    obtain ⟨k, hk, hperm, _, _, _, _, _, _, hsorted⟩ := tick_rest hinv hv
    unfold counted total
    rw [List.filter_append, List.map_append, List.sum_append, Nat.add_comm]
    congr 1
    · have : (w.c.tick i).1.traces.toList.filter (fun e => !decide (Large e.2)) = (w.c.tick i).1.traces.toList := by
        rw [List.filter_eq_self]
        rintro ⟨id, t⟩ he
        have hg := (mem_range (isRange_refl _)).mp he
        have hx : w.c.traces[id]? = some t := hsorted (id, t) (List.mem_of_mem_drop (hperm.mem_iff.mp he))
        obtain ⟨_, _, _, h4⟩ := tick_fates hinv hv hx
        simpa using (h4 hg).1
      rw [this]
    · rw [List.filter_map, List.map_map]
      rfl

/-- If nothing leaves at a tick and no trace has 65536 spans, both gauges are right. -/
theorem C141_quiet_partial {w : World} (hw : Reachable w) {i : TickInput} (hv : i.Valid w.c) (hq : (w.c.tick i).2 = []) :
    (w.c.tick i).1.metrics.tracesInflight = (w.c.tick i).1.traces.size ∧
    ((∀ e ∈ (w.c.tick i).1.traces.toList, e.2.spans.length < 65536) →
      (w.c.tick i).1.metrics.spansInflight = ((w.c.tick i).1.traces.toList.map fun e => e.2.spans.length).sum) := by
  obtain ⟨h1, _, h3⟩ := C141_gauges_partial hw hv
  rw [hq] at h1 h3
  refine ⟨by simpa [discardedOf] using h1, fun hs => ?_⟩
  rw [h3]
  simp only [List.filter_nil, List.map_nil, List.sum_nil, Nat.add_zero, total]
  congr 1
  apply List.map_congr_left
  intro e he
  exact Nat.mod_eq_of_lt (hs e he)

/-- The histogram of sizes gets every trace that leaves, except for those that are discarded under load, once and in order; the made up root is not counted. -/
theorem C141_histogram {w : World} (hw : Reachable w) : w.c.metrics.tracesFinishedSize = (closedOf w.removed).map fun r => size r.tree := by
  have key : w.c.metrics.tracesFinishedSize = (closedOf w.removed).map fun r => r.tree.nodeCount.toNat := by
    induction hw with
    | init now => rfl
    | @receive w now1 now2 s _ _ _ ih =>
      unfold World.receive Collector.receive
      dsimp only
      by_cases h1 : s.trace = 0 ∨ s.id = 0
      · rw [if_pos h1]
        exact ih
      · rw [if_neg h1]
        by_cases h2 : w.c.blacklist.contains s.trace = true
        · rw [if_pos h2]
          exact ih
        · rw [if_neg h2]
          exact ih
    | @tick w i hw hv _ ih =>
      obtain ⟨f1, _, _, f4⟩ := finishLoop_eq w.c i
      obtain ⟨k, _, s1, _, _, ⟨ds, _, s4⟩, _⟩ := shed_eq w.c i
      dsimp only at *
      have hrem : (w.tick i).removed = w.removed ++ ((w.c.finishLoop i).2 ++ (i.sorted.take k).map (fun e => ⟨e.1, e.2, .discarded⟩)) := by
        show w.removed ++ (w.c.shed i).2 = _
        rw [s1]
      have hmet : (w.tick i).c.metrics = (w.c.shed i).1.metrics := rfl
      rw [hmet, s4, hrem, f1]
      have hc := foldl_count (removals (i.now1 - bufferTime (spanCountOf w.c.traces.toList))
        (i.now2 - 5 * bufferTime (spanCountOf w.c.traces.toList)) i.nowFake i.order) w.c.metrics
      dsimp only at hc ⊢
      rw [← f4] at hc
      obtain ⟨_, _, _, _, _, _, c7⟩ := hc
      rw [c7, ih]
      unfold closedOf
      rw [List.filter_append, List.filter_append, List.map_append]
      have e1 : ((i.sorted.take k).map (fun e => (⟨e.1, e.2, .discarded⟩ : Removal))).filter (fun r => match r.fate with | .discarded => false | _ => true) = [] := by
        rw [List.filter_eq_nil_iff]
        intro r hr
        obtain ⟨e, _, rfl⟩ := List.mem_map.mp hr
        simp
      rw [e1, List.append_nil]
      congr 2
      symm
      rw [List.filter_eq_self]
      intro r hr
      have := removals_not_discarded hr
      split <;> simp_all
  rw [key]
  apply List.map_congr_left
  intro r hr
  exact ((reachable_inv hw).gone r (List.mem_filter.mp hr).1).inv.count

/-- One span, received at time 0. -/
def single : World := World.receive { clock := 0 } 0 0 aheadParent

theorem single_reachable : Reachable single := .receive _ _ _ (.init 0) (by decide) (by decide)

/-- As first stated the property is false: at the tick that sends the only pending span, the gauge of pending spans is 1; and with 13 traces of 8192 spans, the gauge of pending traces is
too high. -/
theorem C141_fails :
    (∃ w, Reachable w ∧ ∃ i : TickInput, i.Valid w.c ∧ w.clock ≤ i.now1 ∧ (w.c.tick i).1.traces.size = 0 ∧ (w.c.tick i).1.metrics.spansInflight = 1) ∧
    (∃ w, Reachable w ∧ ∃ i : TickInput, i.Valid w.c ∧ w.clock ≤ i.now1 ∧ (w.c.tick i).1.traces.size < (w.c.tick i).1.metrics.tracesInflight) := by
  refine ⟨⟨single, single_reachable, sweepAt single.c 8000000000, sweepAt_valid _ _ (by decide +kernel), by decide +kernel, by decide +kernel, by decide +kernel⟩, ?_⟩
  obtain ⟨w, hw, i, hv, hc, hne, _⟩ := bursts_shed 13 8192 (by decide) (by decide) (by decide) (by decide)
  refine ⟨w, hw, i, hv, hc, ?_⟩
  have := List.length_pos_iff.mpr hne
  have h1 := (C141_gauges_partial hw hv).1
  omega

/-- A tick before the buffer time: nothing leaves, and both gauges are 1. The two traces of `tooLate` are in the histogram. -/
theorem C141_example :
    ((single.c.tick (sweepAt single.c 1000000000)).2.length = 0 ∧ (single.c.tick (sweepAt single.c 1000000000)).1.metrics.spansInflight = 1 ∧
      (single.c.tick (sweepAt single.c 1000000000)).1.metrics.tracesInflight = 1) ∧
    tooLate.c.metrics.tracesFinishedSize = [1, 1] ∧ inTime.c.metrics.tracesFinishedSize = [2] := by
  decide +kernel

end Verif
