import Verif.Spec.Orders
import Verif.Proofs.Isolation
import Verif.Proofs.Warnings
import Verif.Props.Collector

/-!
# C164: the orders of maps
-/

namespace Verif

open Spec Std

theorem Spec.Calmly.after {start : Time} {l : List Happening} {w : World} (h : Calmly start l w) : After start l w := by
  induction h with
  | start => exact .start
  | receive _ h1 h2 ih => exact .receive ih h1 h2
  | tick _ h1 h2 _ _ ih => exact .tick ih h1 h2

theorem after_reachable {start : Time} {l : List Happening} {w : World} (h : After start l w) : Reachable w := by
  induction h with
  | start => exact .init _
  | receive _ h1 h2 ih => exact .receive _ _ _ ih h1 h2
  | tick _ h1 h2 ih => exact .tick _ ih h1 h2

/-- What leaves in the loop over the traces, in two orders. -/
theorem removals_orders {c c' : Collector} (ht : c.traces = c'.traces) {i j : TickInput} (hi : i.Valid c) (hj : j.Valid c') (h1 : i.now1 = j.now1) (h2 : i.now2 = j.now2) :
    let bt := Verif.bufferTime (spanCountOf c.traces.toList)
    let bt' := Verif.bufferTime (spanCountOf c'.traces.toList)
    (removals (i.now1 - bt) (i.now2 - 5 * bt) i.nowFake i.order).Perm (removals (j.now1 - bt') (j.now2 - 5 * bt') j.nowFake j.order) := by
  intro bt bt'
  have hb : bt = bt' := by show Verif.bufferTime _ = Verif.bufferTime _; rw [ht]
  rw [← hb, ← h1, ← h2]
  have hp : i.order.Perm j.order := by
    have := hj.order
    rw [← ht] at this
    exact hi.order.trans this.symm
  unfold removals
  simp only [examine_clock _ _ j.nowFake i.nowFake]
  exact hp.filterMap _

theorem any_perm {α : Type} {l l' : List α} (h : l.Perm l') (p : α → Bool) : l.any p = l'.any p := by
  rw [Bool.eq_iff_iff, List.any_eq_true, List.any_eq_true]
  exact ⟨fun ⟨x, hx, hp⟩ => ⟨x, h.mem_iff.mp hx, hp⟩, fun ⟨x, hx, hp⟩ => ⟨x, h.mem_iff.mpr hx, hp⟩⟩

theorem finishLoop_traces {c c' : Collector} (ht : c.traces = c'.traces) {i j : TickInput} (hi : i.Valid c) (hj : j.Valid c') (h1 : i.now1 = j.now1) (h2 : i.now2 = j.now2) :
    (c.finishLoop i).1.traces = (c'.finishLoop j).1.traces := by
  have hp := removals_orders ht hi hj h1 h2
  obtain ⟨_, f2, _, _⟩ := finishLoop_eq c i
  obtain ⟨_, g2, _, _⟩ := finishLoop_eq c' j
  apply ExtTreeMap.ext_getElem?
  intro k
  rw [f2, g2, any_perm hp, ht]

theorem finishLoop_blacklist {c c' : Collector} (ht : c.traces = c'.traces) (hb : c.blacklist = c'.blacklist) {i j : TickInput} (hi : i.Valid c) (hj : j.Valid c')
    (h1 : i.now1 = j.now1) (h2 : i.now2 = j.now2) : (c.finishLoop i).1.blacklist = (c'.finishLoop j).1.blacklist := by
  have hp := removals_orders ht hi hj h1 h2
  obtain ⟨_, _, f3, _⟩ := finishLoop_eq c i
  obtain ⟨_, _, g3, _⟩ := finishLoop_eq c' j
  apply ExtTreeMap.ext_getElem?
  intro k
  rw [f3, g3, any_perm hp, hb]

/-- What leaves for another reason than load. -/
def notDiscarded (l : List Removal) : List Removal := l.filter fun r => match r.fate with | .discarded => false | _ => true

theorem notDiscarded_tick (c : Collector) (i : TickInput) (hv : i.Valid c) :
    let bt := Verif.bufferTime (spanCountOf c.traces.toList)
    notDiscarded (c.tick i).2 = removals (i.now1 - bt) (i.now2 - 5 * bt) i.nowFake i.order := by
  intro bt
  obtain ⟨k, _, hT, _⟩ := tick_eq c i hv
  rw [hT]
  unfold notDiscarded
  rw [List.filter_append, List.filter_eq_self.mpr, List.filter_eq_nil_iff.mpr, List.append_nil]
  · intro r hr
    obtain ⟨e, _, rfl⟩ := List.mem_map.mp hr
    simp
  · intro r hr
    have := finishLine_fate (mem_removals.mp hr).2
    cases hf : r.fate <;> simp_all

/-- C164: at a tick, the traces that leave because they are finished, too large, too old or without a unique root are the same in every order of the maps, with the same spans; that only depends on what is pending
and on the time, also under load. -/
theorem C164_tick {c : Collector} {i j : TickInput} (hi : i.Valid c) (hj : j.Valid c) (h1 : i.now1 = j.now1) (h2 : i.now2 = j.now2) :
    (notDiscarded (c.tick i).2).Perm (notDiscarded (c.tick j).2) := by
  rw [notDiscarded_tick c i hi, notDiscarded_tick c j hj]
  exact removals_orders rfl hi hj h1 h2

/-- The sizes of the traces in the order in which they would be discarded. -/
theorem sizes_sorted {w : World} (hw : WInv w) {i : TickInput} (hv : i.Valid w.c) : (i.sorted.map fun e => size e.2).Pairwise (· ≥ ·) := by
  obtain ⟨_, _, _, _, _, _, _, _, _, hs⟩ := tick_rest hw hv
  rw [List.pairwise_map]
  refine hv.desc.imp_of_mem ?_
  intro a b ha hb hab
  have e1 := (hw.trees _ _ (hs a ha)).inv.count
  have e2 := (hw.trees _ _ (hs b hb)).inv.count
  have : b.2.nodeCount.toNat ≤ a.2.nodeCount.toNat := hab
  show size b.2 ≤ size a.2
  unfold size
  omega

theorem total_drop (l : List (Id × Tree)) (k : Nat) : total (l.drop k) = ((l.map fun e => size e.2).drop k).sum := by
  unfold total; rw [List.map_drop]

/-- C164: under load, which traces are discarded depends on the order; but their number and their sizes do not, and neither do those of the traces that stay. So the order only decides between traces of the same size. -/
theorem C164_load {w : World} (hw : Reachable w) {i j : TickInput} (hi : i.Valid w.c) (hj : j.Valid w.c) (h1 : i.now1 = j.now1) (h2 : i.now2 = j.now2) :
    ((discardedOf (w.c.tick i).2).map fun r => size r.tree).Perm ((discardedOf (w.c.tick j).2).map fun r => size r.tree) ∧
    ((w.c.tick i).1.traces.toList.map fun e => size e.2).Perm ((w.c.tick j).1.traces.toList.map fun e => size e.2) := by
  have hinv := reachable_inv hw
  have hsz : (i.sorted.map fun e => size e.2) = j.sorted.map fun e => size e.2 := by
    refine List.Perm.eq_of_pairwise (le := (· ≥ ·)) (fun a b _ _ h h' => Nat.le_antisymm h' h) (sizes_sorted hinv hi) (sizes_sorted hinv hj) ?_
    refine List.Perm.map _ ?_
    have := hj.sorted
    rw [← finishLoop_traces rfl hi hj h1 h2] at this
    exact hi.sorted.trans this.symm
  have hlen : i.sorted.length = j.sorted.length := by simpa using congrArg List.length hsz
  obtain ⟨k, hk, p1, d1, z1, a1, b1, _, _, _⟩ := tick_rest hinv hi
  obtain ⟨k', hk', p2, d2, z2, a2, b2, _, _, _⟩ := tick_rest hinv hj
  simp only [total_drop] at a1 b1 a2 b2
  rw [hsz] at a1 b1
  have hkk : k = k' := by
    by_cases hc : counted w.c.traces.toList ≤ 100000
    · rw [z1 hc, z2 hc]
    · have b1 := b1 (by omega)
      have b2 := b2 (by omega)
      rcases Nat.lt_trichotomy k k' with h | h | h
      · have := a2 k h; omega
      · exact h
      · have := a1 k' h; omega
  subst hkk
  have key : ∀ {i : TickInput}, i.Valid w.c → (∀ r : Removal, r ∈ (w.c.tick i).2 ∧ r.fate = .discarded ↔ r ∈ (i.sorted.take k).map (fun e => ⟨e.1, e.2, .discarded⟩)) →
      ((discardedOf (w.c.tick i).2).map fun r => size r.tree).Perm ((i.sorted.map fun e => size e.2).take k) := by
    intro i hv d
    obtain ⟨_, _, _, _, _, _, hnd, _⟩ := tick_eq w.c i hv
    have hp : (discardedOf (w.c.tick i).2).Perm ((i.sorted.take k).map fun e => (⟨e.1, e.2, .discarded⟩ : Removal)) := by
      rw [List.perm_ext_iff_of_nodup]
      · intro r
        rw [← d r]
        unfold discardedOf
        rw [List.mem_filter]
        refine and_congr_right fun _ => ?_
        cases r.fate <;> simp
      · unfold discardedOf
        refine List.Nodup.sublist List.filter_sublist ?_
        have := hnd
        rw [List.Nodup, List.pairwise_map] at this
        exact this.imp fun h e => h (congrArg Removal.id e)
      · have := range_keys_nodup hv.sorted
        rw [List.Nodup, List.pairwise_map] at this ⊢
        exact (this.sublist (List.take_sublist k _)).imp fun h e => h (congrArg Removal.id e)
    refine (hp.map _).trans ?_
    rw [List.map_map, ← List.map_take]
    exact List.Perm.refl _
  refine ⟨?_, ?_⟩
  · refine (key hi d1).trans ?_
    rw [hsz]
    exact (key hj d2).symm
  · refine (p1.map _).trans ?_
    rw [List.map_drop, hsz, ← List.map_drop]
    exact (p2.map _).symm

theorem receive_same {w w' : World} (h : SameButOrder w w') (now1 now2 : Time) (s : Span) : SameButOrder (w.receive now1 now2 s) (w'.receive now1 now2 s) := by
  obtain ⟨h1, h2, h3, h4, _, h6⟩ := h
  refine ⟨?_, ?_, ?_, ?_, rfl, h6⟩
  · show (w.c.receive now1 now2 s).traces = (w'.c.receive now1 now2 s).traces
    unfold Collector.receive
    rw [← h2, ← h1]
    split
    · exact h1
    · split <;> rfl
  · show (w.c.receive now1 now2 s).blacklist = (w'.c.receive now1 now2 s).blacklist
    unfold Collector.receive
    rw [← h2]
    split
    · exact h2
    · split <;> rfl
  · show w.received ++ [s] = w'.received ++ [s]
    rw [h3]
  · show (if _ then _ else _) = (if _ then _ else _)
    rw [h2, h4]

theorem tick_same {w w' : World} (hw : WInv w) (h : SameButOrder w w') {i j : TickInput} (hi : i.Valid w.c) (hj : j.Valid w'.c) (h1 : i.now1 = j.now1) (h2 : i.now2 = j.now2)
    (hc : counted w.c.traces.toList ≤ 100000) (hb : FewBlocked (w.tick i)) : SameButOrder (w.tick i) (w'.tick j) := by
  have hcnt : spanCountOf w.c.traces.toList = counted w.c.traces.toList := spanCountOf_eq hw.inv
  have hcnt' : spanCountOf w'.c.traces.toList ≤ 100000 := by rw [← h.traces, hcnt]; exact hc
  obtain ⟨f1, f2, f3, _⟩ := finishLoop_eq w.c i
  obtain ⟨g1, _, _, _⟩ := finishLoop_eq w'.c j
  obtain ⟨n, _, s1, s2, s3, _, s5, _, _⟩ := shed_eq w.c i
  obtain ⟨n', _, t1, t2, t3, _, t5, _, _⟩ := shed_eq w'.c j
  dsimp only at *
  obtain rfl : n = 0 := s5 (by rw [hcnt]; exact hc)
  obtain rfl : n' = 0 := t5 hcnt'
  have hp := removals_orders h.traces hi hj h1 h2
  dsimp only at hp
  have e2 : (w.c.tick i).2 = removals (i.now1 - Verif.bufferTime (spanCountOf w.c.traces.toList)) (i.now2 - 5 * Verif.bufferTime (spanCountOf w.c.traces.toList)) i.nowFake i.order := by
    show (w.c.shed i).2 = _
    rw [s1, f1]; simp
  have e2' : (w'.c.tick j).2 = removals (j.now1 - Verif.bufferTime (spanCountOf w'.c.traces.toList)) (j.now2 - 5 * Verif.bufferTime (spanCountOf w'.c.traces.toList)) j.nowFake j.order := by
    show (w'.c.shed j).2 = _
    rw [t1, g1]; simp
  have hbl := finishLoop_blacklist h.traces h.blacklist hi hj h1 h2
  have hfew : (w.c.finishLoop i).1.blacklist.size < 1024 := by
    refine Nat.lt_succ_of_le (Nat.le_trans (size_le_blocked fun k hk => ?_) hb)
    show ∃ r ∈ w.removed ++ (w.c.tick i).2, _
    rw [e2]
    rw [f3] at hk
    split at hk
    · next ha =>
      obtain ⟨r, hr, h⟩ := List.any_eq_true.mp ha
      rw [Bool.and_eq_true] at h
      exact ⟨r, List.mem_append_right _ hr, by simpa using h.1, (isBlacklisted_iff r).mp h.2⟩
    · obtain ⟨r, hr, hid, hf⟩ := hw.blocked k hk
      refine ⟨r, List.mem_append_left _ hr, hid, ?_⟩
      unfold Blocked
      rcases hf with hf | hf <;> rw [hf] <;> trivial
  refine ⟨?_, ?_, h.received, h.refused, h2, ?_⟩
  · apply ExtTreeMap.ext_getElem?
    intro k
    show (w.c.shed i).1.traces[k]? = (w'.c.shed j).1.traces[k]?
    rw [s2, t2, finishLoop_traces h.traces hi hj h1 h2]; simp
  · show trimBlacklist i.blOrder (w.c.shed i).1.blacklist = trimBlacklist j.blOrder (w'.c.shed j).1.blacklist
    rw [s3, t3, trimBlacklist_few hfew, trimBlacklist_few (by rw [← hbl]; exact hfew), hbl]
  · show (w.removed ++ (w.c.tick i).2).Perm (w'.removed ++ (w'.c.tick j).2)
    rw [e2, e2']
    exact h.removed.append hp

/-- C164, in part: if the same spans are received at the same times, then in all orders of the maps the same traces leave for the same reasons with the same spans, and the same is pending, blocked and refused; unless there
are more than 100000 spans at a tick, or more than 1023 traces were blacklisted. -/
theorem C164_partial {start : Time} {l : List Happening} {w w' : World} (h : Calmly start l w) (h' : After start l w') : SameButOrder w w' := by
  induction h generalizing w' with
  | start => cases h'; exact ⟨rfl, rfl, rfl, rfl, rfl, List.Perm.refl _⟩
  | receive _ _ _ ih => cases h' with | receive h' _ _ => exact receive_same (ih h') _ _ _
  | @tick l w i hw hv hc h1 h2 ih =>
    generalize hg : Happening.tick i.now1 i.now2 i.nowFake = g at h'
    cases h' with
    | receive _ _ _ => cases hg
    | @tick _ w₀ j h' hv' _ =>
      injection hg with e1 e2 e3
      exact tick_same (reachable_inv (after_reachable hw.after)) (ih h') hv hv' e1 e2 h1 h2

/-- C164: so the same traces are sent, though not necessarily in the same order. -/
theorem C164_sent {start : Time} {l : List Happening} {w w' : World} (h : Calmly start l w) (h' : After start l w') : (emittedOf w.removed).Perm (emittedOf w'.removed) :=
  (C164_partial h h').removed.filterMap _

/-- C164: and the meters for the reasons for which traces left and for refused spans show the same. -/
theorem C164_meters {start : Time} {l : List Happening} {w w' : World} (h : Calmly start l w) (h' : After start l w') :
    w.c.metrics.tracesTooLarge = w'.c.metrics.tracesTooLarge ∧ w.c.metrics.tracesTooOld = w'.c.metrics.tracesTooOld ∧ w.c.metrics.tracesWithoutRoot = w'.c.metrics.tracesWithoutRoot ∧
    w.c.metrics.tracesFinished = w'.c.metrics.tracesFinished ∧ w.c.metrics.tracesCorrected = w'.c.metrics.tracesCorrected ∧
    w.c.metrics.receivedBlacklistedSpan = w'.c.metrics.receivedBlacklistedSpan := by
  have hs := C164_partial h h'
  obtain ⟨a1, a2, a3, a4, a5, a6⟩ := C62_meters (after_reachable h.after)
  obtain ⟨b1, b2, b3, b4, b5, b6⟩ := C62_meters (after_reachable h')
  have hf : ∀ p, fates p w.removed = fates p w'.removed := fun p => by
    unfold fates
    exact (hs.removed.filter _).length_eq
  rw [a1, a2, a3, a4, a5, a6, b1, b2, b3, b4, b5, b6, hs.refused]
  exact ⟨hf _, hf _, hf _, (C164_sent h h').length_eq, (C164_sent h h').length_eq, rfl⟩

/-! ## Under load -/

/-- The spans are received at time 0. -/
theorem after_flood (l : List Span) : After 0 (l.reverse.map (Happening.receive 0 0)) (flood l) := by
  induction l using list_snoc_induction with
  | h0 => exact .start
  | h1 l s ih =>
    rw [flood_append, List.reverse_append]
    exact .receive ih (by rw [flood_clock]) (Int.le_refl _)

/-- Thirteen traces of 8192 spans, at the time they arrived: nothing leaves but what is discarded. -/
theorem bursts_nothing {i : TickInput} (hv : i.Valid (flood (bursts 13 8192)).c) (t1 : i.now1 = 0) (t2 : i.now2 = 0) {r : Removal} (hr : r ∈ ((flood (bursts 13 8192)).c.tick i).2) : r.fate = .discarded := by
  obtain ⟨hget, hpend, _, _⟩ := bursts_pending 13 8192 (by decide) (by decide) (by decide)
  have hw := flood_reachable (bursts 13 8192)
  obtain ⟨_, _, _, _, _, _, _, hmem⟩ := tick_eq _ i hv
  have ht := hmem r hr
  obtain ⟨hf, _⟩ := tick_fates (reachable_inv hw) hv ht
  obtain ⟨j, hj, hid, htree⟩ := (hget _ _).mp ht
  obtain ⟨g1, g2, g3⟩ := gathered_props r.id (burst r.id 8192) (burst_nodup _ _ (by decide))
  have hne : burst r.id 8192 ≠ [] := by
    intro he
    have := congrArg List.length he
    simp [burst] at this
  have hnl : ¬ Large r.tree := (hpend _ ((mem_range (isRange_refl _)).mpr ht)).2
  have hbt : 2000000000 ≤ Spec.bufferTime (counted (flood (bursts 13 8192)).c.traces.toList) := by
    unfold Spec.bufferTime
    (repeat' split) <;> decide
  have a1 : ∀ b : Int, 2000000000 ≤ b → ¬ ((0 : Int) < 0 - 5 * b) := by intro b _; omega
  have a2 : ∀ b : Int, 2000000000 ≤ b → ¬ (0 : Int) ≤ 0 - b := by intro b _; omega
  have hno : ¬ Old i.now2 (Spec.bufferTime (counted (flood (bursts 13 8192)).c.traces.toList)) r.tree := by
    unfold Old; rw [htree, g2, t2]; exact a1 _ hbt
  have hni : ¬ Idle i.now1 (Spec.bufferTime (counted (flood (bursts 13 8192)).c.traces.toList)) r.tree := by
    unfold Idle; rw [htree, g3 hne, t1]; exact a2 _ hbt
  rcases r with ⟨id, t, f⟩
  cases f with
  | tooLarge => exact absurd (hf.tooLarge.mp hr) hnl
  | tooOld => exact absurd (hf.tooOld.mp hr).2 hno
  | noRoot => exact absurd (hf.noRoot.mp hr).2.2.1 hni
  | discarded => rfl
  | stuck => exact absurd hr hf.stuck
  | emitted out => exact absurd (hf.emitted.mp ⟨out, hr⟩).2.2.1 hni

/-- Of these traces the first one in the order is discarded. -/
theorem bursts_first {i : TickInput} (hv : i.Valid (flood (bursts 13 8192)).c) (t1 : i.now1 = 0) (t2 : i.now2 = 0) :
    i.sorted.length = 13 ∧ (∀ e ∈ i.sorted, size e.2 = 8192) ∧ (∀ id, (∃ r ∈ ((flood (bursts 13 8192)).c.tick i).2, r.id = id) ↔ ∃ e ∈ i.sorted.take 1, e.1 = id) := by
  obtain ⟨hget, hpend, hlength, hcount⟩ := bursts_pending 13 8192 (by decide) (by decide) (by decide)
  have hw := flood_reachable (bursts 13 8192)
  have hinv := reachable_inv hw
  obtain ⟨k, hk, hp, hd, _, ha, hb, _, _, hs⟩ := tick_rest hinv hv
  have hsz : ∀ e ∈ i.sorted, size e.2 = 8192 := fun e he => (hpend e ((mem_range (isRange_refl _)).mpr (hs e he))).1
  have hlen : i.sorted.length = 13 := by
    have h1 := (tick_partition _ i hv).length_eq
    rw [hlength, List.length_append, List.length_map, hp.length_eq, List.length_drop] at h1
    have h2 : ((flood (bursts 13 8192)).c.tick i).2.Perm ((i.sorted.take k).map fun e => (⟨e.1, e.2, .discarded⟩ : Removal)) := by
      obtain ⟨_, _, _, _, _, _, hnd, _⟩ := tick_eq _ i hv
      rw [List.perm_ext_iff_of_nodup]
      · intro r
        rw [← hd r]
        exact ⟨fun h => ⟨h, bursts_nothing hv t1 t2 h⟩, fun h => h.1⟩
      · rw [List.Nodup, List.pairwise_map] at hnd
        exact hnd.imp fun h e => h (congrArg Removal.id e)
      · have := range_keys_nodup hv.sorted
        rw [List.Nodup, List.pairwise_map] at this ⊢
        exact (this.sublist (List.take_sublist k _)).imp fun h e => h (congrArg Removal.id e)
    have h3 := h2.length_eq
    rw [List.length_map, List.length_take] at h3
    omega
  have htot : ∀ j, total (i.sorted.drop j) = (13 - j) * 8192 := by
    intro j
    rw [total_equal _ fun e he => hsz e (List.mem_of_mem_drop he), List.length_drop, hlen]
  have hk1 : k = 1 := by
    have := hb (by rw [hcount]; decide)
    rw [htot] at this
    rcases Nat.lt_trichotomy k 1 with h | h | h
    · have : k = 0 := by omega
      subst this
      omega
    · exact h
    · have := ha 1 h
      rw [htot] at this
      omega
  subst hk1
  refine ⟨hlen, hsz, fun id => ⟨fun ⟨r, hr, he⟩ => ?_, fun ⟨e, he, hid⟩ => ?_⟩⟩
  · obtain ⟨e, he', hre⟩ := List.mem_map.mp ((hd r).mp ⟨hr, bursts_nothing hv t1 t2 hr⟩)
    exact ⟨e, he', by rw [← he, ← hre]⟩
  · exact ⟨_, ((hd ⟨e.1, e.2, .discarded⟩).mpr (List.mem_map.mpr ⟨e, he, rfl⟩)).1, hid⟩

theorem tick_left {w : World} {i j : TickInput} (h : (w.tick i).removed.Perm (w.tick j).removed) : (w.c.tick i).2.Perm (w.c.tick j).2 := (List.perm_append_left_iff _).mp h

/-- C164 does not hold in general: of thirteen traces of the same size one is discarded, and the order decides which one. -/
theorem C164_fails : ¬ ∀ (start : Time) (l : List Happening) (w w' : World), After start l w → After start l w' → w.removed.Perm w'.removed := by
  intro hall
  obtain ⟨i, hv, t1, t2, t3⟩ := exists_valid (flood (bursts 13 8192)).c 0 0 (fun _ => 0) (Int.le_refl _)
  obtain ⟨hlen, hsz, hfirst⟩ := bursts_first hv t1 t2
  have hinv := reachable_inv (flood_reachable (bursts 13 8192))
  obtain ⟨_, _, _, _, _, _, _, _, _, hs⟩ := tick_rest hinv hv
  let j : TickInput := { i with sorted := i.sorted.reverse }
  have hvj : j.Valid (flood (bursts 13 8192)).c := by
    refine ⟨hv.order, (List.reverse_perm _).trans hv.sorted, ?_, ?_, hv.clock⟩
    · show i.sorted.reverse.Pairwise _
      refine List.Pairwise.imp_of_mem ?_ (List.pairwise_of_forall (R := fun _ _ => True) fun _ _ => trivial)
      intro a b ha hb _
      have ha := List.mem_reverse.mp ha
      have hb := List.mem_reverse.mp hb
      have e1 := (hinv.trees _ _ (hs a ha)).inv.count
      have e2 := (hinv.trees _ _ (hs b hb)).inv.count
      have z1 := hsz a ha
      have z2 := hsz b hb
      unfold size at z1 z2
      show b.2.nodeCount.toNat ≤ a.2.nodeCount.toNat
      omega
    · obtain ⟨_, _, _, _, s3, _⟩ := shed_eq (flood (bursts 13 8192)).c i
      obtain ⟨_, _, _, _, s3', _⟩ := shed_eq (flood (bursts 13 8192)).c j
      have := hv.blOrder
      rw [s3] at this
      rw [s3']
      exact this
  obtain ⟨_, _, hfirst'⟩ := bursts_first hvj t1 t2
  have hc : (flood (bursts 13 8192)).clock ≤ i.now1 := by rw [flood_clock, t1]
  have a1 := After.tick (after_flood (bursts 13 8192)) hv hc
  have a2 := After.tick (after_flood (bursts 13 8192)) hvj hc
  have hp := hall _ _ _ _ a1 a2
  have hp' := tick_left hp
  have hn := range_keys_nodup hv.sorted
  have hj : j.sorted = i.sorted.reverse := rfl
  clear_value j
  clear hall hs hvj hv hsz a1 a2 hp
  generalize i.sorted = l at *
  match l, hlen with
  | a :: b :: l, hlen =>
    obtain ⟨r, hr, hid⟩ := (hfirst a.1).mpr ⟨a, by simp, rfl⟩
    obtain ⟨e, he, hid'⟩ := (hfirst' a.1).mp ⟨r, hp'.mem_iff.mp hr, hid⟩
    rw [hj] at he
    have hrev : (a :: b :: l).reverse = ((b :: l).reverse) ++ [a] := by simp
    have hpos : 1 ≤ (b :: l).reverse.length := by simp
    rw [hrev, List.take_append_of_le_length hpos] at he
    have he := List.mem_reverse.mp (List.mem_of_mem_take he)
    rw [List.map_cons, List.nodup_cons] at hn
    exact hn.1 (List.mem_map.mpr ⟨e, he, hid'⟩)

/-! ## Two traces -/

def twoTraces : List Span := [{ id := 7, trace := 7 }, { id := 8, trace := 8 }]

/-- A tick at nine seconds, which iterates over the traces in one order or the other. -/
def tickInOrder (other : Bool) : TickInput :=
  let i : TickInput :=
    { now1 := 9000000000, now2 := 9000000000, nowFake := fun _ => 0, sorted := [], blOrder := [],
      order := if other then (flood twoTraces).c.traces.toList.reverse else (flood twoTraces).c.traces.toList }
  { i with blOrder := ((flood twoTraces).c.shed i).1.blacklist.toList }

theorem twoTraces_valid (other : Bool) : (tickInOrder other).Valid (flood twoTraces).c := by
  refine ⟨?_, ?_, List.Pairwise.nil, isRange_refl _, Int.le_refl _⟩
  · cases other
    · exact isRange_refl (flood twoTraces).c.traces
    · exact List.reverse_perm (flood twoTraces).c.traces.toList
  · have : ((flood twoTraces).c.finishLoop (tickInOrder other)).1.traces.toList.length = 0 := by cases other <;> decide +kernel
    show List.Perm [] _
    rw [List.length_eq_zero_iff.mp this]

theorem twoTraces_calm (other : Bool) : Calmly 0 (.tick 9000000000 9000000000 (fun _ => 0) :: twoTraces.reverse.map (Happening.receive 0 0)) ((flood twoTraces).tick (tickInOrder other)) := by
  refine Calmly.tick (i := tickInOrder other) (.receive (.receive .start (by decide) (by decide)) (by decide) (by decide)) (twoTraces_valid other) (by cases other <;> decide) (by decide +kernel) ?_
  unfold FewBlocked
  cases other <;> decide +kernel

/-- C164: there are histories without load in which traces are sent, and the order in which they leave does depend on the order of the map. -/
theorem C164_witness :
    (∀ other, Calmly 0 (.tick 9000000000 9000000000 (fun _ => 0) :: twoTraces.reverse.map (Happening.receive 0 0)) ((flood twoTraces).tick (tickInOrder other))) ∧
    (emittedOf ((flood twoTraces).tick (tickInOrder false)).removed).map (·.map Span.id) = [[7], [8]] ∧
    (emittedOf ((flood twoTraces).tick (tickInOrder true)).removed).map (·.map Span.id) = [[8], [7]] :=
  ⟨twoTraces_calm, by decide +kernel, by decide +kernel⟩

end Verif
