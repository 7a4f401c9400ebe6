import Verif.Proofs.Isolation
import Verif.Props.Fair
import Verif.Props.Orders

/-!
# C165: a tick leaves nothing undone
-/

namespace Verif

open Spec Std

theorem counted_append (l l' : List (Id × Tree)) : counted (l ++ l') = counted l + counted l' := by
  unfold counted; rw [List.filter_append, List.map_append, List.sum_append]

theorem counted_le_total (l : List (Id × Tree)) : counted l ≤ total l := by
  unfold counted total
  induction l with
  | nil => exact Nat.le_refl _
  | cons e l ih =>
    rw [List.filter_cons, List.map_cons, List.sum_cons]
    split
    · rw [List.map_cons, List.sum_cons]; omega
    · omega

/-- A tick does not add spans. -/
theorem counted_tick {w : World} {i : TickInput} (hv : i.Valid w.c) : counted (w.tick i).c.traces.toList ≤ counted w.c.traces.toList := by
  rw [counted_perm (tick_partition w.c i hv), counted_append]
  exact Nat.le_add_left _ _

theorem bufferTime_mono {m n : Nat} (h : m ≤ n) : Spec.bufferTime n ≤ Spec.bufferTime m := by
  unfold Spec.bufferTime
  (repeat' split) <;> first | decide | omega

/-- C165: after a tick, no pending trace is too large, too old or idle, by the clock at this tick, at most 100000 spans are pending, and at most 1023 traces are blocked. The buffer time is the one that belongs to the load after the
tick, which is at least the one that was used. -/
theorem C165_done {w : World} (hw : Reachable w) {i : TickInput} (hv : i.Valid w.c) :
    let bt := Spec.bufferTime (counted (w.tick i).c.traces.toList)
    (∀ (k : Id) (t : Tree), (w.tick i).c.traces[k]? = some t → ¬ Large t ∧ ¬ Old i.now2 bt t ∧ ¬ Idle i.now1 bt t) ∧
    counted (w.tick i).c.traces.toList ≤ 100000 ∧ (w.tick i).c.blacklist.size ≤ 1023 := by
  intro bt
  have hinv := reachable_inv hw
  have hmono : Spec.bufferTime (counted w.c.traces.toList) ≤ bt := bufferTime_mono (counted_tick hv)
  refine ⟨fun k t ht => ?_, ?_, (tick_blacklist w.c i hv).1⟩
  · have ht0 := tick_keeps_tree hv ht
    obtain ⟨_, _, _, h⟩ := tick_fates hinv hv ht0
    obtain ⟨h1, h2, h3⟩ := h ht
    refine ⟨h1, ?_, ?_⟩
    · unfold Old at h2 ⊢; unfold Time at *; omega
    · unfold Idle at h3 ⊢; unfold Time at *; omega
  · by_cases hc : counted w.c.traces.toList ≤ 100000
    · exact Nat.le_trans (counted_tick hv) hc
    · obtain ⟨k, _, hp, _, _, _, hlt, _⟩ := tick_rest hinv hv
      have h := hlt (by omega)
      have e : total (w.tick i).c.traces.toList = total (i.sorted.drop k) := total_perm hp
      have := counted_le_total (w.tick i).c.traces.toList
      omega

/-- C165: so a second tick at the same time changes nothing: no trace leaves, and the same is pending and blocked. -/
theorem C165_again {w : World} (hw : Reachable w) {i : TickInput} (hv : i.Valid w.c) (hc : w.clock ≤ i.now1) {j : TickInput} (hj : j.Valid (w.tick i).c) (h1 : j.now1 = i.now1) (h2 : j.now2 = i.now2) :
    ((w.tick i).tick j).removed = (w.tick i).removed ∧ ((w.tick i).tick j).c.traces = (w.tick i).c.traces ∧ ((w.tick i).tick j).c.blacklist = (w.tick i).c.blacklist := by
  have hw' : Reachable (w.tick i) := .tick i hw hv hc
  obtain ⟨d1, d2, d3⟩ := C165_done hw hv
  generalize w.tick i = v at *
  have hinv := reachable_inv hw'
  have hnone : (v.c.tick j).2 = [] := by
    rw [List.eq_nil_iff_forall_not_mem]
    intro r hr
    obtain ⟨_, _, _, _, _, _, _, hmem⟩ := tick_eq _ j hj
    have ht := hmem r hr
    obtain ⟨n1, n2, n3⟩ := d1 _ _ ht
    obtain ⟨hf, _⟩ := tick_fates hinv hj ht
    rw [← h2] at n2
    rw [← h1] at n3
    rcases r with ⟨id, t, f⟩
    cases f with
    | tooLarge => exact n1 (hf.tooLarge.mp hr)
    | tooOld => exact n2 (hf.tooOld.mp hr).2
    | noRoot => exact n3 (hf.noRoot.mp hr).2.2.1
    | discarded =>
      have := (C49_load_shedding hw' hj hr rfl).1
      omega
    | stuck => exact hf.stuck hr
    | emitted out => exact n3 (hf.emitted.mp ⟨out, hr⟩).2.2.1
  refine ⟨?_, ?_, ?_⟩
  · show v.removed ++ (v.c.tick j).2 = _
    rw [hnone, List.append_nil]
  · apply ExtTreeMap.ext_getElem?
    intro k
    obtain ⟨_, _, _, htr, _⟩ := tick_eq v.c j hj
    show (v.c.tick j).1.traces[k]? = _
    rw [htr, hnone]; rfl
  · obtain ⟨_, _, b3, b4⟩ := tick_blacklist v.c j hj
    have e : (v.c.shed j).1.blacklist = v.c.blacklist := by
      apply ExtTreeMap.ext_getElem?
      intro k
      have := b4 k
      rw [hnone] at this
      cases hx : (v.c.shed j).1.blacklist[k]? with
      | none =>
        cases hy : v.c.blacklist[k]? with
        | none => rfl
        | some u => rw [this.mpr (Or.inl hy)] at hx; cases hx
      | some u =>
        rcases this.mp hx with h | ⟨r, hr, _⟩
        · exact h.symm
        · cases hr
    show (v.c.tick j).1.blacklist = _
    rw [b3 (by rw [e]; exact d3), e]

/-- C165: there are ticks at which traces leave, and other ticks are possible behind them. -/
theorem C165_witness : Reachable (flood twoTraces) ∧ (tickInOrder true).Valid (flood twoTraces).c ∧ (flood twoTraces).clock ≤ (tickInOrder true).now1 ∧
    ((flood twoTraces).tick (tickInOrder true)).removed.length = 2 ∧
    ∃ j : TickInput, j.Valid ((flood twoTraces).tick (tickInOrder true)).c ∧ j.now1 = (tickInOrder true).now1 ∧ j.now2 = (tickInOrder true).now2 := by
  obtain ⟨j, hj, h1, h2, _⟩ := exists_valid ((flood twoTraces).tick (tickInOrder true)).c 9000000000 9000000000 (fun _ => 0) (Int.le_refl _)
  exact ⟨flood_reachable _, twoTraces_valid true, by decide, by decide +kernel, j, hj, h1, h2⟩

end Verif
