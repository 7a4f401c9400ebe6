import Verif.Proofs.Isolation
import Verif.Props.Together

/-!
# C89: traces do not influence each other
-/

namespace Verif

open Spec

/-- C89: what the collector has stored, refused and sent for a trace depends only on the spans of this trace and on the ticks, as long as there is no load. -/
theorem C89_isolated {k : Id} {w w' : World} (h : Alike k w w') :
    w.c.traces[k]? = w'.c.traces[k]? ∧ w.c.blacklist[k]? = w'.c.blacklist[k]? ∧
    w.removed.filter (fun r => r.id == k) = w'.removed.filter (fun r => r.id == k) ∧
    w.refused.filter (fun s => s.trace == k) = w'.refused.filter (fun s => s.trace == k) ∧
    sentFor k w = sentFor k w' := by
  suffices hs : w.c.traces[k]? = w'.c.traces[k]? ∧ w.c.blacklist[k]? = w'.c.blacklist[k]? ∧
      w.removed.filter (fun r => r.id == k) = w'.removed.filter (fun r => r.id == k) ∧
      w.refused.filter (fun s => s.trace == k) = w'.refused.filter (fun s => s.trace == k) by
    refine ⟨hs.1, hs.2.1, hs.2.2.1, hs.2.2.2, ?_⟩
    unfold sentFor
    rw [hs.2.2.1]
  induction h with
  | init now now' => exact ⟨rfl, rfl, rfl, rfl⟩
  | @left w w' now1 now2 s _ _ _ hk ih =>
    obtain ⟨h1, h2, h3, h4⟩ := receive_one (w := w) now1 now2 s k
    rw [if_neg (fun h => hk h.2.1)] at h1 h3
    rw [h1, h2, h3, h4, List.append_nil]
    exact ih
  | @right w w' now1 now2 s _ _ _ hk ih =>
    obtain ⟨h1, h2, h3, h4⟩ := receive_one (w := w') now1 now2 s k
    rw [if_neg (fun h => hk h.2.1)] at h1 h3
    rw [h1, h2, h3, h4, List.append_nil]
    exact ih
  | @both w w' now1 now2 s _ _ _ _ hk ih =>
    obtain ⟨h1, h2, h3, h4⟩ := receive_one (w := w) now1 now2 s k
    obtain ⟨h1', h2', h3', h4'⟩ := receive_one (w := w') now1 now2 s k
    obtain ⟨i1, i2, i3, i4⟩ := ih
    rw [h1, h2, h3, h4, h1', h2', h3', h4', i1, i2, i4]
    exact ⟨rfl, rfl, i3, rfl⟩
  | @tick w w' i i' ha hv hv' _ _ e1 e2 hbt hc hc' hb hb' ih =>
    obtain ⟨hw, hw'⟩ := ha.reachable
    obtain ⟨g1, g2, g3⟩ := tick_one (reachable_inv hw) hv hc hb k
    obtain ⟨g1', g2', g3'⟩ := tick_one (reachable_inv hw') hv' hc' hb' k
    obtain ⟨i1, i2, i3, i4⟩ := ih
    rw [← e1, ← e2, ← hbt, ← i1] at g1' g2' g3'
    refine ⟨?_, ?_, ?_, i4⟩
    · exact g2.trans g2'.symm
    · rw [i2] at g3
      exact g3.trans g3'.symm
    · show (w.removed ++ (w.c.tick i).2).filter _ = (w'.removed ++ (w'.c.tick i').2).filter _
      rw [List.filter_append, List.filter_append, g1, g1', i3]

/-! ## Witnesses -/

theorem sent_of_emitted {w : World} {k : Id} {t : Tree} {out : List Span} (h : ⟨k, t, .emitted out⟩ ∈ w.removed) : out ∈ sentFor k w :=
  List.mem_filterMap.mpr ⟨_, List.mem_filter.mpr ⟨h, by simp⟩, rfl⟩

/-- Two different histories that are alike for the trace 5, which is sent. -/
example : ∃ w w', Alike 5 w w' ∧ w.received.length = 1 ∧ w'.received.length = 2 ∧ sentFor 5 w ≠ [] := by
  let y : Span := { id := 1, trace := 9 }
  have a1 : Alike 5 (World.receive { clock := 0 } 0 0 exA) (World.receive (World.receive { clock := 0 } 0 0 y) 0 0 exA) :=
    .both 0 0 exA (.right 0 0 y (.init 0 0) (Int.le_refl _) (Int.le_refl _) (by decide)) (Int.le_refl _) (Int.le_refl _) (Int.le_refl _) rfl
  obtain ⟨hw, hw'⟩ := a1.reachable
  have hbl : (World.receive { clock := 0 } 0 0 exA).c.blacklist[(5 : Id)]? = none := by
    refine blacklist_none (reachable_inv hw) ?_
    intro r hr
    contradiction
  have ht := receive_traces (w := { clock := 0 }) 0 0 exA 5 (by simp)
  rw [if_pos (by decide)] at ht
  have f1 := (newTree 0 5).addSpan_members 0 exA
  obtain ⟨_, f2, f3⟩ := (newTree 0 5).addSpan_fields 0 exA
  change (World.receive { clock := 0 } 0 0 exA).c.traces[(5 : Id)]? = some ((newTree 0 5).addSpan 0 exA) at ht
  have hc := counted_le (reachable_inv hw)
  have hc' := counted_le (reachable_inv hw')
  have l1 : (World.receive { clock := 0 } 0 0 exA).received.length = 1 := rfl
  have l2 : (World.receive (World.receive { clock := 0 } 0 0 y) 0 0 exA).received.length = 2 := rfl
  have hrem : (World.receive { clock := 0 } 0 0 exA).removed = [] := rfl
  have hrem' : (World.receive (World.receive { clock := 0 } 0 0 y) 0 0 exA).removed = [] := rfl
  have c1 : (World.receive { clock := 0 } 0 0 exA).clock = 0 := rfl
  have c2 : (World.receive (World.receive { clock := 0 } 0 0 y) 0 0 exA).clock = 0 := rfl
  generalize World.receive { clock := 0 } 0 0 exA = w at *
  generalize World.receive (World.receive { clock := 0 } 0 0 y) 0 0 exA = w' at *
  generalize (newTree 0 5).addSpan 0 exA = t at *
  obtain ⟨i, hv, h1, h2, _⟩ := exists_valid w.c 8000000000 8000000000 (fun _ => 0) (Int.le_refl _)
  obtain ⟨i', hv', h1', h2', _⟩ := exists_valid w'.c 8000000000 8000000000 (fun _ => 0) (Int.le_refl _)
  -- no more traces leave than there are
  have few : ∀ {v : World}, Reachable v → v.received.length ≤ 2 → FewBlocked v := by
    intro v hr hl
    have hp := (reachable_inv hr).conserved.length_eq
    have e : ∀ l : List Removal, (∀ r ∈ l, r.tree.members ≠ []) → l.length ≤ (l.flatMap fun r => r.tree.members).length := by
      intro l
      induction l with
      | nil => intro _; exact Nat.zero_le _
      | cons r l ih =>
        intro h
        have := ih fun r hr => h r (List.mem_cons_of_mem _ hr)
        have h0 := List.length_pos_iff.mpr (h r (by simp))
        rw [List.flatMap_cons, List.length_append, List.length_cons]
        omega
    have hg := (reachable_inv hr).gone
    have h3 := e v.removed fun r hr => (hg r hr).nonempty
    have h4 := List.length_filter_le (fun r => decide (Blocked r)) v.removed
    have h5 := List.length_filter_le (fun s => decide (Traced s)) v.received
    rw [List.length_append, List.length_append] at hp
    unfold FewBlocked
    omega
  have r1 : Reachable (w.tick i) := .tick i hw hv (by rw [c1, h1]; decide)
  have r2 : Reachable (w'.tick i') := .tick i' hw' hv' (by rw [c2, h1']; decide)
  have a2 : Alike 5 (w.tick i) (w'.tick i') :=
    .tick i i' a1 hv hv' (by rw [c1, h1]; decide) (by rw [c2, h1']; decide) (h1.trans h1'.symm) (h2.trans h2'.symm)
      (by unfold Spec.bufferTime; rw [if_pos (by omega), if_pos (by omega)]) (by omega) (by omega)
      (few r1 (by show w.received.length ≤ 2; omega)) (few r2 (by show w'.received.length ≤ 2; omega))
  refine ⟨_, _, a2, l1, l2, fun hs => ?_⟩
  obtain ⟨hf, _⟩ := tick_fates (reachable_inv hw) hv ht
  have ok := (reachable_inv hw).trees 5 t ht
  obtain ⟨b1, b2⟩ := bufferTime_bounds (counted w.c.traces.toList)
  generalize Spec.bufferTime (counted w.c.traces.toList) = bt at *
  obtain ⟨out, ho⟩ := hf.emitted.mpr ⟨not_large ok ⟨[5], by decide, by
      rw [f1]
      intro s hs
      have : s ∈ [exA] := hs
      rw [List.mem_singleton.mp this]; decide⟩,
    by
      unfold Old
      rw [f2, h2]
      show ¬ ((0 : Int) < 8000000000 - 5 * bt)
      simp only [Time] at *; omega,
    by
      unfold Idle
      rw [f3, h1]
      simp only [Time] at *; omega,
    rooted_members ok f1⟩
  have := sent_of_emitted (w := w.tick i) (List.mem_append_right _ ho)
  rw [hs] at this
  contradiction

/-- Under load this is not so: a trace that stays where it is alone is sent if 40000 spans of other traces were received, as the buffer time is shorter then. -/
theorem C89_load : ∃ l l' : List Span, receivedFor 1 l = receivedFor 1 l' ∧
    ∃ i i' : TickInput, i.Valid (flood l).c ∧ i'.Valid (flood l').c ∧ i.now1 = i'.now1 ∧ i.now2 = i'.now2 ∧ 0 ≤ i.now1 ∧
      sentFor 1 ((flood l).tick i) = [] ∧ sentFor 1 ((flood l').tick i') ≠ [] := by
  obtain ⟨r1, _⟩ := receivedFor_bursts 1 8000 (by decide) (by decide)
  obtain ⟨r1', _⟩ := receivedFor_bursts 6 8000 (by decide) (by decide)
  obtain ⟨hget, hpend, _, hcount⟩ := bursts_pending 1 8000 (by decide) (by decide) (by decide)
  obtain ⟨hget', hpend', _, hcount'⟩ := bursts_pending 6 8000 (by decide) (by decide) (by decide)
  have hw := flood_reachable (bursts 1 8000)
  have hw' := flood_reachable (bursts 6 8000)
  have ht := (hget 1 _).mpr ⟨0, by decide, rfl, rfl⟩
  have ht' := (hget' 1 _).mpr ⟨0, by decide, rfl, rfl⟩
  have hsmall : ∀ t, (flood (bursts 1 8000)).c.traces[(1 : Id)]? = some t → ¬ Large t := fun t h => (hpend (1, t) ((mem_range (isRange_refl _)).mpr h)).2
  have hnl := hsmall _ ht
  obtain ⟨g1, g2, g3⟩ := gathered_props 1 (burst 1 8000) (burst_nodup _ _ (by decide))
  have g3 := g3 (by
    intro he
    have := congrArg List.length he
    unfold burst at this
    rw [List.length_map, List.length_range, List.length_nil] at this
    omega)
  have hroot := burst_rooted 1 8000 (by decide) (by decide) (by decide)
  clear hpend hpend' hget hget'
  generalize gathered 1 (burst 1 8000) = t at *
  have hrem := (flood_spec (bursts 1 8000)).2.1
  refine ⟨bursts 1 8000, bursts 6 8000, (r1 0 (by decide)).trans (r1' 0 (by decide)).symm, ?_⟩
  obtain ⟨i, hv, h1, h2, _⟩ := exists_valid (flood (bursts 1 8000)).c 7000000000 7000000000 (fun _ => 0) (Int.le_refl _)
  obtain ⟨i', hv', h1', h2', _⟩ := exists_valid (flood (bursts 6 8000)).c 7000000000 7000000000 (fun _ => 0) (Int.le_refl _)
  have hstay := tick_keeps (reachable_inv hw) hv ht (by rw [hcount]; decide) hnl
    (by rw [hcount]; unfold Old; rw [g2, h2]; decide) (by rw [hcount]; unfold Idle; rw [g3, h1]; decide)
  obtain ⟨hf', _⟩ := tick_fates (reachable_inv hw') hv' ht'
  rw [hcount'] at hf'
  generalize flood (bursts 1 8000) = w at *
  generalize flood (bursts 6 8000) = w' at *
  refine ⟨i, i', hv, hv', h1.trans h1'.symm, h2.trans h2'.symm, by rw [h1]; decide, ?_, fun hs => ?_⟩
  · obtain ⟨_, _, _, htr, _⟩ := tick_eq w.c i hv
    have hn := htr 1
    rw [hstay] at hn
    have hno : (w.c.tick i).2.any (fun r => r.id == 1) = false := by
      cases ha : (w.c.tick i).2.any (fun r => r.id == 1) with
      | false => rfl
      | true => rw [ha] at hn; contradiction
    unfold sentFor
    show emittedOf ((w.removed ++ (w.c.tick i).2).filter fun r => r.id == 1) = []
    rw [hrem, List.nil_append, List.filter_eq_nil_iff.mpr]
    · rfl
    · exact List.any_eq_false.mp hno
  · obtain ⟨out, ho⟩ := hf'.emitted.mpr ⟨hnl, by unfold Old; rw [g2, h2']; decide, by unfold Idle; rw [g3, h1']; decide, .inl hroot⟩
    have := sent_of_emitted (w := w'.tick i') (List.mem_append_right _ ho)
    rw [hs] at this
    contradiction

end Verif
