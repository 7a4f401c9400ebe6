import Verif.Props.Collector

/-!
# C49: which traces are discarded, in numbers of spans
-/

namespace Verif

open Spec Std

/-- C49, partial: if no pending trace has reached 65536 spans, discarded traces are at least as large as retained ones, fewer than 100000 spans remain, and had the smallest of
the discarded ones been kept, there would be 100000. Missing: larger traces, whose 16 bit counter wraps. -/
theorem C49_sizes_partial {w : World} (hw : Reachable w) {i : TickInput} (hv : i.Valid w.c)
    (hsmall : ∀ (k : Id) (t : Tree), w.c.traces[k]? = some t → t.spans.length < 65536)
    {d : Removal} (hd : d ∈ (w.c.tick i).2) (hdf : d.fate = .discarded) :
    (∀ (k : Id) (t : Tree), (w.c.tick i).1.traces[k]? = some t → t.spans.length ≤ d.tree.spans.length) ∧
    ((w.c.tick i).1.traces.toList.map fun e => e.2.spans.length).sum < 100000 ∧
    ∃ m ∈ (w.c.tick i).2, m.fate = .discarded ∧ (∀ x ∈ (w.c.tick i).2, x.fate = .discarded → m.tree.spans.length ≤ x.tree.spans.length) ∧
      100000 ≤ ((w.c.tick i).1.traces.toList.map fun e => e.2.spans.length).sum + m.tree.spans.length := by
  obtain ⟨_, h1, h2, m, hm, hmf, h3, h4⟩ := C49_load_shedding hw hv hd hdf
  obtain ⟨_, _, _, htr, _, _, _, hmem⟩ := tick_eq w.c i hv
  have stay : ∀ (k : Id) (t : Tree), (w.c.tick i).1.traces[k]? = some t → size t = t.spans.length := by
    intro k t ht
    rw [htr] at ht
    split at ht
    · contradiction
    · exact Nat.mod_eq_of_lt (hsmall k t ht)
  have left : ∀ x ∈ (w.c.tick i).2, size x.tree = x.tree.spans.length := fun x hx => Nat.mod_eq_of_lt (hsmall _ _ (hmem x hx))
  have sum : total (w.c.tick i).1.traces.toList = ((w.c.tick i).1.traces.toList.map fun e => e.2.spans.length).sum := by
    unfold total
    congr 1
    exact List.map_congr_left fun e he => stay e.1 e.2 ((mem_range (isRange_refl _)).mp he)
  rw [sum] at h2 h4
  refine ⟨fun k t ht => ?_, h2, m, hm, hmf, fun x hx hxf => ?_, by rw [← left m hm]; exact h4⟩
  · rw [← stay k t ht, ← left d hd]; exact h1 k t ht
  · rw [← left m hm, ← left x hx]; exact h3 x hx hxf

/-- Thirteen traces of `s` spans, and one of `b`. -/
def crowd (s b : Nat) : List Span := bursts 13 s ++ burst 100 b

theorem burst_len (k : Id) (n : Nat) : (burst k n).length = n := by unfold burst; rw [List.length_map, List.length_range]

theorem burst_nil {k : Id} {n : Nat} (h : 0 < n) : burst k n ≠ [] := by
  intro he
  have := burst_len k n
  rw [he] at this
  simp at this; omega

/-- What is pending. -/
def crowdTraces (s b : Nat) : List (Id × Tree) :=
  (List.range 13).map (fun j => (Int64.ofNat (j + 1), gathered (.ofNat (j + 1)) (burst (.ofNat (j + 1)) s))) ++ [((100 : Id), gathered 100 (burst 100 b))]

theorem crowd_range {s b : Nat} (hs : s = 8192) (hb : b = 65537) : IsRange (crowdTraces s b) (flood (crowd s b)).c.traces := by
  obtain ⟨r1, r2⟩ := receivedFor_bursts 13 s (by decide) (by omega)
  have far : ∀ j < 13, Int64.ofNat (j + 1) ≠ 100 := by decide
  have split : ∀ k, receivedFor k (crowd s b) = receivedFor k (bursts 13 s) ++ if (100 : Id) = k then burst 100 b else [] := by
    intro k
    rw [← receivedFor_burst 100 k (by decide) b (by omega)]
    unfold crowd receivedFor
    rw [List.filter_append]
  have keys : ((crowdTraces s b).map Prod.fst).Nodup := by
    have : (crowdTraces s b).map Prod.fst = (List.range 13).map (fun j => Int64.ofNat (j + 1)) ++ [100] := by
      unfold crowdTraces
      rw [List.map_append, List.map_map]
      rfl
    rw [this]
    decide
  apply range_of_mem_iff
  · rw [List.Nodup, List.pairwise_map] at keys
    exact keys.imp fun h e => h (congrArg Prod.fst e)
  · intro k t
    rw [(flood_spec _).2.2, split]
    unfold crowdTraces
    rw [List.mem_append, List.mem_map, List.mem_singleton]
    by_cases hk : ∃ j < 13, Int64.ofNat (j + 1) = k
    · obtain ⟨j, hj, rfl⟩ := hk
      rw [r1 j hj, if_neg (show ¬ (100 : Id) = Int64.ofNat (j + 1) from fun e => far j hj e.symm), List.append_nil, if_neg (burst_nil (by omega))]
      constructor
      · rintro (⟨a, ha, he⟩ | he)
        · obtain ⟨e1, e2⟩ := Prod.mk.inj he
          rw [List.mem_range] at ha
          have := ofNat_inj (by omega) (by omega) e1
          subst this
          rw [e2]
        · exact absurd (Prod.mk.inj he).1 (far j hj)
      · intro he
        exact .inl ⟨j, List.mem_range.mpr hj, by rw [Option.some.inj he]⟩
    · rw [r2 k (fun j hj he => hk ⟨j, hj, he⟩), List.nil_append]
      by_cases h100 : (100 : Id) = k
      · subst h100
        rw [if_pos rfl, if_neg (burst_nil (by omega))]
        constructor
        · rintro (⟨a, ha, he⟩ | he)
          · exact absurd (Prod.mk.inj he).1 (far a (List.mem_range.mp ha))
          · rw [(Prod.mk.inj he).2]
        · intro he
          exact .inr (by rw [Option.some.inj he])
      · rw [if_neg h100, if_pos rfl]
        constructor
        · rintro (⟨a, ha, he⟩ | he)
          · exact absurd ⟨a, List.mem_range.mp ha, (Prod.mk.inj he).1⟩ hk
          · exact absurd (Prod.mk.inj he).1.symm h100
        · intro he; contradiction

theorem gathered_length (k : Id) {n : Nat} (h0 : 0 < n) (hn : n < 2 ^ 63 - 1) :
    (gathered k (burst k n)).spans.length = n ∧ (gathered k (burst k n)).started = 0 ∧ (gathered k (burst k n)).updated = 0 := by
  obtain ⟨a, b, c⟩ := gathered_props k (burst k n) (burst_nodup k n hn)
  rw [burst_len] at a
  exact ⟨a, b, c (burst_nil h0)⟩

theorem crowd_pending {s b : Nat} (hs : s = 8192) (hb : b = 65537) {k : Id} {t : Tree} (h : (flood (crowd s b)).c.traces[k]? = some t) :
    (t.spans.length = s ∨ t.spans.length = b ∧ k = 100) ∧ t.started = 0 ∧ t.updated = 0 := by
  have := (mem_range (crowd_range hs hb)).mpr h
  unfold crowdTraces at this
  rw [List.mem_append, List.mem_map, List.mem_singleton] at this
  rcases this with ⟨j, _, he⟩ | he
  · obtain ⟨rfl, rfl⟩ := Prod.mk.inj he
    obtain ⟨a, b, c⟩ := gathered_length (.ofNat (j + 1)) (n := s) (by omega) (by omega)
    exact ⟨.inl a, b, c⟩
  · obtain ⟨rfl, rfl⟩ := Prod.mk.inj he
    obtain ⟨a, b, c⟩ := gathered_length 100 (n := b) (by omega) (by omega)
    exact ⟨.inr ⟨a, rfl⟩, b, c⟩

theorem crowd_total {s b : Nat} (hs : s = 8192) (hb : b = 65537) : total (crowdTraces s b) = 106497 := by
  have : (crowdTraces s b).map (fun e => size e.2) = List.replicate 13 8192 ++ [1] := by
    unfold crowdTraces
    rw [List.map_append, List.map_map]
    congr 1
    · apply List.ext_getElem
      · simp
      · intro j h1 h2
        rw [List.getElem_map, List.getElem_replicate, List.getElem_range]
        show (gathered _ _).spans.length % 65536 = 8192
        rw [(gathered_length _ (n := s) (by omega) (by omega)).1, hs]
    · show [(gathered _ _).spans.length % 65536] = [1]
      rw [(gathered_length _ (n := b) (by omega) (by omega)).1, hb]
  unfold total
  rw [this]
  decide

theorem crowd_small {s b : Nat} (hs : s = 8192) (hb : b = 65537) {t : Tree} (h : t.spans.length = s ∨ t.spans.length = b) : ¬ Large t := by
  unfold Large size
  omega

theorem crowd_counted {s b : Nat} (hs : s = 8192) (hb : b = 65537) : counted (flood (crowd s b)).c.traces.toList = 106497 := by
  unfold counted
  have e1 : (flood (crowd s b)).c.traces.toList.filter (fun e => !decide (Large e.2)) = (flood (crowd s b)).c.traces.toList := by
    rw [List.filter_eq_self]
    intro e he
    have := (crowd_pending hs hb ((mem_range (isRange_refl _)).mp he)).1
    simpa using crowd_small hs hb (this.imp id And.left)
  rw [e1]
  show total _ = _
  rw [← total_perm (List.Perm.trans (crowd_range hs hb) (List.Perm.refl _)), crowd_total hs hb]

/-- C49 does not hold as stated: of fourteen traces one with 8192 spans is discarded and the one with 65537 spans stays. -/
theorem C49_larger_stays : ∃ w, Reachable w ∧ ∃ i : TickInput, i.Valid w.c ∧ w.clock ≤ i.now1 ∧
    ∃ d ∈ (w.c.tick i).2, d.fate = .discarded ∧ d.tree.spans.length = 8192 ∧
      ∃ (k : Id) (t : Tree), (w.c.tick i).1.traces[k]? = some t ∧ t.spans.length = 65537 := by
  obtain ⟨s, hs⟩ : ∃ s : Nat, s = 8192 := ⟨_, rfl⟩
  obtain ⟨b, hb⟩ : ∃ b : Nat, b = 65537 := ⟨_, rfl⟩
  rw [← hs, ← hb]
  obtain ⟨i, hv, t1, t2, _⟩ := exists_valid (flood (crowd s b)).c 0 0 (fun _ => 0) (Int.le_refl _)
  have hw := flood_reachable (crowd s b)
  refine ⟨_, hw, i, hv, by rw [flood_clock, t1]; exact Int.le_refl _, ?_⟩
  obtain ⟨_, _, _, htr, _, _, _, hmem⟩ := tick_eq _ i hv
  have hbt : 2000000000 ≤ Spec.bufferTime (counted (flood (crowd s b)).c.traces.toList) := by
    unfold Spec.bufferTime
    (repeat' split) <;> decide
  have a1 : ∀ b : Int, 2000000000 ≤ b → ¬ ((0 : Int) < 0 - 5 * b) := by intro b _; omega
  have a2 : ∀ b : Int, 2000000000 ≤ b → ¬ (0 : Int) ≤ 0 - b := by intro b _; omega
  -- whatever leaves is discarded
  have hall : ∀ r ∈ ((flood (crowd s b)).c.tick i).2, r.fate = .discarded := by
    intro r hr
    have ht := hmem r hr
    obtain ⟨hf, _⟩ := tick_fates (reachable_inv hw) hv ht
    obtain ⟨g1, g2, g3⟩ := crowd_pending hs hb ht
    have hnl : ¬ Large r.tree := crowd_small hs hb (g1.imp id And.left)
    have hno : ¬ Old i.now2 (Spec.bufferTime (counted (flood (crowd s b)).c.traces.toList)) r.tree := by
      unfold Old; rw [g2, t2]; exact a1 _ hbt
    have hni : ¬ Idle i.now1 (Spec.bufferTime (counted (flood (crowd s b)).c.traces.toList)) r.tree := by
      unfold Idle; rw [g3, t1]; exact a2 _ hbt
    rcases r with ⟨id, t, f⟩
    cases f with
    | tooLarge => exact absurd (hf.tooLarge.mp hr) hnl
    | tooOld => exact absurd (hf.tooOld.mp hr).2 hno
    | noRoot => exact absurd (hf.noRoot.mp hr).2.2.1 hni
    | discarded => rfl
    | stuck => exact absurd hr hf.stuck
    | emitted out => exact absurd (hf.emitted.mp ⟨out, hr⟩).2.2.1 hni
  -- something leaves
  have hne : ((flood (crowd s b)).c.tick i).2 ≠ [] := by
    intro hnil
    obtain ⟨k, _, _, hperm, hlt, _⟩ := discarded_perm hw hv
    have hp := tick_partition _ i hv
    rw [hnil] at hp
    have := hlt (by rw [crowd_counted hs hb]; decide)
    rw [← total_perm hperm, ← total_perm (by simpa using hp), ← total_perm (List.Perm.trans (crowd_range hs hb) (List.Perm.refl _)), crowd_total hs hb] at this
    omega
  obtain ⟨d, hd⟩ := List.exists_mem_of_ne_nil _ hne
  obtain ⟨_, hle, _, m, hm, _, hmin, hge⟩ := C49_load_shedding hw hv hd (hall d hd)
  have hbig : (flood (crowd s b)).c.traces[(100 : Id)]? = some (gathered 100 (burst 100 b)) :=
    (mem_range (crowd_range hs hb)).mp (by unfold crowdTraces; rw [List.mem_append]; exact .inr (List.mem_singleton.mpr rfl))
  have hblen := (gathered_length 100 (n := b) (by omega) (by omega)).1
  obtain ⟨_, hgone, hor, _⟩ := tick_fates (reachable_inv hw) hv hbig
  rcases hor with hstay | hleft
  · refine ⟨d, hd, hall d hd, ?_, 100, _, hstay, hblen⟩
    rcases (crowd_pending hs hb (hmem d hd)).1 with h | ⟨_, h⟩
    · exact h
    · exfalso
      rw [htr, if_pos] at hstay
      · contradiction
      · rw [List.any_eq_true]
        exact ⟨d, hd, by simp [h]⟩
  · -- the trace whose counter is 1 is not discarded before all others
    exfalso
    obtain ⟨f, hff⟩ := hgone.mp hleft
    have hs1 : size (gathered 100 (burst 100 b)) = 1 := by unfold size; rw [hblen, hb]
    obtain ⟨_, hle', _⟩ := C49_load_shedding hw hv hff (hall _ hff)
    have hnone : ((flood (crowd s b)).c.tick i).1.traces.toList = [] := by
      rw [List.eq_nil_iff_forall_not_mem]
      rintro ⟨k, t⟩ he
      have ht := (mem_range (isRange_refl _)).mp he
      have h1 := hle' k t ht
      rw [hs1] at h1
      have hk : k ≠ 100 := by
        rintro rfl
        rw [hleft] at ht
        contradiction
      rw [htr] at ht
      split at ht
      · contradiction
      · rcases (crowd_pending hs hb ht).1 with h | ⟨_, h⟩
        · unfold size at h1; omega
        · exact hk h
    have hm1 := hmin _ hff (hall _ hff)
    rw [hs1] at hm1
    rw [hnone] at hge
    have : total ([] : List (Id × Tree)) = 0 := rfl
    omega

end Verif
