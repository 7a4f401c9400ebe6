import Verif.Spec.Together
import Verif.Props.Collector

/-!
# Proofs about traces of which the spans arrive quickly
-/

namespace Verif

open Spec

theorem spansOf_snoc_receive (k : Id) (es : List CEvent) (now1 now2 : Time) (s : Span) :
    spansOf k (es ++ [.receive now1 now2 s]) = spansOf k es ++ if Traced s ∧ s.trace = k then [s] else [] := by
  unfold spansOf
  rw [List.filterMap_append]
  congr 1
  by_cases h : Traced s ∧ s.trace = k <;> simp [h]

theorem spansOf_snoc_tick (k : Id) (es : List CEvent) (i : TickInput) : spansOf k (es ++ [.tick i]) = spansOf k es := by
  unfold spansOf
  rw [List.filterMap_append]
  simp

theorem spansOf_append (k : Id) (es fs : List CEvent) : spansOf k (es ++ fs) = spansOf k es ++ spansOf k fs := List.filterMap_append

theorem timesOf_snoc_tick (k : Id) (es : List CEvent) (i : TickInput) : timesOf k (es ++ [.tick i]) = timesOf k es := by
  unfold timesOf
  rw [List.foldl_append]
  generalize es.foldl _ none = r
  cases r <;> rfl

theorem timesOf_snoc_receive (k : Id) (es : List CEvent) (now1 now2 : Time) (s : Span) :
    timesOf k (es ++ [.receive now1 now2 s]) = if Traced s ∧ s.trace = k then
      (match timesOf k es with
        | none => some (now1, now2)
        | some (a, _) => some (a, now2)) else timesOf k es := by
  unfold timesOf
  rw [List.foldl_append]
  generalize es.foldl _ none = r
  by_cases h : Traced s ∧ s.trace = k
  · rw [if_pos h]
    cases r <;> simp [h]
  · rw [if_neg h]
    cases r <;> simp [h]

theorem Spec.Runs.reachable {w w' : World} {es : List CEvent} (hw : Reachable w) (h : Runs w es w') : Reachable w' := by
  induction h with
  | nil => exact hw
  | receive now1 now2 s _ h1 h2 ih => exact .receive now1 now2 s ih h1 h2
  | tick i _ hv h1 ih => exact .tick i ih hv h1

theorem Spec.Runs.received {w w' : World} {es : List CEvent} (h : Runs w es w') (k : Id) :
    receivedFor k w'.received = receivedFor k w.received ++ spansOf k es := by
  induction h with
  | nil => exact (List.append_nil _).symm
  | receive now1 now2 s _ h1 h2 ih =>
    show receivedFor k (_ ++ [s]) = _
    rw [receivedFor_append, ih, spansOf_snoc_receive, List.append_assoc]
  | tick i _ hv h1 ih => rw [spansOf_snoc_tick]; exact ih

theorem Spec.Quick.prefix {k : Id} {es fs : List CEvent} (h : Quick k fs) (hp : es <+: fs) : Quick k es :=
  fun pre i a b hp' => h pre i a b (hp'.trans hp)

theorem Spec.Calm.prefix {w : World} {es fs : List CEvent} (h : Calm w fs) (hp : es <+: fs) : Calm w es :=
  fun pre i u hp' => h pre i u (hp'.trans hp)

theorem bufferTime_bounds (n : Nat) : 2000000000 ≤ Spec.bufferTime n ∧ Spec.bufferTime n ≤ 8000000000 := by
  constructor <;> (unfold Spec.bufferTime; (repeat' split) <;> decide)

/-- A pending trace with few ids is not too large. -/
theorem not_large {clock k t} (h : TreeOk clock k t) (hf : FewIds t.members) : ¬ Large t := by
  obtain ⟨ids, hlen, hids⟩ := hf
  have hnd : (t.spans.map Span.id).Nodup := sortedDesc_ids h.inv.sorted
  have hsub : t.spans.map Span.id ⊆ ids := by
    intro x hx
    obtain ⟨s, hs, he⟩ := List.mem_map.mp hx
    obtain ⟨m, hm, hid⟩ := (h.inv.ids x).mp ⟨s, hs, he⟩
    exact hid ▸ hids m hm
  have := hnd.length_le_of_subset hsub
  rw [List.length_map] at this
  unfold Large size
  omega

/-- At a tick with at most 100000 waiting spans, a trace that is not too large, old or idle stays. -/
theorem tick_keeps {w : World} (h : WInv w) {i : TickInput} (hv : i.Valid w.c) {k : Id} {t : Tree} (ht : w.c.traces[k]? = some t)
    (hc : counted w.c.traces.toList ≤ 100000) (hl : ¬ Large t)
    (ho : ¬ Old i.now2 (Spec.bufferTime (counted w.c.traces.toList)) t) (hi : ¬ Idle i.now1 (Spec.bufferTime (counted w.c.traces.toList)) t) :
    (w.c.tick i).1.traces[k]? = some t := by
  obtain ⟨hf, hn, h3, _⟩ := tick_fates h hv ht
  rcases h3 with h3 | h3
  · exact h3
  exfalso
  obtain ⟨f, hm⟩ := hn.mp h3
  cases f with
  | tooLarge => exact hl (hf.tooLarge.mp hm)
  | tooOld => exact ho (hf.tooOld.mp hm).2
  | noRoot => exact hi (hf.noRoot.mp hm).2.2.1
  | stuck => exact hf.stuck hm
  | emitted out => exact hi (hf.emitted.mp ⟨out, hm⟩).2.2.1
  | discarded =>
    obtain ⟨n, _, _, hd, h0, _⟩ := tick_rest h hv
    have := (hd _).mp ⟨hm, rfl⟩
    rw [h0 hc] at this
    simp at this

/-- The trace `k` during `es`. -/
structure Gathering (k : Id) (es : List CEvent) (w : World) : Prop where
  absent : timesOf k es = none → spansOf k es = [] ∧ w.c.traces[k]? = none
  present : ∀ a b, timesOf k es = some (a, b) → ∃ t, w.c.traces[k]? = some t ∧ t.members = spansOf k es ∧ t.started = a ∧ t.updated = b
  free : w.c.blacklist[k]? = none
  removed : ∀ r ∈ w.removed, r.id ≠ k

theorem fresh_absent {w : World} (h : WInv w) {k : Id} (hf : receivedFor k w.received = []) :
    w.c.traces[k]? = none ∧ ∀ r ∈ w.removed, r.id ≠ k := by
  constructor
  · cases ht : w.c.traces[k]? with
    | none => rfl
    | some t =>
      have := h.suffix k t ht
      rw [hf] at this
      exact absurd (List.suffix_nil.mp this) (h.trees k t ht).nonempty
  · rintro r hr rfl
    have := h.infix_ r hr
    rw [hf] at this
    exact (h.gone r hr).nonempty (List.infix_nil.mp this)

theorem blacklist_none {w : World} (h : WInv w) {k : Id} (hr : ∀ r ∈ w.removed, r.id ≠ k) : w.c.blacklist[k]? = none := by
  cases hb : w.c.blacklist[k]? with
  | none => rfl
  | some u =>
    obtain ⟨r, hm, hid, _⟩ := h.blocked k hb
    exact absurd hid (hr r hm)

theorem receive_traces {w : World} (now1 now2 : Time) (s : Span) (k : Id) (hb : w.c.blacklist[k]? = none) :
    (w.receive now1 now2 s).c.traces[k]? =
      if Traced s ∧ s.trace = k then some (((w.c.traces[k]?).getD (newTree now1 k)).addSpan now2 s) else w.c.traces[k]? := by
  show (w.c.receive now1 now2 s).traces[k]? = _
  unfold Collector.receive
  by_cases ht : Traced s
  · rw [if_neg (fun h => (not_traced_iff s).mp h ht)]
    by_cases hk : s.trace = k
    · subst hk
      have hnb : ¬ w.c.blacklist.contains s.trace = true := fun hc => by
        obtain ⟨u, hu⟩ := (contains_iff _ _).mp hc
        rw [hb] at hu; contradiction
      rw [if_neg hnb, if_pos ⟨ht, rfl⟩]
      dsimp only
      rw [get_insert, if_pos rfl]
    · rw [if_neg (c := Traced s ∧ s.trace = k) (fun h => hk h.2)]
      split
      · rfl
      · dsimp only
        rw [get_insert, if_neg (fun h => hk h)]
  · rw [if_pos ((not_traced_iff s).mpr ht), if_neg (fun h => ht h.1)]

theorem gathering {w w' : World} {es : List CEvent} (hw : Reachable w) {k : Id} (hfresh : receivedFor k w.received = []) (hrun : Runs w es w')
    (hq : Quick k es) (hc : Calm w es) (hids : FewIds (spansOf k es)) : Gathering k es w' := by
  induction hrun with
  | nil =>
    obtain ⟨h1, h2⟩ := fresh_absent (reachable_inv hw) hfresh
    exact ⟨fun _ => ⟨rfl, h1⟩, (fun a b h => nomatch h), blacklist_none (reachable_inv hw) h2, h2⟩
  | @receive es u now1 now2 s hrun h1 h2 ih =>
    have hp : es <+: es ++ [CEvent.receive now1 now2 s] := List.prefix_append _ _
    have hids' : FewIds (spansOf k es) := by
      obtain ⟨ids, hl, hi⟩ := hids
      refine ⟨ids, hl, fun x hx => hi x ?_⟩
      rw [spansOf_snoc_receive]
      exact List.mem_append_left _ hx
    have g := ih (hq.prefix hp) (hc.prefix hp) hids'
    have hrem : ∀ r ∈ (u.receive now1 now2 s).removed, r.id ≠ k := g.removed
    have hr' := receive_traces (w := u) now1 now2 s k g.free
    have hb : (u.receive now1 now2 s).c.blacklist[k]? = none :=
      blacklist_none (reachable_inv (Reachable.receive now1 now2 s (Runs.reachable hw hrun) h1 h2)) hrem
    by_cases ht : Traced s ∧ s.trace = k
    · rw [if_pos ht] at hr'
      have et := timesOf_snoc_receive k es now1 now2 s
      have es' := spansOf_snoc_receive k es now1 now2 s
      rw [if_pos ht] at et es'
      cases htm : timesOf k es with
      | none =>
        rw [htm] at et
        obtain ⟨e1, e2⟩ := g.absent htm
        refine ⟨fun h => ?_, fun a b h => ?_, hb, hrem⟩
        · rw [et] at h; contradiction
        · rw [et] at h
          cases h
          refine ⟨_, hr', ?_⟩
          rw [e2, es', e1]
          obtain ⟨_, a2, a3⟩ := (newTree now1 k).addSpan_fields now2 s
          exact ⟨(newTree now1 k).addSpan_members now2 s, a2, a3⟩
      | some p =>
        obtain ⟨a, b⟩ := p
        rw [htm] at et
        obtain ⟨t, e1, e2, e3, e4⟩ := g.present a b htm
        refine ⟨fun h => ?_, fun a' b' h => ?_, hb, hrem⟩
        · rw [et] at h; contradiction
        · rw [et] at h
          cases h
          refine ⟨_, hr', ?_⟩
          rw [e1, es', ← e2]
          obtain ⟨_, a2, a3⟩ := t.addSpan_fields now2 s
          exact ⟨t.addSpan_members now2 s, a2.trans e3, a3⟩
    · rw [if_neg ht] at hr'
      have et := timesOf_snoc_receive k es now1 now2 s
      have es' := spansOf_snoc_receive k es now1 now2 s
      rw [if_neg ht] at et es'
      rw [List.append_nil] at es'
      refine ⟨?_, ?_, hb, hrem⟩
      · rw [et, es', hr']; exact g.absent
      · rw [et, es', hr']; exact g.present
  | @tick es u i hrun hv h1 ih =>
    have hp : es <+: es ++ [CEvent.tick i] := List.prefix_append _ _
    rw [spansOf_snoc_tick] at hids
    have g := ih (hq.prefix hp) (hc.prefix hp) hids
    have hu := Runs.reachable hw hrun
    have hinv := reachable_inv hu
    obtain ⟨_, _, _, htr, _, _, _, hmem⟩ := tick_eq u.c i hv
    have hcount := hc es i u (List.prefix_refl _) hrun
    -- the trace stays, if it is there
    have hstay : (u.c.tick i).1.traces[k]? = u.c.traces[k]? := by
      cases htm : timesOf k es with
      | none =>
        obtain ⟨_, e2⟩ := g.absent htm
        rw [e2]
        have := htr k
        rw [e2] at this
        rw [this]; split <;> rfl
      | some p =>
        obtain ⟨a, b⟩ := p
        obtain ⟨t, e1, e2, e3, e4⟩ := g.present a b htm
        obtain ⟨q1, q2⟩ := hq es i a b (List.prefix_refl _) htm
        obtain ⟨b1, _⟩ := bufferTime_bounds (counted u.c.traces.toList)
        rw [e1]
        refine tick_keeps hinv hv e1 hcount (not_large (hinv.trees k t e1) (by rw [e2]; exact hids)) ?_ ?_
        · unfold Old; rw [e3]; simp only [Time] at *; omega
        · unfold Idle; rw [e4]; simp only [Time] at *; omega
    have hrem : ∀ r ∈ (u.tick i).removed, r.id ≠ k := by
      intro r hr
      rcases List.mem_append.mp hr with hr | hr
      · exact g.removed r hr
      · rintro rfl
        obtain ⟨_, hn, _⟩ := tick_fates hinv hv (hmem r hr)
        have := hn.mpr ⟨r.fate, hr⟩
        rw [hstay, hmem r hr] at this
        contradiction
    refine ⟨?_, ?_, blacklist_none (reachable_inv (Reachable.tick i hu hv h1)) hrem, hrem⟩
    · rw [timesOf_snoc_tick, spansOf_snoc_tick]
      show _ → _ ∧ (u.c.tick i).1.traces[k]? = none
      rw [hstay]; exact g.absent
    · rw [timesOf_snoc_tick, spansOf_snoc_tick]
      show ∀ a b, _ → ∃ t, (u.c.tick i).1.traces[k]? = some t ∧ _
      rw [hstay]; exact g.present

theorem runs_refused {w w' : World} {es : List CEvent} (hw : Reachable w) {k : Id} (hfresh : receivedFor k w.received = []) (hrun : Runs w es w')
    (hq : Quick k es) (hc : Calm w es) (hids : FewIds (spansOf k es)) : ∀ s ∈ spansOf k es, s ∉ w'.refused := by
  have hall : ∀ s ∈ w'.refused, ¬ s.trace = k := by
    induction hrun with
    | nil =>
      intro s hs hk
      have hp := (reachable_inv hw).conserved.symm.subset (List.mem_append_right _ hs)
      rw [List.mem_filter] at hp
      have : s ∈ receivedFor k w.received := List.mem_filter.mpr ⟨hp.1, by rw [Bool.and_eq_true]; exact ⟨hp.2, beq_iff_eq.mpr hk⟩⟩
      rw [hfresh] at this
      contradiction
    | @receive es u now1 now2 s hrun h1 h2 ih =>
      have hp : es <+: es ++ [CEvent.receive now1 now2 s] := List.prefix_append _ _
      have hids' : FewIds (spansOf k es) := by
        obtain ⟨ids, hl, hi⟩ := hids
        refine ⟨ids, hl, fun x hx => hi x ?_⟩
        rw [spansOf_snoc_receive]
        exact List.mem_append_left _ hx
      have ih := ih (hq.prefix hp) (hc.prefix hp) hids'
      have g := gathering hw hfresh hrun (hq.prefix hp) (hc.prefix hp) hids'
      intro x hx hk
      change x ∈ (if _ then u.refused ++ [s] else u.refused) at hx
      split at hx
      · next h =>
        rcases List.mem_append.mp hx with hx | hx
        · exact ih x hx hk
        · rw [List.mem_singleton] at hx
          subst hx
          obtain ⟨v, hv⟩ := (contains_iff _ _).mp h.2
          rw [hk, g.free] at hv
          contradiction
      · exact ih x hx hk
    | @tick es u i hrun hv h1 ih =>
      have hp : es <+: es ++ [CEvent.tick i] := List.prefix_append _ _
      rw [spansOf_snoc_tick] at hids
      exact ih (hq.prefix hp) (hc.prefix hp) hids
  intro s hs hr
  unfold spansOf at hs
  obtain ⟨e, _, he⟩ := List.mem_filterMap.mp hs
  cases e with
  | tick i => contradiction
  | receive now1 now2 x =>
    by_cases h : Traced x ∧ x.trace = k
    · simp [h] at he
      subst he
      exact hall x hr h.2
    · simp [h] at he

/-- While no more spans of it come, a trace is pending unchanged, or has left as it was. -/
theorem unchanged {w w' : World} {fs : List CEvent} (hw : Reachable w) {k : Id} {t : Tree} (ht : w.c.traces[k]? = some t)
    (hrem : ∀ r ∈ w.removed, r.id ≠ k) (hrun : Runs w fs w') (hno : spansOf k fs = []) :
    (w'.c.traces[k]? = some t ∧ ∀ r ∈ w'.removed, r.id ≠ k) ∨
    (w'.c.traces[k]? = none ∧ ∃ f, w'.removed.filter (fun r => r.id == k) = [⟨k, t, f⟩]) := by
  induction hrun with
  | nil => exact .inl ⟨ht, hrem⟩
  | @receive es u now1 now2 s hrun h1 h2 ih =>
    rw [spansOf_snoc_receive] at hno
    obtain ⟨hno, hs⟩ := List.append_eq_nil_iff.mp hno
    have hs : ¬ (Traced s ∧ s.trace = k) := fun h => by rw [if_pos h] at hs; contradiction
    have hsame : (u.c.receive now1 now2 s).traces[k]? = u.c.traces[k]? := by
      unfold Collector.receive
      by_cases htr : Traced s
      · rw [if_neg (fun h => (not_traced_iff s).mp h htr)]
        split
        · rfl
        · dsimp only
          rw [get_insert, if_neg (fun h => hs ⟨htr, h⟩)]
      · rw [if_pos ((not_traced_iff s).mpr htr)]
    show ((u.c.receive now1 now2 s).traces[k]? = _ ∧ _) ∨ ((u.c.receive now1 now2 s).traces[k]? = none ∧ _)
    rw [hsame]
    exact ih hno
  | @tick es u i hrun hv h1 ih =>
    rw [spansOf_snoc_tick] at hno
    have hinv := reachable_inv (Runs.reachable hw hrun)
    obtain ⟨_, _, _, htr, _, _, hnd, hmem⟩ := tick_eq u.c i hv
    rcases ih hno with ⟨h2, h3⟩ | ⟨h2, f, h3⟩
    · obtain ⟨_, hn, hst, _⟩ := tick_fates hinv hv h2
      rcases hst with hst | hst
      · refine .inl ⟨hst, fun r hr => ?_⟩
        rcases List.mem_append.mp hr with hr | hr
        · exact h3 r hr
        · rintro rfl
          obtain ⟨_, hn', _⟩ := tick_fates hinv hv (hmem r hr)
          have := hn'.mpr ⟨r.fate, hr⟩
          rw [hst] at this; contradiction
      · refine .inr ⟨hst, ?_⟩
        obtain ⟨f, hf⟩ := hn.mp hst
        refine ⟨f, ?_⟩
        show (u.removed ++ (u.c.tick i).2).filter _ = _
        rw [List.filter_append, List.filter_eq_nil_iff.mpr (fun r hr => by simpa using h3 r hr), List.nil_append]
        have : (u.c.tick i).2.Pairwise (fun a b => a.id ≠ b.id) := List.pairwise_map.mp hnd
        clear htr hmem hn hst
        generalize (u.c.tick i).2 = l at hf hnd this ⊢
        induction l with
        | nil => contradiction
        | cons r l ih' =>
          rw [List.pairwise_cons] at this
          rcases List.mem_cons.mp hf with hf | hf
          · subst hf
            rw [List.filter_cons, if_pos (by simp), List.filter_eq_nil_iff.mpr]
            intro x hx
            simpa using fun h => this.1 x hx h.symm
          · rw [List.filter_cons, if_neg (by simpa using this.1 _ hf)]
            rw [List.map_cons, List.nodup_cons] at hnd
            exact ih' hf hnd.2 this.2
    · refine .inr ⟨?_, f, ?_⟩
      · show (u.c.tick i).1.traces[k]? = none
        have := htr k
        rw [h2] at this
        rw [this]; split <;> rfl
      · show (u.removed ++ (u.c.tick i).2).filter _ = _
        rw [List.filter_append, h3, List.filter_eq_nil_iff.mpr, List.append_nil]
        intro r hr
        have := hmem r hr
        simp only [beq_iff_eq]
        rintro rfl
        rw [h2] at this; contradiction

theorem Spec.TicksBy.prefix {limit : Time} {es fs : List CEvent} (h : TicksBy limit fs) (hp : es <+: fs) : TicksBy limit es :=
  fun pre i hp' => h pre i (hp'.trans hp)

/-- What leaves early enough from a calm collector is emitted. -/
theorem leaves_emitted {w w' : World} {fs : List CEvent} (hw : Reachable w) {k : Id} {t : Tree} (ht : w.c.traces[k]? = some t)
    (hrem : ∀ r ∈ w.removed, r.id ≠ k) (hrun : Runs w fs w') (hno : spansOf k fs = [])
    (hl : ¬ Large t) (hroot : Rooted k t.spans) (hby : TicksBy (t.started + 10000000000) fs) (hc : Calm w fs) :
    ∀ r ∈ w'.removed, r.id = k → ∃ out, r.fate = .emitted out ∧ Finished k t.spans out := by
  induction hrun with
  | nil => exact fun r hr h => absurd h (hrem r hr)
  | @receive es u now1 now2 s hrun h1 h2 ih =>
    have hp : es <+: es ++ [CEvent.receive now1 now2 s] := List.prefix_append _ _
    rw [spansOf_snoc_receive] at hno
    exact ih (List.append_eq_nil_iff.mp hno).1 (hby.prefix hp) (hc.prefix hp)
  | @tick es u i hrun hv h1 ih =>
    have hp : es <+: es ++ [CEvent.tick i] := List.prefix_append _ _
    rw [spansOf_snoc_tick] at hno
    intro r hr hk
    rcases List.mem_append.mp hr with hr | hr
    · exact ih hno (hby.prefix hp) (hc.prefix hp) r hr hk
    · subst hk
      have hinv := reachable_inv (Runs.reachable hw hrun)
      obtain ⟨_, _, _, _, _, _, _, hmem⟩ := tick_eq u.c i hv
      have hm := hmem r hr
      have hrt : r.tree = t := by
        rcases unchanged hw ht hrem hrun hno with ⟨h, _⟩ | ⟨h, _⟩
        · rw [hm] at h; exact Option.some.inj h
        · rw [hm] at h; contradiction
      obtain ⟨hf, _⟩ := tick_fates hinv hv hm
      have hnow := hby es i (List.prefix_refl _)
      obtain ⟨b1, _⟩ := bufferTime_bounds (counted u.c.traces.toList)
      rw [hrt] at hf hm
      have hr : (⟨r.id, t, r.fate⟩ : Removal) ∈ (u.c.tick i).2 := by rw [← hrt]; exact hr
      cases hfate : r.fate with
      | tooLarge => rw [hfate] at hr; exact absurd (hf.tooLarge.mp hr) hl
      | tooOld =>
        rw [hfate] at hr
        have := (hf.tooOld.mp hr).2
        unfold Old at this
        simp only [Time] at *
        omega
      | noRoot => rw [hfate] at hr; exact absurd hroot (hf.noRoot.mp hr).2.2.2
      | stuck => rw [hfate] at hr; exact absurd hr hf.stuck
      | emitted out => rw [hfate] at hr; exact ⟨out, rfl, hf.output out hr⟩
      | discarded =>
        rw [hfate] at hr
        obtain ⟨n, _, _, hd, h0, _⟩ := tick_rest hinv hv
        have := (hd _).mp ⟨hr, rfl⟩
        rw [h0 (hc es i u (List.prefix_refl _) hrun)] at this
        simp at this

/-- No more spans wait than were received. -/
theorem counted_le {w : World} (h : WInv w) : counted w.c.traces.toList ≤ w.received.length := by
  have h1 : ∀ l : List (Id × Tree), (∀ e ∈ l, w.c.traces[e.1]? = some e.2) → counted l ≤ (l.flatMap fun e => e.2.members).length := by
    intro l hl
    induction l with
    | nil => exact Nat.le_refl _
    | cons e l ih =>
      have ih := ih fun x hx => hl x (List.mem_cons_of_mem _ hx)
      have ok := h.trees e.1 e.2 (hl e List.mem_cons_self)
      have hnd : (e.2.spans.map Span.id).Nodup := sortedDesc_ids ok.inv.sorted
      have hsub : e.2.spans.map Span.id ⊆ e.2.members.map Span.id := by
        intro x hx
        obtain ⟨s, hs, he⟩ := List.mem_map.mp hx
        obtain ⟨m, hm, hid⟩ := (ok.inv.ids x).mp ⟨s, hs, he⟩
        exact List.mem_map.mpr ⟨m, hm, hid⟩
      have hlen := hnd.length_le_of_subset hsub
      rw [List.length_map, List.length_map] at hlen
      have hsz : size e.2 ≤ e.2.members.length := Nat.le_trans (Nat.mod_le _ _) hlen
      rw [List.flatMap_cons, List.length_append]
      have hc : counted (e :: l) ≤ size e.2 + counted l := by
        unfold counted
        rw [List.filter_cons]
        split
        · rw [List.map_cons, List.sum_cons]; exact Nat.le_refl _
        · exact Nat.le_add_left _ _
      omega
  have h2 := h1 w.c.traces.toList fun e he => (mem_range (isRange_refl _)).mp he
  have h3 := h.conserved.length_eq
  have h4 := List.length_filter_le (fun s => decide (Traced s)) w.received
  rw [List.length_append, List.length_append] at h3
  unfold pendingMembers at h3
  omega

def isReceive : CEvent → Bool
  | .receive .. => true
  | .tick _ => false

/-- The collector is calm if it has not received many spans. -/
theorem calm_of_few {w w' : World} {es : List CEvent} (hw : Reachable w) (hrun : Runs w es w') (h : w'.received.length ≤ 100000) : Calm w es := by
  have mono : ∀ {pre u}, Runs w pre u → ∀ {es w'}, Runs w es w' → pre <+: es → u.received.length ≤ w'.received.length := by
    intro pre u hp es w' he hpre
    have len : ∀ {es : List CEvent} {u : World}, Runs w es u → u.received.length = w.received.length + (es.filter isReceive).length := by
      intro es u hr
      induction hr with
      | nil => rfl
      | receive now1 now2 s _ _ _ ih =>
        show (_ ++ [s]).length = _
        rw [List.length_append, ih, List.filter_append, List.length_append]
        rfl
      | tick i _ _ _ ih =>
        rw [List.filter_append, List.length_append]
        exact ih
    rw [len hp, len he]
    exact Nat.add_le_add_left (hpre.filter _).length_le _
  intro pre i u hp hr
  exact Nat.le_trans (counted_le (reachable_inv (Runs.reachable hw hr))) (Nat.le_trans (mono hr hrun ((List.prefix_append _ _).trans hp)) h)

end Verif
