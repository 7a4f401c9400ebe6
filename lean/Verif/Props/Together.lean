import Verif.Proofs.Together

/-!
# C86: the spans of a trace that arrive quickly stay together
-/

namespace Verif

open Spec

/-- C86: during a history in which the spans of a new trace arrive quickly, the trace does not leave, and holds every span that was received for it. -/
theorem C86_together {w w' : World} {es : List CEvent} (hw : Reachable w) {k : Id} (hfresh : receivedFor k w.received = []) (hrun : Runs w es w')
    (hq : Quick k es) (hc : Calm w es) (hids : FewIds (spansOf k es)) :
    (∀ r ∈ w'.removed, r.id ≠ k) ∧ (∀ s ∈ spansOf k es, s ∉ w'.refused) ∧
    ∀ a b, timesOf k es = some (a, b) → ∃ t, w'.c.traces[k]? = some t ∧ t.started = a ∧ t.updated = b ∧
      ∀ x, x ∈ t.spans.map Span.withTags ↔ ∃ id, held id (spansOf k es) = some x := by
  have g := gathering hw hfresh hrun hq hc hids
  refine ⟨g.removed, fun s hs hr => ?_, fun a b h => ?_⟩
  · exact absurd hr (runs_refused hw hfresh hrun hq hc hids s hs)
  · obtain ⟨t, h1, h2, h3, h4⟩ := g.present a b h
    refine ⟨t, h1, h3, h4, fun x => ?_⟩
    rw [← h2]
    exact mem_spans_iff ((reachable_inv (Runs.reachable hw hrun)).trees k t h1) x

/-- C86: if no more spans of the trace come, it leaves at most once, and then with every span that was received for it. -/
theorem C86_whole {w w' v : World} {es fs : List CEvent} (hw : Reachable w) {k : Id} (hfresh : receivedFor k w.received = []) (hrun : Runs w es w')
    (hq : Quick k es) (hc : Calm w es) (hids : FewIds (spansOf k es)) (hrun' : Runs w' fs v) (hno : spansOf k fs = []) :
    (v.removed.filter fun r => r.id == k).length ≤ 1 ∧
    ∀ r ∈ v.removed, r.id = k →
      r.tree.members = receivedFor k v.received ∧
      (∀ x, x ∈ r.tree.spans.map Span.withTags ↔ ∃ id, held id (receivedFor k v.received) = some x) ∧
      ∀ out, r.fate = .emitted out → Finished k r.tree.spans out := by
  have hw' := Runs.reachable hw hrun
  have hv := Runs.reachable hw' hrun'
  have g := gathering hw hfresh hrun hq hc hids
  have hrec : receivedFor k v.received = spansOf k es := by
    rw [hrun'.received k, hrun.received k, hfresh, hno, List.append_nil, List.nil_append]
  cases htm : timesOf k es with
  | none =>
    obtain ⟨e1, _⟩ := g.absent htm
    rw [e1] at hrec
    have := (fresh_absent (reachable_inv hv) hrec).2
    refine ⟨?_, fun r hr hk => absurd hk (this r hr)⟩
    rw [List.filter_eq_nil_iff.mpr (fun r hr => by simpa using this r hr)]
    exact Nat.zero_le _
  | some p =>
    obtain ⟨a, b⟩ := p
    obtain ⟨t, h1, h2, _, _⟩ := g.present a b htm
    rw [hrec, ← h2]
    rcases unchanged hw' h1 g.removed hrun' hno with ⟨_, h4⟩ | ⟨_, f, h4⟩
    · refine ⟨?_, fun r hr hk => absurd hk (h4 r hr)⟩
      rw [List.filter_eq_nil_iff.mpr (fun r hr => by simpa using h4 r hr)]
      exact Nat.zero_le _
    · refine ⟨by rw [h4]; exact Nat.le_refl _, fun r hr hk => ?_⟩
      have hm : r ∈ v.removed.filter (fun r => r.id == k) := List.mem_filter.mpr ⟨hr, by simpa using hk⟩
      rw [h4, List.mem_singleton] at hm
      have hsp := (removed_spec hv r hr).2
      rw [hk] at hsp
      have e : r.tree = t := by rw [hm]
      rw [e] at hsp ⊢
      exact ⟨rfl, mem_spans_iff ((reachable_inv hw').trees k t h1), fun out ho => (hsp out ho).1⟩

/-- C86: and it is delivered as one trace at the latest by the first tick 8 seconds after its last span, if it has a root, and that tick is not later than 10 seconds after its first
span. -/
theorem C86_delivered {w w' v : World} {es fs : List CEvent} (hw : Reachable w) {k : Id} (hfresh : receivedFor k w.received = []) (hrun : Runs w es w')
    (hq : Quick k es) (hc : Calm w es) (hids : FewIds (spansOf k es)) {a b : Time} (htimes : timesOf k es = some (a, b))
    {i : TickInput} (hrun' : Runs w' (fs ++ [.tick i]) v) (hno : spansOf k fs = []) (hc' : Calm w' (fs ++ [.tick i]))
    (hlate : b + 8000000000 ≤ i.now1) (hby : TicksBy (a + 10000000000) (fs ++ [.tick i])) :
    ∃ t, w'.c.traces[k]? = some t ∧ t.members = receivedFor k v.received ∧
      (Rooted k t.spans → ∃ out, v.removed.filter (fun r => r.id == k) = [⟨k, t, .emitted out⟩] ∧ out ∈ emittedOf v.removed ∧ Finished k t.spans out) := by
  have hw' := Runs.reachable hw hrun
  have g := gathering hw hfresh hrun hq hc hids
  obtain ⟨t, h1, h2, h3, h4⟩ := g.present a b htimes
  have hno' : spansOf k (fs ++ [.tick i]) = [] := by rw [spansOf_snoc_tick]; exact hno
  refine ⟨t, h1, by rw [h2, hrun'.received k, hrun.received k, hfresh, hno', List.append_nil, List.nil_append], fun hroot => ?_⟩
  have hl : ¬ Large t := not_large ((reachable_inv hw').trees k t h1) (by rw [h2]; exact hids)
  have hem := leaves_emitted hw' h1 g.removed hrun' hno' hl hroot (by rw [h3]; exact hby) hc'
  have hgone : v.c.traces[k]? = none := by
    generalize hgs : fs ++ [CEvent.tick i] = gs at hrun'
    cases hrun' with
    | nil => simp at hgs
    | receive now1 now2 s _ _ _ => have := List.append_inj_right' hgs rfl; simp at this
    | @tick es' u j hr hv hcl =>
      obtain ⟨e1, e2⟩ := List.append_inj' hgs rfl
      simp only [List.cons.injEq, CEvent.tick.injEq, and_true] at e2
      subst e1 e2
      show (u.c.tick i).1.traces[k]? = none
      have hu := Runs.reachable hw' hr
      rcases unchanged hw' h1 g.removed hr hno with ⟨h, _⟩ | ⟨h, _⟩
      · obtain ⟨_, _, _, _, h52⟩ := C52_pending_time hu hv
        exact h52 k t h (by rw [h4]; exact hlate)
      · obtain ⟨_, _, _, htr, _⟩ := tick_eq u.c i hv
        have := htr k
        rw [h] at this
        rw [this]; split <;> rfl
  rcases unchanged hw' h1 g.removed hrun' hno' with ⟨h, _⟩ | ⟨_, f, h⟩
  · rw [h] at hgone; contradiction
  · have hm : (⟨k, t, f⟩ : Removal) ∈ v.removed := (List.mem_filter.mp (by rw [h]; exact List.mem_singleton.mpr rfl)).1
    obtain ⟨out, ho, hfin⟩ := hem _ hm rfl
    have ho : f = .emitted out := ho
    subst ho
    exact ⟨out, h, List.mem_filterMap.mpr ⟨_, hm, rfl⟩, hfin⟩

/-! ## Witnesses -/

/-- A root and its child. -/
def exA : Span := { id := 5, trace := 5, timings := { SR := 1, SS := 2 } }
def exB : Span := { id := 7, parent := 5, trace := 5, timings := { SR := 1, SS := 2 } }

theorem rooted_single (k : Id) (s : Span) : Rooted k [s] := by
  refine .inl ⟨s, ⟨by simp, ?_⟩, fun q hq => by simpa using hq.1⟩
  by_cases h : s.parent = s.id
  · exact .inl h
  · exact .inr fun q hq => by rw [List.mem_singleton.mp hq]; exact fun e => h e.symm

/-- The trace of one span. -/
theorem rooted_members {clock k t} (h : TreeOk clock k t) {m : Span} (hm : t.members = [m]) : Rooted k t.spans := by
  have hall : ∀ s ∈ t.spans, s.id = m.id := by
    intro s hs
    obtain ⟨x, hx, he⟩ := (h.inv.ids s.id).mp ⟨s, hs, rfl⟩
    rw [hm, List.mem_singleton] at hx
    rw [← he, hx]
  cases hsp : t.spans with
  | nil => exact absurd hsp h.spans_ne
  | cons s l =>
    cases l with
    | nil => exact rooted_single k s
    | cons s' l =>
      have hnd : (t.spans.map Span.id).Nodup := sortedDesc_ids h.inv.sorted
      rw [hsp] at hnd hall
      simp only [List.map_cons, List.nodup_cons, List.mem_cons, not_or] at hnd
      exact absurd ((hall s (by simp)).trans (hall s' (by simp)).symm) hnd.1.1

/-- The first span, a tick after one second, the second span. -/
theorem quick_exists : ∃ (w' : World) (i : TickInput),
    let es := [CEvent.receive 0 0 exA, .tick i, .receive 1500000000 1500000000 exB]
    Runs { clock := 0 } es w' ∧ Quick 5 es ∧ Calm { clock := 0 } es ∧ FewIds (spansOf 5 es) ∧ spansOf 5 es = [exA, exB] ∧
    timesOf 5 es = some (0, 1500000000) ∧ w'.received = [exA, exB] ∧ w'.clock = 1500000000 := by
  have r1 : Runs { clock := 0 } [CEvent.receive 0 0 exA] _ := .receive 0 0 exA .nil (Int.le_refl _) (Int.le_refl _)
  obtain ⟨i, hv, h1, h2, _⟩ := exists_valid (World.receive { clock := 0 } 0 0 exA).c 1000000000 1000000000 (fun _ => 0) (Int.le_refl _)
  have r2 := r1.tick i hv (by rw [h1]; decide)
  have r3 := r2.receive 1500000000 1500000000 exB (by show i.now2 ≤ _; rw [h2]; decide) (Int.le_refl _)
  refine ⟨_, i, r3, ?_, calm_of_few (.init 0) r3 (by show [exA, exB].length ≤ _; decide), ⟨[5, 7], by decide, ?_⟩, rfl, rfl, rfl, rfl⟩
  · intro pre j a b hp ht
    have hlen := hp.length_le
    match pre, hp with
    | [], ⟨_, hp⟩ => simp at hp
    | [e], ⟨_, hp⟩ =>
      simp only [List.cons_append, List.nil_append, List.cons.injEq, CEvent.tick.injEq] at hp
      obtain ⟨rfl, rfl, _⟩ := hp
      have : timesOf 5 [CEvent.receive 0 0 exA] = some (0, 0) := rfl
      rw [this] at ht
      cases ht
      rw [h1, h2]
      decide
    | [_, _], ⟨_, hp⟩ => simp at hp
    | _ :: _ :: _ :: _, _ => simp at hlen
  · intro s hs
    have : s ∈ [exA, exB] := hs
    simp only [List.mem_cons, List.not_mem_nil, or_false] at this
    rcases this with rfl | rfl <;> decide

/-- Both spans are delivered in one trace. -/
theorem quick_delivered : ∃ v t out, Reachable v ∧ v.removed.filter (fun r => r.id == 5) = [⟨5, t, .emitted out⟩] ∧ t.members = [exA, exB] ∧ out ∈ emittedOf v.removed ∧
    receivedFor 5 v.received = [exA, exB] := by
  obtain ⟨w', i, hrun, hq, hc, hids, hsp, ht, hrec, hclock⟩ := quick_exists
  obtain ⟨j, hv, h1, h2, _⟩ := exists_valid w'.c 9500000000 9500000000 (fun _ => 0) (Int.le_refl _)
  have hw' := Runs.reachable (.init 0) hrun
  have r : Runs w' ([] ++ [CEvent.tick j]) (w'.tick j) := Runs.nil.tick j hv (by rw [hclock, h1]; decide)
  obtain ⟨t, h3, h4, h5⟩ := C86_delivered (.init 0) rfl hrun hq hc hids ht (fs := []) r rfl
    (calm_of_few hw' r (by show w'.received.length ≤ _; rw [hrec]; decide)) (by rw [h1]; decide)
    (by
      intro pre i' hp
      have hlen := hp.length_le
      match pre, hp with
      | [], ⟨_, hp⟩ =>
        simp only [List.nil_append, List.cons_append, List.cons.injEq, CEvent.tick.injEq] at hp
        obtain ⟨rfl, _⟩ := hp
        rw [h2]; decide
      | _ :: _, _ => simp at hlen)
  have hm : t.members = [exA, exB] := by
    rw [h4]
    show receivedFor 5 w'.received = _
    rw [hrec]; rfl
  have ok := (reachable_inv hw').trees 5 t h3
  obtain ⟨out, h6, h7, _⟩ := h5 (by
    left
    -- the root is the only span without a parent in the trace
    have ids : ∀ x, (∃ s ∈ t.spans, s.id = x) ↔ x = 5 ∨ x = 7 := by
      intro x
      rw [ok.inv.ids, hm]
      constructor
      · rintro ⟨m, hm, rfl⟩
        simp only [List.mem_cons, List.not_mem_nil, or_false] at hm
        rcases hm with rfl | rfl
        · exact .inl rfl
        · exact .inr rfl
      · rintro (rfl | rfl)
        · exact ⟨exA, by simp, rfl⟩
        · exact ⟨exB, by simp, rfl⟩
    have par : ∀ s ∈ t.spans, (s.id = 5 ∧ s.parent = 0) ∨ (s.id = 7 ∧ s.parent = 5) := by
      intro s hs
      have hh := ok.inv.mem_held hs
      rw [hm] at hh
      rcases (ids s.id).mp ⟨s, hs, rfl⟩ with e | e
      · rw [e] at hh
        have e5 : (held 5 [exA, exB]).map Span.parent = some 0 := by decide +kernel
        rw [hh] at e5
        exact .inl ⟨e, Option.some.inj e5⟩
      · rw [e] at hh
        have e5 : (held 7 [exA, exB]).map Span.parent = some 5 := by decide +kernel
        rw [hh] at e5
        exact .inr ⟨e, Option.some.inj e5⟩
    obtain ⟨s, hs, hid⟩ := (ids 5).mpr (.inl rfl)
    have hp : s.parent = 0 := by
      rcases par s hs with ⟨_, h⟩ | ⟨h, _⟩
      · exact h
      · rw [hid] at h; exact absurd h (by decide)
    refine ⟨s, ⟨hs, .inr fun q hq => ?_⟩, fun q hq => ?_⟩
    · rw [hp]
      rcases par q hq with ⟨h, _⟩ | ⟨h, _⟩ <;> rw [h] <;> decide
    · rcases par q hq.1 with ⟨h, _⟩ | ⟨h, h'⟩
      · exact ok.inv.sorted.uniqueIds q hq.1 s hs (h.trans hid.symm)
      · rcases hq.2 with e | e
        · rw [h, h'] at e; exact absurd e (by decide)
        · exact absurd (hid.trans h'.symm) (e s hs))
  exact ⟨_, t, out, Runs.reachable hw' r, h6, hm, h7, h4 ▸ hm⟩

/-- Without the bound on the time between two spans, a trace is delivered in parts: the child came 8 seconds after its parent. -/
theorem C86_slow_fails : ∃ v, Reachable v ∧ ∃ r1 ∈ v.removed, ∃ r2 ∈ v.removed, ∃ o1 o2, r1.id = 5 ∧ r2.id = 5 ∧
    r1.tree.members = [exA] ∧ r2.tree.members = [exB] ∧ r1.fate = .emitted o1 ∧ r2.fate = .emitted o2 := by
  have r1 : Runs { clock := 0 } [CEvent.receive 0 0 exA] _ := .receive 0 0 exA .nil (Int.le_refl _) (Int.le_refl _)
  have hw1 := Runs.reachable (.init 0) r1
  generalize hw : World.receive { clock := 0 } 0 0 exA = w1 at r1 hw1
  have hclock : w1.clock = 0 := by rw [← hw]; rfl
  have hrec : w1.received = [exA] := by rw [← hw]; rfl
  obtain ⟨i, hv, h1, h2, _⟩ := exists_valid w1.c 8000000000 8000000000 (fun _ => 0) (Int.le_refl _)
  have r2 : Runs w1 ([] ++ [CEvent.tick i]) (w1.tick i) := Runs.nil.tick i hv (by rw [hclock, h1]; decide)
  have hw2 := Runs.reachable hw1 r2
  obtain ⟨t, e1, e2, e3⟩ := C86_delivered (es := [CEvent.receive 0 0 exA]) (k := 5) (a := 0) (b := 0) (.init 0) rfl r1
    (by
      intro pre j a b hp _
      have hlen := hp.length_le
      match pre, hp with
      | [], ⟨_, hp⟩ => simp at hp
      | _ :: _, _ => simp at hlen)
    (calm_of_few (.init 0) r1 (by rw [hrec]; decide)) ⟨[5], by decide, by
      intro s hs
      have : s ∈ [exA] := hs
      rw [List.mem_singleton.mp this]; decide⟩ rfl (fs := []) r2 rfl
    (calm_of_few hw1 r2 (by show w1.received.length ≤ _; rw [hrec]; decide)) (by rw [h1]; decide)
    (by
      intro pre i' hp
      have hlen := hp.length_le
      match pre, hp with
      | [], ⟨_, hp⟩ =>
        simp only [List.nil_append, List.cons_append, List.cons.injEq, CEvent.tick.injEq] at hp
        obtain ⟨rfl, _⟩ := hp
        rw [h2]; decide
      | _ :: _, _ => simp at hlen)
  have hm : t.members = [exA] := by
    rw [e2]
    show receivedFor 5 w1.received = _
    rw [hrec]; rfl
  obtain ⟨out, e4, _, _⟩ := e3 (rooted_members ((reachable_inv hw1).trees 5 t e1) hm)
  have hin : (⟨5, t, .emitted out⟩ : Removal) ∈ (w1.tick i).removed :=
    (List.mem_filter.mp (by rw [e4]; exact List.mem_singleton.mpr rfl)).1
  generalize hw' : w1.tick i = w2 at *
  have hclock2 : w2.clock = 8000000000 := by rw [← hw', ← h2]; rfl
  have hinv2 := reachable_inv hw2
  have hb : w2.c.blacklist[(5 : Id)]? = none := by
    cases hbl : w2.c.blacklist[(5 : Id)]? with
    | none => rfl
    | some u =>
      obtain ⟨r, hr, hid, hf⟩ := hinv2.blocked 5 hbl
      have : r ∈ w2.removed.filter (fun r => r.id == 5) := List.mem_filter.mpr ⟨hr, by simpa using hid⟩
      rw [e4, List.mem_singleton] at this
      subst this
      rcases hf with hf | hf <;> cases hf
  have hgone : w2.c.traces[(5 : Id)]? = none := by
    rcases unchanged hw1 e1 (by rw [← hw]; intro r hr; contradiction) r2 rfl with ⟨_, h⟩ | ⟨h, _⟩
    · exact absurd rfl (h _ hin)
    · exact h
  have r3 : Runs w2 [CEvent.receive 8000000000 8000000000 exB] _ := .receive 8000000000 8000000000 exB .nil (by rw [hclock2]; exact Int.le_refl _) (Int.le_refl _)
  have hw3 := Runs.reachable hw2 r3
  have ht3 := receive_traces (w := w2) 8000000000 8000000000 exB 5 hb
  rw [if_pos (by decide), hgone] at ht3
  have f1 := (newTree 8000000000 5).addSpan_members 8000000000 exB
  obtain ⟨_, f2, f3⟩ := (newTree 8000000000 5).addSpan_fields 8000000000 exB
  change (w2.receive 8000000000 8000000000 exB).c.traces[(5 : Id)]? = some ((newTree 8000000000 5).addSpan 8000000000 exB) at ht3
  generalize (newTree 8000000000 5).addSpan 8000000000 exB = t3 at *
  have hc3 : (w2.receive 8000000000 8000000000 exB).clock = 8000000000 := rfl
  have hrem3 : (w2.receive 8000000000 8000000000 exB).removed = w2.removed := rfl
  generalize w2.receive 8000000000 8000000000 exB = w3 at *
  obtain ⟨j, hj, j1, j2, _⟩ := exists_valid w3.c 16000000000 16000000000 (fun _ => 0) (Int.le_refl _)
  obtain ⟨hf, _⟩ := tick_fates (reachable_inv hw3) hj ht3
  have ok := (reachable_inv hw3).trees 5 t3 ht3
  obtain ⟨b1, b2⟩ := bufferTime_bounds (counted w3.c.traces.toList)
  generalize Spec.bufferTime (counted w3.c.traces.toList) = bt at *
  obtain ⟨out', ho⟩ := hf.emitted.mpr ⟨not_large ok ⟨[7], by decide, by
      rw [f1]
      intro s hs
      have : s ∈ [exB] := hs
      rw [List.mem_singleton.mp this]; decide⟩,
    by
      unfold Old
      rw [f2, j2]
      show ¬ ((8000000000 : Int) < 16000000000 - 5 * bt)
      simp only [Time] at *; omega,
    by
      unfold Idle
      rw [f3, j1]
      simp only [Time] at *; omega,
    rooted_members ok f1⟩
  refine ⟨w3.tick j, .tick j hw3 hj (by rw [hc3, j1]; decide), _, List.mem_append_left _ (by rw [hrem3]; exact hin), _, List.mem_append_right _ ho, out, out', rfl, rfl, hm, f1, rfl, rfl⟩

end Verif
