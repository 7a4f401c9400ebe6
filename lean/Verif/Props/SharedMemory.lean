import Verif.Proofs.SharedMemory

/-!
# C167: the collector, the forwarder and the targets share one memory
-/

namespace Verif

open Spec Std Ref

variable {κ : Type} {conv : κ → Span → Option Span × κ} {caps : List Nat} {k : κ} {n : Nat}

theorem Ref.Same.delivered {g : Shared κ} {f0 : Forwarder κ} (h : Same g.p g.f f0) (i : Nat) : g.delivered i = f0.delivered i := by
  have ht : g.f.taken.getD i [] = (f0.taken.getD i []).map (loc g.p.sent) := by
    rw [h.taken, List.getD_eq_getElem?_getD, List.getD_eq_getElem?_getD, List.getElem?_map]
    cases f0.taken[i]? <;> rfl
  have hq : g.f.queues.getD i [] = (f0.queues.getD i []).map (loc g.p.sent) := by
    rw [h.queues, List.getD_eq_getElem?_getD, List.getD_eq_getElem?_getD, List.getElem?_map]
    cases f0.queues[i]? <;> rfl
  unfold Shared.delivered Forwarder.delivered
  rw [ht, hq, ← List.map_append, List.map_map]
  refine List.map_congr_left fun r hr => h.read ?_
  rcases List.mem_append.mp hr with hr | hr
  · rw [List.getD_eq_getElem?_getD] at hr
    cases hx : f0.taken[i]? with
    | none => rw [hx] at hr; cases hr
    | some q => rw [hx] at hr; exact Or.inr (Or.inr (Or.inr ⟨q, List.mem_of_getElem? hx, hr⟩))
  · rw [List.getD_eq_getElem?_getD] at hr
    cases hx : f0.queues[i]? with
    | none => rw [hx] at hr; cases hr
    | some q => rw [hx] at hr; exact Or.inr (Or.inr (Or.inl ⟨q, List.mem_of_getElem? hx, hr⟩))

theorem Ref.Same.idle {p : PWorld} {f f0 : Forwarder κ} (h : Same p f f0) : f.Idle ↔ f0.Idle := by
  unfold Forwarder.Idle
  rw [h.source, h.sending, h.queues, List.map_eq_nil_iff, Option.map_eq_none_iff]
  refine and_congr_right fun _ => and_congr_right fun _ => ⟨fun hq q hm => ?_, fun hq q hm => ?_⟩
  · exact List.map_eq_nil_iff.mp (hq _ (List.mem_map_of_mem hm))
  · obtain ⟨q0, h0, rfl⟩ := List.mem_map.mp hm
    rw [hq q0 h0]; rfl

theorem Ref.Same.moves {p : PWorld} {f f0 f0' : Forwarder κ} (h : Same p f f0) (hs : f0.Step conv caps f0') : ∃ f', Forwarder.Step conv caps { f with heap := p.heap } f' := by
  cases hs with
  | own hs =>
    cases hs with
    | take h1 h2 => exact ⟨_, .own (.take _ (by show f.source = _; rw [h.source, h1]; rfl) (by show f.sending = _; rw [h.sending, h2]; rfl))⟩
    | send h1 h2 h3 =>
      exact ⟨_, .own (.send _ (by show f.sending = _; rw [h.sending, h1]; rfl) (by show f.queues[_]? = _; rw [h.queues, List.getElem?_map, h2]; rfl) (by rw [List.length_map]; exact h3))⟩
    | finish h1 => exact ⟨_, .own (.finish _ (by show f.sending = some (_, f.queues.length); rw [h.sending, h.queues, List.length_map, h1]; rfl))⟩
  | receive hs =>
    cases hs with
    | mk h1 h2 =>
      exact ⟨_, .receive (.mk _ (by show f.queues[_]? = _; rw [h.queues, List.getElem?_map, h1]; rfl) (by show f.taken[_]? = _; rw [h.taken, List.getElem?_map, h2]; rfl))⟩

/-- C167: whatever the collector, the forwarder and the targets write to their common memory, and in any order: a target that reads its slices now sees the converted traces as the collector sent them, in this
order, all but those that are still on the way. -/
theorem C167_delivers {g : Shared κ} {ph : Phase} {w : World} (h : Shared.Reachable conv caps k n g ph w) :
    g.f.source.length ≤ g.p.sent.length ∧ ∀ i, i < n →
      g.delivered i = (convertTraces conv k (g.p.sent.map (·.2))).take (g.p.sent.length - g.f.source.length) ∨
      g.f.sending ≠ none ∧ g.delivered i = (convertTraces conv k (g.p.sent.map (·.2))).take (g.p.sent.length - g.f.source.length - 1) := by
  obtain ⟨_, f0, hr, hs⟩ := h.same
  obtain ⟨h1, h2⟩ := C55_delivers hr
  rw [List.length_map] at h1 h2
  have hl : g.f.source.length = f0.source.length := by rw [hs.source, List.length_map]
  refine ⟨by rw [hl]; exact h1, fun i hi => ?_⟩
  rw [hs.delivered i, hl, hs.sending]
  rcases h2 i hi with h2 | ⟨h3, h2⟩
  · exact Or.inl h2
  · exact Or.inr ⟨fun e => h3 (Option.map_eq_none_iff.mp e), h2⟩

/-- C167: what the collector sent is what it sends alone: between two ticks that of the whole history, during a tick that of the history and a part of what the tick will have sent at its end. -/
theorem C167_sent {g : Shared κ} {ph : Phase} {w : World} (h : Shared.Reachable conv caps k n g ph w) : Reachable w ∧
    match ph with
    | .waiting => g.p.sent.map (·.2) = emittedOf w.removed
    | .ticking i _ _ _ => Reachable (w.tick i) ∧ emittedOf w.removed <+: g.p.sent.map (·.2) ∧ g.p.sent.map (·.2) <+: emittedOf (w.tick i).removed := by
  obtain ⟨hb, _⟩ := h.same
  cases ph with
  | waiting => exact ⟨(C166_same hb).1, (C166_same hb).2.2.1⟩
  | ticking i extra m rest =>
    obtain ⟨hr, hv, hc, _, looked, todo, ho, hn, hs, hm⟩ := beside_sim hb
    refine ⟨hr, .tick i hr hv hc, ?_⟩
    rw [hm]
    refine ⟨List.prefix_append _ _, ?_⟩
    show _ <+: emittedOf (_ ++ (w.c.tick i).2)
    rw [emittedOf_append]
    refine (List.prefix_append_right_inj _).mpr ?_
    obtain ⟨p', e, hb'⟩ := beside_ends hb
    have hend := (C166_same hb').2.2.1
    have hmono : ∀ (ids : List Id) (q q' : PWorld), Beside q (.ticking i extra m ids) w → ids.foldlM (PWorld.finishOne extra (i.now1 - bufferTime m) (i.now2 - 5 * bufferTime m) i.nowFake) q = some q' →
        q.sent <+: q'.sent ∧ Beside q' (.ticking i extra m []) w := by
      intro ids
      induction ids with
      | nil => intro q q' hq hf; cases hf; exact ⟨List.prefix_rfl, hq⟩
      | cons id ids ih =>
        intro q q' hq hf
        obtain ⟨q1, e1, e2, _⟩ := C166_sent.2.1 hq
        rw [List.foldlM_cons, e1] at hf
        obtain ⟨a, b⟩ := ih q1 q' (.finish hq e1) hf
        exact ⟨e2.trans a, b⟩
    obtain ⟨hp, hb2⟩ := hmono rest g.p p' hb e
    rw [(C166_sent.2.2 hb2).2] at hend
    have := hp.map (·.2)
    rw [hend, hm] at this
    change _ <+: emittedOf (_ ++ (w.c.tick i).2) at this
    rw [emittedOf_append] at this
    exact (List.prefix_append_right_inj _).mp this

/-- C167: when nothing is on the way, every target has everything. -/
theorem C167_complete {g : Shared κ} {w : World} (h : Shared.Reachable conv caps k n g .waiting w) (hi : g.f.Idle) : ∀ i, i < n → g.delivered i = convertTraces conv k (emittedOf w.removed) := by
  intro i hin
  obtain ⟨hb, f0, hr, hs⟩ := h.same
  rw [(C166_same hb).2.2.1] at hr
  have hid := hs.idle.mp hi
  rw [hs.delivered i, ← C55_complete hr hid i hin]
  unfold Forwarder.delivered
  have hq : f0.queues.getD i [] = [] := by
    rw [List.getD_eq_getElem?_getD]
    cases hx : f0.queues[i]? with
    | none => rfl
    | some q => exact hid.2.2 q (List.mem_of_getElem? hx)
  rw [hq, List.append_nil]

/-- C167: the collector does what it does alone: its pending traces hold the same spans. -/
theorem C167_collector {g : Shared κ} {w : World} (h : Shared.Reachable conv caps k n g .waiting w) (x : Id) :
    (g.p.traces[x]?).map (fun t => t.slice.read g.p.heap) = (w.c.traces[x]?).map (fun t => t.spans) := by
  have := congrArg (Option.map Prod.fst) ((C166_same h.same.1).2.2.2 x)
  rw [Option.map_map, Option.map_map] at this
  exact this

/-- C167: the forwarder and the targets have no slice of an array of a pending trace. -/
theorem C167_apart {g : Shared κ} {ph : Phase} {w : World} (h : Shared.Reachable conv caps k n g ph w) (r : SliceRef) (hr' : Has g.f r) (x : Id) (t : PTree) (ht : g.p.traces[x]? = some t)
    (hc : t.slice.cap ≠ 0) : t.slice.arr ≠ r.addr := by
  obtain ⟨hb, f0, hr, hs⟩ := h.same
  have key : ∃ r0, Has f0 r0 ∧ loc g.p.sent r0 = r := by
    rcases hr' with hm | ⟨i, hm⟩ | ⟨q, hq, hm⟩ | ⟨q, hq, hm⟩
    · rw [hs.source] at hm
      obtain ⟨r0, h0, e⟩ := List.mem_map.mp hm
      exact ⟨r0, Or.inl h0, e⟩
    · rw [hs.sending] at hm
      obtain ⟨e0, h0, e⟩ := Option.map_eq_some_iff.mp hm
      cases e
      exact ⟨e0.1, Or.inr (Or.inl ⟨e0.2, h0⟩), rfl⟩
    · rw [hs.queues] at hq
      obtain ⟨q0, hq0, rfl⟩ := List.mem_map.mp hq
      obtain ⟨r0, h0, e⟩ := List.mem_map.mp hm
      exact ⟨r0, Or.inr (Or.inr (Or.inl ⟨q0, hq0, h0⟩)), e⟩
    · rw [hs.taken] at hq
      obtain ⟨q0, hq0, rfl⟩ := List.mem_map.mp hq
      obtain ⟨r0, h0, e⟩ := List.mem_map.mp hm
      exact ⟨r0, Or.inr (Or.inr (Or.inr ⟨q0, hq0, h0⟩)), e⟩
  obtain ⟨r0, h0, rfl⟩ := key
  obtain ⟨y, hy, _⟩ := hs.within r0 h0
  rw [loc_of hy]
  exact (C166_apart hb).2.1 y (List.mem_of_getElem? hy) x t ht hc

/-- C167: the forwarder gets to an end, from everywhere. -/
theorem C167_drains {g : Shared κ} {ph : Phase} {w : World} (h : Shared.Reachable conv caps k n g ph w) (hcaps : ∀ i, i < n → 0 < caps.getD i 0) :
    ∃ g', Shared.Reachable conv caps k n g' ph w ∧ g'.f.Idle := by
  generalize hm : g.f.work = m
  induction m using Nat.strongRecOn generalizing g with
  | _ m ih =>
    by_cases hi : g.f.Idle
    · exact ⟨g, h, hi⟩
    · obtain ⟨_, f0, hr, hs⟩ := h.same
      obtain ⟨f0', st⟩ := C55_progress hr hcaps fun hx => hi (hs.idle.mpr hx)
      obtain ⟨f', st'⟩ := hs.moves st
      have hlt := C55_terminates st'
      exact ih f'.work (by rw [← hm]; exact hlt) (.forward h st') rfl

/-- C167: a tick gets to its end, whatever the forwarder does meanwhile. -/
theorem C167_ends {i : TickInput} {extra : Id → Nat} {m : Nat} {rest : List Id} : ∀ {g : Shared κ} {w : World}, Shared.Reachable conv caps k n g (.ticking i extra m rest) w →
    ∃ g', Shared.Reachable conv caps k n g' .waiting (w.tick i) := by
  induction rest with
  | nil => exact fun h => ⟨_, .done h⟩
  | cons id rest ih =>
    intro g w h
    obtain ⟨p', e, _⟩ := C166_sent.2.1 h.same.1
    exact ih (.finish h e)

/-- C167: every history of the collector is met, with any targets. -/
theorem C167_exists {w : World} (h : Reachable w) (hcaps : ∀ i, i < n → 0 < caps.getD i 0) : ∃ g : Shared κ, Shared.Reachable conv caps k n g .waiting w ∧ g.f.Idle := by
  have key : ∃ g : Shared κ, Shared.Reachable conv caps k n g .waiting w := by
    induction h with
    | init now => exact ⟨_, .start now []⟩
    | receive now1 now2 s _ h1 h2 ih =>
      obtain ⟨g, hg⟩ := ih
      obtain ⟨p', e, _⟩ := C166_sent.1 hg.same.1 0 now1 now2 s
      exact ⟨_, .receive now1 now2 s 0 hg h1 h2 e⟩
    | tick i _ hv hc ih =>
      obtain ⟨g, hg⟩ := ih
      exact C167_ends (.tick i (fun _ => 0) hg hv hc)
  obtain ⟨g, hg⟩ := key
  exact C167_drains hg hcaps

/-- Drops the spans whose parent is the trace, like those that are made up; renames the others. -/
def dropRoots (_ : Unit) (s : Span) : Option Span × Unit := (if s.parent = s.trace then none else some { s with name := b!"y" }, ())

/-- C167: a made-up root is dropped, so that the array that both targets read has fewer spans than the collector sent. A step of the forwarder on a slice of a pending trace, which `C167_apart` excludes, would be seen. -/
theorem C167_witness : (∃ g : Shared Unit, Shared.Reachable dropRoots [1, 1] () 2 g .waiting ((flood lostParent).tick tickLost) ∧ g.f.Idle ∧
      (g.delivered 0).map (·.map fun s => (s.id, s.name)) = [[(9, b!"y"), (5, b!"y")]] ∧ g.delivered 1 = g.delivered 0) ∧
    (emittedOf ((flood lostParent).tick tickLost).removed).map (·.map Span.id) = [[9, 5, 3]] ∧
    (SpanHeap.read (convertTrace dropRoots () [[{ id := 3, parent := 7, trace := 7 }, { id := 5, parent := 3, trace := 7 }]] ⟨0, 2⟩).2.2 ⟨0, 2⟩).map Span.id = [5, 5] := by
  refine ⟨?_, by decide +kernel, by decide +kernel⟩
  obtain ⟨g, hg, hi⟩ := C167_exists (κ := Unit) (conv := dropRoots) (caps := [1, 1]) (k := ()) (n := 2) (.tick tickLost (flood_reachable lostParent) tickLost_valid (by decide)) (by decide)
  refine ⟨g, hg, hi, ?_, ?_⟩
  · rw [C167_complete hg hi 0 (by decide)]; decide +kernel
  · rw [C167_complete hg hi 0 (by decide), C167_complete hg hi 1 (by decide)]

/-- Two traces of one span each. -/
def pairOfTraces : List Span := [{ id := 1, trace := 1 }, { id := 2, trace := 2 }]

/-- A tick after nine seconds. -/
def tickPair : TickInput :=
  let i : TickInput := { now1 := 9000000000, now2 := 9000000000, nowFake := fun _ => 0, sorted := [], blOrder := [], order := (flood pairOfTraces).c.traces.toList }
  { i with blOrder := ((flood pairOfTraces).c.shed i).1.blacklist.toList }

theorem tickPair_valid : tickPair.Valid (flood pairOfTraces).c := by
  refine ⟨isRange_refl (flood pairOfTraces).c.traces, ?_, List.Pairwise.nil, isRange_refl _, Int.le_refl _⟩
  have : ((flood pairOfTraces).c.finishLoop tickPair).1.traces.toList.length = 0 := by decide +kernel
  show List.Perm [] _
  rw [List.length_eq_zero_iff.mp this]

/-- C167: the forwarder may be done with the first trace of a tick, while the second one is still pending. -/
theorem C167_witness_during : ∃ (g : Shared Nat) (extra : Id → Nat) (m : Nat) (rest : List Id), Shared.Reachable exampleConverter [1, 1] 0 2 g (.ticking tickPair extra m rest) (flood pairOfTraces) ∧
    rest.length = 1 ∧ g.p.sent.length = 1 ∧ g.f.Idle := by
  obtain ⟨g, hg, _⟩ := C167_exists (κ := Nat) (conv := exampleConverter) (caps := [1, 1]) (k := 0) (n := 2) (flood_reachable pairOfTraces) (by decide)
  have h1 := Shared.Reachable.tick tickPair (fun _ => 0) hg tickPair_valid (by decide)
  obtain ⟨a, b, hab⟩ : ∃ a b, tickPair.order.map (·.1) = [a, b] := ⟨1, 2, by decide +kernel⟩
  rw [hab] at h1
  obtain ⟨p', e, _⟩ := C166_sent.2.1 h1.same.1
  have h2 := Shared.Reachable.finish h1 e
  obtain ⟨g', hg', hi⟩ := C167_drains h2 (by decide)
  refine ⟨g', _, _, _, hg', rfl, ?_, hi⟩
  obtain ⟨_, _, _, _, looked, todo, ho, hn, _, hm⟩ := beside_sim hg'.same.1
  have hl : looked = tickPair.order.take 1 := by
    have h3 := congrArg List.length hn
    have h4 := congrArg List.length hab
    have h5 := congrArg List.length ho
    simp only [List.length_map, List.length_cons, List.length_nil, List.length_append] at h3 h4 h5
    rw [ho, List.take_append_of_le_length (by omega), List.take_of_length_le (by omega)]
  subst hl
  have := congrArg List.length hm
  rw [List.length_map, List.length_append] at this
  rw [this]
  decide +kernel

end Verif
