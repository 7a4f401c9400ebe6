import Verif.Proofs.ReferencesWorld
import Verif.Props.Orders

/-!
# C166: references to spans are valid, and what was sent is not touched any more
-/

namespace Verif

open Spec Std Ref

theorem beside_sim {p : PWorld} {ph : Phase} {w : World} (h : Beside p ph w) : Reachable w ∧ During p ph w := by
  induction h with
  | start now h =>
    refine ⟨.init now, ⟨rfl, fun k => ?_, fun k t v ht _ => ?_, fun k k' t t' _ ht => ?_, fun x hx => (by cases hx), List.Pairwise.nil⟩, rfl⟩
    · simp
    · exact absurd ht (by simp)
    · exact absurd ht (by simp)
  | receive now1 now2 s extra _ h1 h2 he ih =>
    obtain ⟨hr, hs, hm⟩ := ih
    obtain ⟨p', e, s', n, hn⟩ := receive_sim hs extra now1 now2 s
    rw [he] at e
    cases e
    obtain ⟨new, n1, n2, _⟩ := n
    rw [List.map_eq_nil_iff.mp n2, List.append_nil] at n1
    exact ⟨.receive now1 now2 s hr h1 h2, s', by rw [n1]; exact hm⟩
  | tick i extra _ hv hc ih =>
    obtain ⟨hr, hs, hm⟩ := ih
    have hn := (count_sim hs i.order fun e he => (mem_range hv.order).mp he).1
    rw [spanCountOf_perm hv.order] at hn
    exact ⟨hr, hv, hc, hn, [], i.order, rfl, rfl, hs, by rw [hm]; exact (List.append_nil _).symm⟩
  | finish _ he ih =>
    obtain ⟨hr, hd⟩ := ih
    obtain ⟨p', d, e, hd', _⟩ := hd.next hr
    rw [he] at e
    cases e
    exact ⟨hr, hd'⟩
  | done _ ih =>
    obtain ⟨hr, hv, hc, rfl, looked, todo, ho, hn, hs, hm⟩ := ih
    rw [List.map_eq_nil_iff.mp hn.symm, List.append_nil] at ho
    subst ho
    rw [finishSome_order] at hs hm
    obtain ⟨a1, a2, a3, a4⟩ := endTick_sim hv hs
    refine ⟨.tick _ hr hv hc, a1, ?_⟩
    show _ = emittedOf (_ ++ _)
    rw [a3, hm, emittedOf_append, a4]
  | @others p ph w h _ ho ih =>
    obtain ⟨hr, hd⟩ := ih
    refine ⟨hr, ?_⟩
    cases ph with
    | waiting => exact ⟨hd.1.others ho, hd.2⟩
    | ticking =>
      obtain ⟨h1, h2, h3, looked, todo, h4, h5, h6, h7⟩ := hd
      exact ⟨h1, h2, h3, looked, todo, h4, h5, h6.others ho, h7⟩

theorem Ref.During.sim {p : PWorld} {ph : Phase} {w : World} (h : During p ph w) : ∃ c, Sim p c := by
  cases ph with
  | waiting => exact ⟨_, h.1⟩
  | ticking =>
    obtain ⟨_, _, _, _, _, _, _, h, _⟩ := h
    exact ⟨_, h⟩

theorem Ref.Sim.same {p : PWorld} {c : Collector} (hs : Sim p c) (k : Id) :
    (p.traces[k]?).map (fun t => (t.slice.read p.heap, t.started, t.updated, t.nodeCount)) = (c.traces[k]?).map (fun t => (t.spans, t.started, t.updated, t.nodeCount)) := by
  cases ht : p.traces[k]? with
  | none => rw [(hs.pending k).mp ht]; rfl
  | some t =>
    cases hv : c.traces[k]? with
    | none => rw [(hs.pending k).mpr hv] at ht; cases ht
    | some v =>
      have hh := hs.holds k t v ht hv
      rw [Option.map_some, Option.map_some, hh.spans, hh.started, hh.updated, hh.nodeCount]

/-- C166: the collector with slices and pointers does the same as the collector with lists of spans, whatever other goroutines write to other arrays: the same traces are pending, with the same spans, and the
same traces were sent. -/
theorem C166_same {p : PWorld} {w : World} (h : Beside p .waiting w) : Reachable w ∧ p.blacklist = w.c.blacklist ∧ p.sent.map (·.2) = emittedOf w.removed ∧
    ∀ k : Id, (p.traces[k]?).map (fun t => (t.slice.read p.heap, t.started, t.updated, t.nodeCount)) = (w.c.traces[k]?).map (fun t => (t.spans, t.started, t.updated, t.nodeCount)) := by
  obtain ⟨hr, hs, hm⟩ := beside_sim h
  exact ⟨hr, hs.blacklist, hm, hs.same⟩

/-- C166: the same while a tick is at work, after it has looked at some of the traces: other goroutines may already write to the first of those it sent. -/
theorem C166_during {p : PWorld} {i : TickInput} {extra : Id → Nat} {n : Nat} {rest : List Id} {w : World} (h : Beside p (.ticking i extra n rest) w) :
    Reachable w ∧ i.Valid w.c ∧ ∃ looked todo, i.order = looked ++ todo ∧ rest = todo.map (·.1) ∧ p.blacklist = (finishSome w.c i looked).1.blacklist ∧
    p.sent.map (·.2) = emittedOf w.removed ++ emittedOf (finishSome w.c i looked).2 ∧
    ∀ k : Id, (p.traces[k]?).map (fun t => (t.slice.read p.heap, t.started, t.updated, t.nodeCount)) =
      ((finishSome w.c i looked).1.traces[k]?).map (fun t => (t.spans, t.started, t.updated, t.nodeCount)) := by
  obtain ⟨hr, hv, _, _, looked, todo, ho, hn, hs, hm⟩ := beside_sim h
  exact ⟨hr, hv, looked, todo, ho, hn, hs.blacklist, hm, hs.same⟩

/-- C166: no index is out of range and no pointer leads to nothing: the next span is received, and the tick deals with the next trace. Neither of them, nor the end of the tick, writes to an array that was sent. -/
theorem C166_sent {p : PWorld} {w : World} :
    (Beside p .waiting w → ∀ (extra : Nat) (now1 now2 : Time) (s : Span), ∃ p', p.receive extra now1 now2 s = some p' ∧ p'.sent = p.sent ∧ ∀ x ∈ p.sent, p'.heap[x.1.arr]? = p.heap[x.1.arr]?) ∧
    (∀ {i : TickInput} {extra : Id → Nat} {n : Nat} {id : Id} {rest : List Id}, Beside p (.ticking i extra n (id :: rest)) w →
      ∃ p', p.finishOne extra (i.now1 - bufferTime n) (i.now2 - 5 * bufferTime n) i.nowFake id = some p' ∧ p.sent <+: p'.sent ∧ ∀ x ∈ p.sent, p'.heap[x.1.arr]? = p.heap[x.1.arr]?) ∧
    (∀ {i : TickInput} {extra : Id → Nat} {n : Nat}, Beside p (.ticking i extra n []) w → (p.endTick n i).heap = p.heap ∧ (p.endTick n i).sent = p.sent) := by
  refine ⟨fun h extra now1 now2 s => ?_, fun h => ?_, fun h => ?_⟩
  · obtain ⟨hr, hs, _⟩ := beside_sim h
    obtain ⟨p', e, _, ⟨new, n1, n2, _⟩, hn⟩ := receive_sim hs extra now1 now2 s
    rw [List.map_eq_nil_iff.mp n2, List.append_nil] at n1
    exact ⟨p', e, n1, hn⟩
  · obtain ⟨hr, hd⟩ := beside_sim h
    obtain ⟨p', d, e, _, ⟨new, n1, _, _⟩, hn⟩ := hd.next hr
    exact ⟨p', e, ⟨new, n1.symm⟩, hn⟩
  · obtain ⟨hr, hv, hc, rfl, looked, todo, ho, hn, hs, hm⟩ := beside_sim h
    rw [List.map_eq_nil_iff.mp hn.symm, List.append_nil] at ho
    subst ho
    rw [finishSome_order] at hs
    obtain ⟨_, a2, a3, _⟩ := endTick_sim hv hs
    exact ⟨a2, a3⟩

/-- C166: no array belongs to two pending traces, to a pending trace and one that was sent, or to two that were sent. -/
theorem C166_apart {p : PWorld} {ph : Phase} {w : World} (h : Beside p ph w) :
    (∀ (k k' : Id) (t t' : PTree), k ≠ k' → p.traces[k]? = some t → p.traces[k']? = some t' → t.slice.cap ≠ 0 → t'.slice.cap ≠ 0 → t.slice.arr ≠ t'.slice.arr) ∧
    (∀ x ∈ p.sent, ∀ (k : Id) (t : PTree), p.traces[k]? = some t → t.slice.cap ≠ 0 → t.slice.arr ≠ x.1.arr) ∧
    p.sent.Pairwise fun x y => x.1.arr ≠ y.1.arr := by
  obtain ⟨_, hs⟩ := (beside_sim h).2.sim
  exact ⟨hs.apart, fun x hx => (hs.sent x hx).2, hs.once⟩

/-- A tick goes on to its end. -/
theorem beside_ends {i : TickInput} {extra : Id → Nat} {n : Nat} {rest : List Id} : ∀ {p : PWorld} {w : World}, Beside p (.ticking i extra n rest) w →
    ∃ p', rest.foldlM (PWorld.finishOne extra (i.now1 - bufferTime n) (i.now2 - 5 * bufferTime n) i.nowFake) p = some p' ∧ Beside (p'.endTick n i) .waiting (w.tick i) := by
  induction rest with
  | nil => exact fun h => ⟨_, rfl, .done h⟩
  | cons id rest ih =>
    intro p w h
    obtain ⟨p1, e1, _⟩ := C166_sent.2.1 h
    obtain ⟨p2, e2, h2⟩ := ih (.finish h e1)
    exact ⟨p2, by rw [List.foldlM_cons, e1]; exact e2, h2⟩

/-- C166: without other goroutines, a tick is `finishTraces` as a whole. -/
theorem C166_tick {p : PWorld} {w : World} (h : Beside p .waiting w) (i : TickInput) (extra : Id → Nat) (hv : i.Valid w.c) (hc : w.clock ≤ i.now1) :
    ∃ p', p.tick extra i = some p' ∧ Beside p' .waiting (w.tick i) := by
  obtain ⟨p', e, hb⟩ := beside_ends (.tick i extra h hv hc)
  refine ⟨_, ?_, hb⟩
  unfold PWorld.tick
  dsimp only
  rw [e]
  rfl

/-- C166: beside every history of the collector there is one with pointers, for any growth of arrays. -/
theorem C166_complete {w : World} (h : Reachable w) : ∃ p, Beside p .waiting w := by
  induction h with
  | init now => exact ⟨_, .start now []⟩
  | receive now1 now2 s _ h1 h2 ih =>
    obtain ⟨p, hp⟩ := ih
    obtain ⟨p', e, _⟩ := C166_sent.1 hp 0 now1 now2 s
    exact ⟨p', .receive now1 now2 s 0 hp h1 h2 e⟩
  | tick i _ hv hc ih =>
    obtain ⟨p, hp⟩ := ih
    obtain ⟨p', _, hb⟩ := C166_tick hp i (fun _ => 0) hv hc
    exact ⟨p', hb⟩

/-- Two spans whose parent is missing; one of them is received in two parts. -/
def lostParent : List Span := [{ id := 5, parent := 3, trace := 7 }, { id := 9, parent := 3, trace := 7 }, { id := 5, parent := 3, trace := 7, name := b!"x" }]

/-- A tick after nine seconds. -/
def tickLost : TickInput :=
  let i : TickInput := { now1 := 9000000000, now2 := 9000000000, nowFake := fun _ => 0, sorted := [], blOrder := [], order := (flood lostParent).c.traces.toList }
  { i with blOrder := ((flood lostParent).c.shed i).1.blacklist.toList }

theorem tickLost_valid : tickLost.Valid (flood lostParent).c := by
  refine ⟨isRange_refl (flood lostParent).c.traces, ?_, List.Pairwise.nil, isRange_refl _, Int.le_refl _⟩
  have : ((flood lostParent).c.finishLoop tickLost).1.traces.toList.length = 0 := by decide +kernel
  show List.Perm [] _
  rw [List.length_eq_zero_iff.mp this]

/-- The memory after the spans were received, and after the tick: the ids in all arrays, and the arrays that were sent. -/
def lostRun (extra : Nat) : Option (List (List Id) × List (List Id) × List (Nat × Nat × Nat)) :=
  (lostParent.foldlM (fun (p : PWorld) s => p.receive extra 0 0 s) ({} : PWorld)).bind fun p =>
    (p.tick (fun _ => extra) tickLost).map fun p' => (p.heap.map (·.map Span.id), p'.heap.map (·.map Span.id), p'.sent.map fun x => (x.1.arr, x.1.len, x.1.cap))

/-- C166: spans do move, within an array and to other arrays, also when the root is made up; other goroutines may write to the array of what was sent. -/
theorem C166_witness :
    lostRun 0 = some ([[5], [9, 5]], [[5], [9, 5], [9, 5, 3]], [(2, 3, 3)]) ∧
    lostRun 1 = some ([[9, 5]], [[9, 5], [9, 5, 3, 0]], [(1, 3, 4)]) ∧
    lostRun 2 = some ([[9, 5, 0]], [[9, 5, 3]], [(0, 3, 3)]) ∧
    ∃ (p : PWorld), Beside p .waiting ((flood lostParent).tick tickLost) ∧ p.sent.length = 1 ∧ ∀ x ∈ p.sent, ∀ a, p.Others (p.heap.set x.1.arr a) := by
  refine ⟨by decide +kernel, by decide +kernel, by decide +kernel, ?_⟩
  obtain ⟨p, hp⟩ := C166_complete (.tick tickLost (flood_reachable lostParent) tickLost_valid (by decide))
  obtain ⟨_, hs, hm⟩ := beside_sim hp
  have hl : (emittedOf ((flood lostParent).tick tickLost).removed).length = 1 := by decide +kernel
  rw [← hm, List.length_map] at hl
  have he : ((flood lostParent).tick tickLost).c.traces.toList.length = 0 := by decide +kernel
  have hn : ∀ k : Id, p.traces[k]? = none := by
    intro k
    rw [hs.pending k]
    cases hx : ((flood lostParent).tick tickLost).c.traces[k]? with
    | none => rfl
    | some t =>
      have := ExtTreeMap.mem_toList_iff_getElem?_eq_some.mpr hx
      rw [List.length_eq_zero_iff.mp he] at this
      cases this
  refine ⟨p, hp, hl, fun x _ a => ⟨by rw [List.length_set], fun k t ht => ?_⟩⟩
  rw [hn k] at ht
  cases ht

end Verif
