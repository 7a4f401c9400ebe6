import Verif.Proofs.References
import Verif.Proofs.Rename
import Verif.Proofs.System

/-!
# The collector with pointers: all executions
-/

namespace Verif.Ref

open Std

/-- The memory holds the state of the collector; no two pending traces share an array, and none shares one with what was sent. -/
structure Sim (p : PWorld) (c : Collector) : Prop where
  blacklist : p.blacklist = c.blacklist
  pending : ∀ (k : Id), p.traces[k]? = none ↔ c.traces[k]? = none
  holds : ∀ (k : Id) (t : PTree) (v : Tree), p.traces[k]? = some t → c.traces[k]? = some v → Holds p.heap t v
  apart : ∀ (k k' : Id) (t t' : PTree), k ≠ k' → p.traces[k]? = some t → p.traces[k']? = some t' → t.slice.cap ≠ 0 → t'.slice.cap ≠ 0 → t.slice.arr ≠ t'.slice.arr
  sent : ∀ x ∈ p.sent, x.1.arr < p.heap.length ∧ ∀ (k : Id) (t : PTree), p.traces[k]? = some t → t.slice.cap ≠ 0 → t.slice.arr ≠ x.1.arr
  once : p.sent.Pairwise fun x y => x.1.arr ≠ y.1.arr

/-- The memory holds what was sent. -/
def Intact (h : Heap) (x : Slice × List Span) : Prop := ∃ a, h[x.1.arr]? = some a ∧ x.1.len ≤ a.length ∧ a.take x.1.len = x.2

/-- What a step of the collector sends, and that it does not touch what was sent before. -/
def Sends (p p' : PWorld) (d : List (List Span)) : Prop :=
  (∃ new, p'.sent = p.sent ++ new ∧ new.map (·.2) = d ∧ ∀ x ∈ new, Intact p'.heap x) ∧ ∀ x ∈ p.sent, p'.heap[x.1.arr]? = p.heap[x.1.arr]?

theorem Sends.refl (p : PWorld) : Sends p p [] := ⟨⟨[], (List.append_nil _).symm, rfl, fun x hx => (by cases hx)⟩, fun _ _ => rfl⟩

theorem Sends.trans {p p' p'' : PWorld} {d d' : List (List Span)} (a : Sends p p' d) (b : Sends p' p'' d') : Sends p p'' (d ++ d') := by
  obtain ⟨⟨n, a1, a2, a4⟩, a3⟩ := a
  obtain ⟨⟨n', b1, b2, b4⟩, b3⟩ := b
  refine ⟨⟨n ++ n', by rw [b1, a1, List.append_assoc], by rw [List.map_append, a2, b2], fun x hx => ?_⟩, fun x hx => ?_⟩
  · rcases List.mem_append.mp hx with hx | hx
    · unfold Intact
      rw [b3 x (by rw [a1]; exact List.mem_append_right _ hx)]
      exact a4 x hx
    · exact b4 x hx
  rw [b3 x (by rw [a1]; exact List.mem_append_left _ hx), a3 x hx]

theorem Good.lt {h : Heap} {s : Slice} (hg : Good h s) (hc : s.cap ≠ 0) : s.arr < h.length := by
  obtain ⟨a, ha, _⟩ := hg.2 hc
  exact (List.getElem?_eq_some_iff.mp ha).1

theorem Holds.frame {h h' : Heap} {t : PTree} {v : Tree} (hh : Holds h t v) (hf : t.slice.cap ≠ 0 → h'[t.slice.arr]? = h[t.slice.arr]?) : Holds h' t v := by
  have hr : t.slice.read h' = t.slice.read h := by
    unfold Slice.read
    by_cases hc : t.slice.cap = 0
    · have := hh.good.1
      have h0 : t.slice.len = 0 := by omega
      rw [h0, List.take_zero, List.take_zero]
    · rw [hf hc]
  exact ⟨hh.id, by rw [hr, hh.spans], hh.started, hh.updated, hh.nodeCount, hh.good.1, fun hc => by rw [hf hc]; exact hh.good.2 hc⟩

/-- The slice of a trace, nil if it is new. -/
def sliceOf (p : PWorld) (k : Id) : Slice := ((p.traces[k]?).map PTree.slice).getD {}

/-- Other pending traces, and what was sent, are as before if only the trace `k` is worked on. -/
theorem Sim.frame {p : PWorld} {c : Collector} (hs : Sim p c) {k : Id} {h' : Heap} {s' : Slice} (hm : Moved p.heap (sliceOf p k) h' s') :
    (∀ (k' : Id) (t : PTree), k' ≠ k → p.traces[k']? = some t → t.slice.cap ≠ 0 → h'[t.slice.arr]? = p.heap[t.slice.arr]? ∧ (s'.cap ≠ 0 → t.slice.arr ≠ s'.arr)) ∧
    (∀ x ∈ p.sent, h'[x.1.arr]? = p.heap[x.1.arr]? ∧ (s'.cap ≠ 0 → s'.arr ≠ x.1.arr)) := by
  constructor
  · intro k' t hk ht hc
    obtain ⟨v, hv⟩ : ∃ v, c.traces[k']? = some v := by
      cases hv : c.traces[k']? with
      | none => rw [(hs.pending k').mpr hv] at ht; cases ht
      | some v => exact ⟨v, rfl⟩
    have hlt := (hs.holds k' t v ht hv).good.lt hc
    have hne : (sliceOf p k).cap ≠ 0 → t.slice.arr ≠ (sliceOf p k).arr := by
      unfold sliceOf
      cases hx : p.traces[k]? with
      | none => exact fun h => absurd rfl h
      | some u => exact fun h => hs.apart k' k t u hk ht hx hc h
    refine ⟨hm.frame _ hlt hne, fun hc' => ?_⟩
    rcases hm.arr hc' with ⟨h1, h2⟩ | h
    · rw [h2]; exact hne h1
    · omega
  · intro x hx
    obtain ⟨hlt, hap⟩ := hs.sent x hx
    have hne : (sliceOf p k).cap ≠ 0 → (sliceOf p k).arr ≠ x.1.arr := by
      unfold sliceOf
      cases hy : p.traces[k]? with
      | none => exact fun h => absurd rfl h
      | some u => exact fun h => hap k u hy h
    refine ⟨hm.frame _ hlt (fun h => Ne.symm (hne h)), fun hc' => ?_⟩
    rcases hm.arr hc' with ⟨h1, h2⟩ | h
    · rw [h2]; exact hne h1
    · omega

theorem receive_sim {p : PWorld} {c : Collector} (hs : Sim p c) (extra : Nat) (now1 now2 : Time) (s : Span) :
    ∃ p', p.receive extra now1 now2 s = some p' ∧ Sim p' (c.receive now1 now2 s) ∧ Sends p p' [] := by
  unfold PWorld.receive Collector.receive
  rw [hs.blacklist]
  split
  · exact ⟨p, rfl, hs, .refl p⟩
  · split
    · exact ⟨p, rfl, ⟨hs.blacklist, hs.pending, hs.holds, hs.apart, hs.sent, hs.once⟩, .refl p⟩
    · dsimp only
      have hh : Holds p.heap ((p.traces[s.trace]?).getD { traceId := s.trace, started := now1, updated := now1 }) ((c.traces[s.trace]?).getD (newTree now1 s.trace)) ∧
          ((p.traces[s.trace]?).getD { traceId := s.trace, started := now1, updated := now1 }).slice = sliceOf p s.trace := by
        unfold sliceOf
        cases ht : p.traces[s.trace]? with
        | none =>
          rw [(hs.pending _).mp ht]
          exact ⟨⟨rfl, rfl, rfl, rfl, rfl, Nat.le_refl _, fun h => absurd rfl h⟩, rfl⟩
        | some t =>
          cases hv : c.traces[s.trace]? with
          | none => rw [(hs.pending _).mpr hv] at ht; cases ht
          | some v => exact ⟨hs.holds _ t v ht hv, rfl⟩
      obtain ⟨h', t', e, hh', m⟩ := addSpan_eq hh.1 extra now2 s
      rw [hh.2] at m
      obtain ⟨f1, f2⟩ := hs.frame m
      rw [e]
      have hget : ∀ (k : Id), (p.traces.insert s.trace t')[k]? = if s.trace = k then some t' else p.traces[k]? := by
        intro k; rw [ExtTreeMap.getElem?_insert]; simp
      have hget' : ∀ (k : Id), (c.traces.insert s.trace (((c.traces[s.trace]?).getD (newTree now1 s.trace)).addSpan now2 s))[k]? =
          if s.trace = k then some (((c.traces[s.trace]?).getD (newTree now1 s.trace)).addSpan now2 s) else c.traces[k]? := by
        intro k; rw [ExtTreeMap.getElem?_insert]; simp
      refine ⟨_, rfl, ⟨rfl, fun k => ?_, fun k t v ht hv => ?_, fun k k' t u hk ht hu => ?_, fun x hx => ⟨?_, fun k t ht => ?_⟩, hs.once⟩, ⟨[], (List.append_nil _).symm, rfl, fun x hx => (by cases hx)⟩, fun x hx => (f2 x hx).1⟩
      · show (p.traces.insert s.trace t')[k]? = none ↔ (c.traces.insert s.trace _)[k]? = none
        rw [hget, hget']
        split
        · simp
        · exact hs.pending k
      · change (p.traces.insert s.trace t')[k]? = some t at ht
        change (c.traces.insert s.trace _)[k]? = some v at hv
        rw [hget] at ht; rw [hget'] at hv
        split at ht
        · next h => rw [if_pos h] at hv; cases ht; cases hv; exact hh'
        · next h => rw [if_neg h] at hv; exact (hs.holds k t v ht hv).frame fun hc => (f1 k t (Ne.symm h) ht hc).1
      · change (p.traces.insert s.trace t')[k]? = some t at ht
        change (p.traces.insert s.trace t')[k']? = some u at hu
        rw [hget] at ht hu
        split at ht
        · next h =>
          subst h
          rw [if_neg hk] at hu
          cases ht
          exact fun hc hc' => Ne.symm ((f1 k' u (Ne.symm hk) hu hc').2 hc)
        · next h =>
          split at hu
          · next h' =>
            cases hu
            exact fun hc hc' => (f1 k t (Ne.symm h) ht hc).2 hc'
          · exact hs.apart k k' t u hk ht hu
      · exact Nat.lt_of_lt_of_le (hs.sent x hx).1 m.longer
      · change (p.traces.insert s.trace t')[k]? = some t at ht
        rw [hget] at ht
        split at ht
        · cases ht; exact (f2 x hx).2
        · exact (hs.sent x hx).2 k t ht

/-- A trace leaves. -/
theorem Sim.erase {p : PWorld} {c c' : Collector} (hs : Sim p c) {k : Id} {h' : Heap} {s' : Slice} (hm : Moved p.heap (sliceOf p k) h' s') (new : List (Slice × List Span)) (hn : ∀ x ∈ new, x.1 = s' ∧ s'.cap ≠ 0) (hn1 : new.length ≤ 1)
    {bl : ExtTreeMap Id Unit} (hb : bl = c'.blacklist) (hc : c'.traces = c.traces.erase k) :
    Sim { heap := h', traces := p.traces.erase k, blacklist := bl, sent := p.sent ++ new } c' := by
  obtain ⟨f1, f2⟩ := hs.frame hm
  have hget : ∀ (k' : Id), (p.traces.erase k)[k']? = if k = k' then none else p.traces[k']? := by
    intro k'; rw [ExtTreeMap.getElem?_erase]; simp
  have hget' : ∀ (k' : Id), (c'.traces)[k']? = if k = k' then none else c.traces[k']? := by
    intro k'; rw [hc, ExtTreeMap.getElem?_erase]; simp
  have hp : ∀ (k' : Id) (t : PTree), (p.traces.erase k)[k']? = some t → k' ≠ k ∧ p.traces[k']? = some t := by
    intro k' t ht
    rw [hget] at ht
    split at ht
    · cases ht
    · next h => exact ⟨Ne.symm h, ht⟩
  refine ⟨hb, fun k' => ?_, fun k' t v ht hv => ?_, fun k1 k2 t u hk ht hu => ?_, fun x hx => ⟨?_, fun k' t ht => ?_⟩, ?_⟩
  · show (p.traces.erase k)[k']? = none ↔ _
    rw [hget, hget']
    split
    · simp
    · exact hs.pending k'
  · obtain ⟨h1, h2⟩ := hp k' t ht
    rw [hget', if_neg (Ne.symm h1)] at hv
    exact (hs.holds k' t v h2 hv).frame fun hc => (f1 k' t h1 h2 hc).1
  · exact hs.apart k1 k2 t u hk (hp _ _ ht).2 (hp _ _ hu).2
  · rcases List.mem_append.mp hx with hx | hx
    · exact Nat.lt_of_lt_of_le (hs.sent x hx).1 hm.longer
    · obtain ⟨e, hc⟩ := hn x hx
      rw [e]; exact hm.good.lt hc
  · obtain ⟨h1, h2⟩ := hp k' t ht
    rcases List.mem_append.mp hx with hx | hx
    · exact (hs.sent x hx).2 k' t h2
    · obtain ⟨e, hc⟩ := hn x hx
      intro hct
      rw [e]
      exact (f1 k' t h1 h2 hct).2 hc
  · refine List.pairwise_append.mpr ⟨hs.once, ?_, fun x hx y hy => ?_⟩
    · match new, hn1 with
      | [], _ => exact List.Pairwise.nil
      | [_], _ => exact List.pairwise_singleton _ _
    · obtain ⟨e, hc⟩ := hn y hy
      rw [e]
      exact Ne.symm ((f2 x hx).2 hc)

theorem sliceOf_some {p : PWorld} {k : Id} {t : PTree} (h : p.traces[k]? = some t) : sliceOf p k = t.slice := by
  unfold sliceOf; rw [h]; rfl

theorem emittedOf_one (id : Id) (t : Tree) (f : Fate) : emittedOf [⟨id, t, f⟩] = match f with
    | .emitted out => [out]
    | _ => [] := by
  cases f <;> rfl

theorem finishOne_sim {p : PWorld} {c : Collector} (hs : Sim p c) (extra : Id → Nat) (du ds : Time) (nf : Id → Time) (rem : List Removal) (e : Id × Tree)
    (he : c.traces[e.1]? = some e.2) (hst : finishTree (nf e.1) e.2 ≠ .stuck) :
    ∃ p' d, p.finishOne extra du ds nf e.1 = some p' ∧ Sim p' (finishOne du ds nf (c, rem) e).1 ∧ (finishOne du ds nf (c, rem) e).2 = rem ++ d ∧ Sends p p' (emittedOf d) := by
  obtain ⟨k, v⟩ := e
  dsimp only at he hst
  obtain ⟨t, ht⟩ : ∃ t, p.traces[k]? = some t := by
    cases ht : p.traces[k]? with
    | none => rw [(hs.pending k).mp ht] at he; cases he
    | some t => exact ⟨t, rfl⟩
  have hh := hs.holds k t v ht he
  rw [finishOne_eq]
  unfold PWorld.finishOne examine
  rw [ht]
  dsimp only
  rw [hh.nodeCount, hh.updated, hh.started]
  have hl : decide (v.nodeCount > 8 * 1024) = v.tooLarge := rfl
  rw [hl]
  split
  · exact ⟨p, [], rfl, hs, (List.append_nil _).symm, .refl p⟩
  · have hm0 : Moved p.heap (sliceOf p k) p.heap (sliceOf p k) := by rw [sliceOf_some ht]; exact Moved.refl hh.good
    split
    · have := hs.erase (c' := { traces := c.traces.erase k, blacklist := c.blacklist.insert k (), metrics := c.metrics.count v .tooLarge }) hm0 [] (fun x hx => by cases hx) (Nat.zero_le _) (bl := p.blacklist.insert k ())
        (by rw [hs.blacklist]) rfl
      rw [List.append_nil] at this
      exact ⟨_, _, rfl, this, rfl, ⟨[], (List.append_nil _).symm, rfl, fun x hx => (by cases hx)⟩, fun _ _ => rfl⟩
    · split
      · have := hs.erase (c' := { traces := c.traces.erase k, blacklist := c.blacklist.insert k (), metrics := c.metrics.count v .tooOld }) hm0 [] (fun x hx => by cases hx) (Nat.zero_le _) (bl := p.blacklist.insert k ())
          (by rw [hs.blacklist]) rfl
        rw [List.append_nil] at this
        exact ⟨_, _, rfl, this, rfl, ⟨[], (List.append_nil _).symm, rfl, fun x hx => (by cases hx)⟩, fun _ _ => rfl⟩
      · obtain ⟨h', o, s', e1, m, ho⟩ := finish_eq hh (extra k) (nf k) hst
        rw [e1]
        rw [← sliceOf_some ht] at m
        have f2 := (hs.frame m).2
        cases o with
        | none =>
          dsimp only at ho
          rw [ho]
          have := hs.erase (c' := { traces := c.traces.erase k, blacklist := c.blacklist, metrics := c.metrics.count v .noRoot }) m [] (fun x hx => by cases hx) (Nat.zero_le _) hs.blacklist rfl
          rw [List.append_nil] at this
          exact ⟨_, _, rfl, this, rfl, ⟨[], (List.append_nil _).symm, rfl, fun x hx => (by cases hx)⟩, fun x hx => (f2 x hx).1⟩
        | some s =>
          dsimp only at ho
          obtain ⟨rfl, hc, ho⟩ := ho
          rw [ho]
          have := hs.erase (c' := { traces := c.traces.erase k, blacklist := c.blacklist, metrics := c.metrics.count v (.emitted (s.read h')) }) m [(s, s.read h')]
            (fun x hx => by rw [List.mem_singleton.mp hx]; exact ⟨rfl, hc⟩) (Nat.le_refl _) hs.blacklist rfl
          refine ⟨_, _, rfl, this, rfl, ⟨[(s, s.read h')], rfl, rfl, fun x hx => ?_⟩, fun x hx => (f2 x hx).1⟩
          rw [List.mem_singleton.mp hx]
          obtain ⟨a, ha, hal⟩ := m.good.2 hc
          exact ⟨a, ha, by rw [hal]; exact m.good.1, by show _ = s.read h'; unfold Slice.read; rw [ha]; rfl⟩

theorem finishOne_others (du ds : Time) (nf : Id → Time) (st : Collector × List Removal) (e : Id × Tree) {k : Id} (hk : e.1 ≠ k) :
    (finishOne du ds nf st e).1.traces[k]? = st.1.traces[k]? := by
  rw [finishOne_eq]
  split
  · rfl
  · show (st.1.traces.erase e.1)[k]? = _
    rw [ExtTreeMap.getElem?_erase]
    simp [hk]

theorem foldl_congr' {α β : Type} (f g : β → α → β) (l : List α) (h : ∀ b, ∀ a ∈ l, f b a = g b a) : ∀ b, l.foldl f b = l.foldl g b := by
  induction l with
  | nil => intro b; rfl
  | cons a l ih =>
    intro b
    rw [List.foldl_cons, List.foldl_cons, h b a List.mem_cons_self]
    exact ih (fun b x hx => h b x (List.mem_cons_of_mem _ hx)) _

theorem count_sim {p : PWorld} {c : Collector} (hs : Sim p c) (l : List (Id × Tree)) (hl : ∀ e ∈ l, c.traces[e.1]? = some e.2) :
    p.count (l.map (·.1)) = spanCountOf l ∧ p.total (l.map (·.1)) = totalNodes l := by
  unfold PWorld.count PWorld.total spanCountOf totalNodes
  rw [List.foldl_map, List.foldl_map]
  have key : ∀ e ∈ l, ∃ t, p.traces[e.1]? = some t ∧ t.nodeCount = e.2.nodeCount := by
    intro e he
    have hv := hl e he
    cases ht : p.traces[e.1]? with
    | none => rw [(hs.pending _).mp ht] at hv; cases hv
    | some t => exact ⟨t, rfl, (hs.holds _ t _ ht hv).nodeCount⟩
  constructor
  · apply foldl_congr'
    intro n e he
    obtain ⟨t, ht, hn⟩ := key e he
    rw [ht]
    dsimp only
    rw [hn]
    rfl
  · apply foldl_congr'
    intro n e he
    obtain ⟨t, ht, hn⟩ := key e he
    rw [ht]
    dsimp only
    rw [hn]

theorem Sim.metrics {p : PWorld} {c c' : Collector} (hs : Sim p c) (h1 : c'.traces = c.traces) (h2 : c'.blacklist = c.blacklist) : Sim p c' :=
  ⟨by rw [h2]; exact hs.blacklist, fun k => by rw [h1]; exact hs.pending k, fun k t v ht hv => hs.holds k t v ht (by rw [← h1]; exact hv), hs.apart, hs.sent, hs.once⟩

theorem discardLoop_sim (l : List (Id × Tree)) : ∀ (n : Int) (p : PWorld) (c : Collector) (rem : List Removal) (ds dt : Nat), Sim p c → (l.map Prod.fst).Nodup → (∀ e ∈ l, c.traces[e.1]? = some e.2) →
    Sim (discardLoop (l.map (·.1)) n p) (Verif.discardLoop l n c rem ds dt).1 ∧ (discardLoop (l.map (·.1)) n p).heap = p.heap ∧ (discardLoop (l.map (·.1)) n p).sent = p.sent ∧
    ∃ d, (Verif.discardLoop l n c rem ds dt).2.1 = rem ++ d ∧ emittedOf d = [] := by
  induction l with
  | nil => exact fun n p c rem ds dt hs _ _ => ⟨hs, rfl, rfl, [], (List.append_nil _).symm, rfl⟩
  | cons e l ih =>
    intro n p c rem ds dt hs hnd hin
    obtain ⟨k, v⟩ := e
    rw [List.map_cons, List.nodup_cons] at hnd
    rw [List.map_cons]
    unfold discardLoop Verif.discardLoop
    split
    · exact ⟨hs, rfl, rfl, [], (List.append_nil _).symm, rfl⟩
    · have hv := hin (k, v) List.mem_cons_self
      dsimp only at hv ⊢
      cases ht : p.traces[k]? with
      | none => rw [(hs.pending k).mp ht] at hv; cases hv
      | some t =>
        dsimp only
        have hh := hs.holds k t v ht hv
        rw [hh.nodeCount]
        have hm0 : Moved p.heap (sliceOf p k) p.heap (sliceOf p k) := by rw [sliceOf_some ht]; exact Moved.refl hh.good
        have he := hs.erase (c' := { c with traces := c.traces.erase k }) hm0 [] (fun x hx => by cases hx) (Nat.zero_le _) hs.blacklist rfl
        rw [List.append_nil] at he
        obtain ⟨a1, a2, a3, d, a4, a5⟩ := ih (n - v.nodeCount.toNat) { p with traces := p.traces.erase k } { c with traces := c.traces.erase k } (rem ++ [⟨k, v, .discarded⟩]) (ds + v.nodeCount.toNat) (dt + 1) he hnd.2 (fun x hx => by
          show (c.traces.erase k)[x.1]? = _
          rw [ExtTreeMap.getElem?_erase]
          have hne : k ≠ x.1 := fun h => hnd.1 (by have := List.mem_map_of_mem (f := Prod.fst) hx; rw [← h] at this; exact this)
          simp [hne]
          exact hin x (List.mem_cons_of_mem _ hx))
        exact ⟨a1, a2, a3, ⟨k, v, .discarded⟩ :: d, by rw [a4, List.append_assoc]; rfl, a5⟩

theorem endTick_sim {p : PWorld} {c : Collector} {i : TickInput} (hv : i.Valid c) (s1 : Sim p (c.finishLoop i).1) :
    Sim (p.endTick (spanCountOf c.traces.toList) i) (c.tick i).1 ∧ (p.endTick (spanCountOf c.traces.toList) i).heap = p.heap ∧ (p.endTick (spanCountOf c.traces.toList) i).sent = p.sent ∧
    emittedOf (c.tick i).2 = emittedOf (c.finishLoop i).2 := by
  have key : ∃ p2, (if spanCountOf c.traces.toList > maxSpans then discard (i.sorted.map (·.1)) p else p) = p2 ∧ Sim p2 (c.shed i).1 ∧ p2.heap = p.heap ∧ p2.sent = p.sent ∧
      emittedOf (c.shed i).2 = emittedOf (c.finishLoop i).2 := by
    unfold Collector.shed
    dsimp only
    split
    · refine ⟨_, rfl, ?_⟩
      have s1' : Sim p { (c.finishLoop i).1 with metrics := { (c.finishLoop i).1.metrics with spansInflight := spanCountOf c.traces.toList, tracesInflight := (c.finishLoop i).1.traces.size } } := s1.metrics rfl rfl
      have hin' : ∀ e ∈ i.sorted, (c.finishLoop i).1.traces[e.1]? = some e.2 := fun e he => (mem_range hv.sorted).mp he
      have ht := (count_sim s1 i.sorted hin').2
      rw [totalNodes_perm hv.sorted] at ht
      unfold discard discardSuspicious
      dsimp only
      rw [ht]
      split
      · rw [List.append_nil]
        exact ⟨s1', rfl, rfl, rfl⟩
      · obtain ⟨a1, a2, a3, d', a4, a5⟩ := discardLoop_sim i.sorted (totalNodes (c.finishLoop i).1.traces.toList) p _ [] 0 0 s1' (range_keys_nodup hv.sorted) hin'
        refine ⟨a1.metrics rfl rfl, a2, a3, ?_⟩
        rw [a4, List.nil_append, emittedOf_append, a5, List.append_nil]
    · exact ⟨p, rfl, s1.metrics rfl rfl, rfl, rfl, rfl⟩
  obtain ⟨p2, e2, s2, n1, n2, n3⟩ := key
  unfold PWorld.endTick
  dsimp only
  rw [e2]
  refine ⟨⟨?_, s2.pending, s2.holds, s2.apart, s2.sent, s2.once⟩, n1, n2, n3⟩
  show trimBlacklist i.blOrder p2.blacklist = trimBlacklist i.blOrder (c.shed i).1.blacklist
  rw [s2.blacklist]

theorem Sim.others {p : PWorld} {c : Collector} (hs : Sim p c) {h : Heap} (ho : p.Others h) : Sim { p with heap := h } c :=
  ⟨hs.blacklist, hs.pending, fun k t v ht hv => (hs.holds k t v ht hv).frame (ho.2 k t ht), hs.apart, fun x hx => ⟨Nat.lt_of_lt_of_le (hs.sent x hx).1 ho.1, (hs.sent x hx).2⟩, hs.once⟩

/-- Traces that were not looked at yet are as before. -/
theorem finishSome_others (c : Collector) (i : TickInput) (looked : List (Id × Tree)) (k : Id) (h : k ∉ looked.map (·.1)) : (finishSome c i looked).1.traces[k]? = c.traces[k]? := by
  unfold finishSome
  dsimp only
  generalize hst : ((c, []) : Collector × List Removal) = st
  have : st.1.traces[k]? = c.traces[k]? := by rw [← hst]
  clear hst
  induction looked generalizing st with
  | nil => exact this
  | cons e looked ih =>
    rw [List.map_cons, List.mem_cons] at h
    refine ih (fun hm => h (Or.inr hm)) _ ?_
    rw [finishOne_others _ _ _ _ _ (fun he => h (Or.inl he.symm))]
    exact this

theorem finishSome_order (c : Collector) (i : TickInput) : finishSome c i i.order = c.finishLoop i := rfl

/-- What holds in each phase. -/
def During (p : PWorld) : Phase → World → Prop
  | .waiting, w => Sim p w.c ∧ p.sent.map (·.2) = emittedOf w.removed
  | .ticking i _ n rest, w => i.Valid w.c ∧ w.clock ≤ i.now1 ∧ n = spanCountOf w.c.traces.toList ∧ ∃ looked todo, i.order = looked ++ todo ∧ rest = todo.map (·.1) ∧
      Sim p (finishSome w.c i looked).1 ∧ p.sent.map (·.2) = emittedOf w.removed ++ emittedOf (finishSome w.c i looked).2

/-- The next trace in the loop. -/
theorem During.next {p : PWorld} {w : World} {i : TickInput} {extra : Id → Nat} {n : Nat} {id : Id} {rest : List Id} (hw : Reachable w) (h : During p (.ticking i extra n (id :: rest)) w) :
    ∃ p' d, p.finishOne extra (i.now1 - bufferTime n) (i.now2 - 5 * bufferTime n) i.nowFake id = some p' ∧ During p' (.ticking i extra n rest) w ∧ Sends p p' d := by
  obtain ⟨hv, hc, hn, looked, todo, ho, hr, hs, hm⟩ := h
  obtain ⟨e, todo', rfl, he, hr'⟩ := List.map_eq_cons_iff.mp hr.symm
  subst he
  have hnd := range_keys_nodup hv.order
  have hin : w.c.traces[e.1]? = some e.2 := (mem_range hv.order).mp (by rw [ho]; exact List.mem_append_right _ List.mem_cons_self)
  have hnot : e.1 ∉ looked.map (·.1) := by
    rw [ho, List.map_append, List.map_cons] at hnd
    intro hm
    exact (List.nodup_append.mp hnd).2.2 _ hm _ List.mem_cons_self rfl
  have he : (finishSome w.c i looked).1.traces[e.1]? = some e.2 := by rw [finishSome_others _ _ _ _ hnot]; exact hin
  obtain ⟨p', d, e1, s1, r1, n1⟩ := finishOne_sim hs extra (i.now1 - bufferTime n) (i.now2 - 5 * bufferTime n) i.nowFake (finishSome w.c i looked).2 e he
    (finishTree_ne ((reachable_inv hw).trees e.1 e.2 hin) _).2.2.2
  have hstep : finishOne (i.now1 - bufferTime n) (i.now2 - 5 * bufferTime n) i.nowFake ((finishSome w.c i looked).1, (finishSome w.c i looked).2) e = finishSome w.c i (looked ++ [e]) := by
    rw [hn]
    unfold finishSome
    dsimp only
    rw [List.foldl_append]
    rfl
  rw [hstep] at s1 r1
  refine ⟨p', _, e1, ⟨hv, hc, hn, looked ++ [e], todo', by rw [ho, List.append_assoc]; rfl, hr'.symm, s1, ?_⟩, n1⟩
  obtain ⟨⟨new, n2, n3, _⟩, _⟩ := n1
  rw [n2, List.map_append, n3, hm, r1, emittedOf_append, List.append_assoc]

end Verif.Ref
