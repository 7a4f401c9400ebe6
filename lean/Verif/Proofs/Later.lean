import Verif.Proofs.Observe
import Verif.Spec.Later

/-!
# Histories that are later
-/

namespace Verif

open Spec Std

/-- The tree if all readings of the clock are later by `d`. -/
def Tree.later (d : Time) (t : Tree) : Tree := { t with started := t.started + d, updated := t.updated + d }

def laterEntry (d : Time) (e : Id × Tree) : Id × Tree := (e.1, e.2.later d)

def laterMap (d : Time) (m : ExtTreeMap Id Tree) : ExtTreeMap Id Tree := m.map fun _ t => t.later d

def Removal.later (d : Time) (r : Removal) : Removal := ⟨r.id, r.tree.later d, r.fate⟩

def Collector.later (d : Time) (c : Collector) : Collector := { c with traces := laterMap d c.traces }

def World.later (d : Time) (w : World) : World := { w with c := w.c.later d, removed := w.removed.map (Removal.later d), clock := w.clock + d }

def TickInput.later (d : Time) (i : TickInput) : TickInput :=
  { now1 := i.now1 + d, now2 := i.now2 + d, nowFake := fun id => i.nowFake id + d, order := i.order.map (laterEntry d), sorted := i.sorted.map (laterEntry d), blOrder := i.blOrder }

theorem laterMap_get (d : Time) (m : ExtTreeMap Id Tree) (k : Id) : (laterMap d m)[k]? = (m[k]?).map (Tree.later d) := ExtTreeMap.getElem?_map

theorem laterMap_insert (d : Time) (m : ExtTreeMap Id Tree) (k : Id) (t : Tree) : laterMap d (m.insert k t) = (laterMap d m).insert k (t.later d) := by
  apply ExtTreeMap.ext_getElem?
  intro a
  rw [laterMap_get, ExtTreeMap.getElem?_insert, ExtTreeMap.getElem?_insert, laterMap_get]
  split <;> rfl

theorem laterMap_erase (d : Time) (m : ExtTreeMap Id Tree) (k : Id) : laterMap d (m.erase k) = (laterMap d m).erase k := by
  apply ExtTreeMap.ext_getElem?
  intro a
  rw [laterMap_get, ExtTreeMap.getElem?_erase, ExtTreeMap.getElem?_erase, laterMap_get]
  split <;> rfl

theorem laterMap_toList (d : Time) (m : ExtTreeMap Id Tree) : (laterMap d m).toList = m.toList.map (laterEntry d) := ExtTreeMap.toList_map

theorem laterMap_size (d : Time) (m : ExtTreeMap Id Tree) : (laterMap d m).size = m.size := by
  rw [← ExtTreeMap.length_toList, laterMap_toList, List.length_map, ExtTreeMap.length_toList]

theorem laterMap_range {d : Time} {m : ExtTreeMap Id Tree} {l : List (Id × Tree)} (h : IsRange l m) : IsRange (l.map (laterEntry d)) (laterMap d m) := by
  unfold IsRange at *
  rw [laterMap_toList]
  exact h.map _

theorem newTree_later (d now : Time) (k : Id) : (newTree now k).later d = newTree (now + d) k := rfl

theorem addSpan_later (d now : Time) (t : Tree) (s : Span) : (t.addSpan now s).later d = (t.later d).addSpan (now + d) s := by
  unfold Tree.addSpan
  show Tree.later d (match getSpanRef t.spans s.id with | none => _ | some idx => _) = (match getSpanRef t.spans s.id with | none => _ | some idx => _)
  cases getSpanRef t.spans s.id <;> rfl

theorem receive_later (d now1 now2 : Time) (c : Collector) (s : Span) : (c.receive now1 now2 s).later d = (c.later d).receive (now1 + d) (now2 + d) s := by
  unfold Collector.receive
  split
  · rfl
  · show Collector.later d (if c.blacklist.contains s.trace then _ else _) = (if c.blacklist.contains s.trace then _ else _)
    split
    · rfl
    · show Collector.mk (laterMap d (c.traces.insert _ _)) c.blacklist c.metrics = Collector.mk ((laterMap d c.traces).insert _ _) c.blacklist c.metrics
      have e : (c.later d).traces[s.trace]? = (c.traces[s.trace]?).map (Tree.later d) := laterMap_get ..
      rw [laterMap_insert, addSpan_later, e]
      cases c.traces[s.trace]? <;> rfl

theorem spanCountOf_later (d : Time) (l : List (Id × Tree)) : spanCountOf (l.map (laterEntry d)) = spanCountOf l := by
  unfold spanCountOf
  rw [List.foldl_map]; rfl

theorem totalNodes_later (d : Time) (l : List (Id × Tree)) : totalNodes (l.map (laterEntry d)) = totalNodes l := by
  unfold totalNodes
  rw [List.foldl_map]; rfl

theorem withFakeRoot_later (d now : Time) (t : Tree) : (withFakeRoot now t).later d = withFakeRoot (now + d) (t.later d) := by
  unfold withFakeRoot
  show Tree.later d (match pick t.spans (roots t.spans) with | first :: second :: rest => _ | _ => _) = (match pick t.spans (roots t.spans) with | first :: second :: rest => _ | _ => _)
  split
  · split
    · exact addSpan_later _ _ _ _
    · rfl
  · rfl

theorem finishTree_later (d now : Time) (t : Tree) : finishTree (now + d) (t.later d) = finishTree now t := by
  unfold finishTree
  rw [← withFakeRoot_later]; rfl

/-- The result of a loop, later. -/
def laterPair (d : Time) (p : Collector × List Removal) : Collector × List Removal := (p.1.later d, p.2.map (Removal.later d))

theorem finishOne_later (d du ds : Time) (nf : Id → Time) (st : Collector × List Removal) (e : Id × Tree) :
    laterPair d (finishOne du ds nf st e) = finishOne (du + d) (ds + d) (fun id => nf id + d) (laterPair d st) (laterEntry d e) := by
  obtain ⟨c, rem⟩ := st
  obtain ⟨k, t⟩ := e
  have h1 : (t.later d).updated > du + d ↔ t.updated > du := by
    show t.updated + d > du + d ↔ t.updated > du
    unfold Time at *; omega
  have h2 : (t.later d).started < ds + d ↔ t.started < ds := by
    show t.started + d < ds + d ↔ t.started < ds
    unfold Time at *; omega
  have h3 : (t.later d).tooLarge = t.tooLarge := rfl
  simp only [finishOne, laterPair, laterEntry, h1, h2, h3, finishTree_later]
  split
  · rfl
  · split
    · simp only [Collector.later, laterMap_erase, List.map_append]; rfl
    · split
      · simp only [Collector.later, laterMap_erase, List.map_append]; rfl
      · split <;> (simp only [Collector.later, laterMap_erase, List.map_append]; rfl)

theorem finishLoop_later (d : Time) (c : Collector) (i : TickInput) : (c.later d).finishLoop (i.later d) = laterPair d (c.finishLoop i) := by
  have key : ∀ (du ds : Time) (nf : Id → Time) (l : List (Id × Tree)) (st : Collector × List Removal),
      (l.map (laterEntry d)).foldl (finishOne (du + d) (ds + d) fun id => nf id + d) (laterPair d st) = laterPair d (l.foldl (finishOne du ds nf) st) := by
    intro du ds nf l
    induction l with
    | nil => intro st; rfl
    | cons e l ih =>
      intro st
      rw [List.map_cons, List.foldl_cons, List.foldl_cons, ← finishOne_later, ih]
  unfold Collector.finishLoop
  have hs : spanCountOf (c.later d).traces.toList = spanCountOf c.traces.toList := by
    show spanCountOf (laterMap d c.traces).toList = _
    rw [laterMap_toList, spanCountOf_later]
  simp only [hs]
  have e1 : (i.later d).now1 - bufferTime (spanCountOf c.traces.toList) = (i.now1 - bufferTime (spanCountOf c.traces.toList)) + d := by
    show i.now1 + d - _ = _
    generalize bufferTime (spanCountOf c.traces.toList) = b
    unfold Time at *; omega
  have e2 : (i.later d).now2 - 5 * bufferTime (spanCountOf c.traces.toList) = (i.now2 - 5 * bufferTime (spanCountOf c.traces.toList)) + d := by
    show i.now2 + d - _ = _
    generalize bufferTime (spanCountOf c.traces.toList) = b
    unfold Time at *; omega
  rw [e1, e2]
  exact key _ _ _ _ (c, [])

theorem discardLoop_later (d : Time) (l : List (Id × Tree)) : ∀ (n : Int) (c : Collector) (rem : List Removal) (ds dt : Nat),
    discardLoop (l.map (laterEntry d)) n (c.later d) (rem.map (Removal.later d)) ds dt =
      ((discardLoop l n c rem ds dt).1.later d, (discardLoop l n c rem ds dt).2.1.map (Removal.later d), (discardLoop l n c rem ds dt).2.2) := by
  induction l with
  | nil => intros; rfl
  | cons e l ih =>
    intro n c rem ds dt
    obtain ⟨k, t⟩ := e
    rw [List.map_cons, laterEntry, discardLoop, discardLoop]
    split
    · rfl
    · have := ih (n - t.nodeCount.toNat) { c with traces := c.traces.erase k } (rem ++ [⟨k, t, .discarded⟩]) (ds + t.nodeCount.toNat) (dt + 1)
      rw [← this]
      simp only [Collector.later, laterMap_erase, List.map_append]; rfl

theorem discardSuspicious_later (d : Time) (l : List (Id × Tree)) (c : Collector) : discardSuspicious (l.map (laterEntry d)) (c.later d) = laterPair d (discardSuspicious l c) := by
  unfold discardSuspicious
  have hs : totalNodes (c.later d).traces.toList = totalNodes c.traces.toList := by
    show totalNodes (laterMap d c.traces).toList = _
    rw [laterMap_toList, totalNodes_later]
  simp only [hs]
  split
  · rfl
  · have := discardLoop_later d l (totalNodes c.traces.toList) c [] 0 0
    rw [List.map_nil] at this
    rw [this]; rfl

theorem shed_later (d : Time) (c : Collector) (i : TickInput) : (c.later d).shed (i.later d) = laterPair d (c.shed i) := by
  unfold Collector.shed
  have hs : spanCountOf (c.later d).traces.toList = spanCountOf c.traces.toList := by
    show spanCountOf (laterMap d c.traces).toList = _
    rw [laterMap_toList, spanCountOf_later]
  have hz : ((c.finishLoop i).1.later d).traces.size = (c.finishLoop i).1.traces.size := laterMap_size _ _
  simp only [hs, finishLoop_later, laterPair, hz]
  split
  · have := discardSuspicious_later d i.sorted { (c.finishLoop i).1 with metrics := { (c.finishLoop i).1.metrics with spansInflight := spanCountOf c.traces.toList, tracesInflight := (c.finishLoop i).1.traces.size } }
    have e1 := congrArg Prod.fst this
    have e2 := congrArg Prod.snd this
    refine Prod.ext ?_ ?_
    · exact e1
    · show _ ++ _ = List.map _ (_ ++ _)
      rw [List.map_append]
      exact congrArg _ e2
  · rfl

theorem tick_later (d : Time) (c : Collector) (i : TickInput) : (c.later d).tick (i.later d) = laterPair d (c.tick i) := by
  unfold Collector.tick
  simp only [shed_later]; rfl

theorem valid_later {d : Time} {c : Collector} {i : TickInput} (h : i.Valid c) : (i.later d).Valid (c.later d) where
  order := laterMap_range h.order
  sorted := by rw [finishLoop_later]; exact laterMap_range h.sorted
  desc := by
    show (i.sorted.map (laterEntry d)).Pairwise _
    rw [List.pairwise_map]; exact h.desc
  blOrder := by rw [shed_later]; exact h.blOrder
  clock := by
    have := h.clock
    show i.now1 + d ≤ i.now2 + d
    unfold Time at *; omega

theorem after_later (d : Time) {start : Time} {l : List Happening} {w : World} (h : After start l w) : After (start + d) (l.map (Happening.later d)) (w.later d) := by
  induction h with
  | start =>
    have : ({ clock := start } : World).later d = { clock := start + d } := by
      unfold World.later Collector.later laterMap
      congr 2
    rw [this]; exact .start
  | @receive l w now1 now2 s h h1 h2 ih =>
    have e : (w.receive now1 now2 s).later d = (w.later d).receive (now1 + d) (now2 + d) s := by
      unfold World.receive World.later
      simp only [receive_later]; rfl
    rw [e]
    refine After.receive ih ?_ ?_
    · show w.clock + d ≤ now1 + d
      unfold Time at *; omega
    · unfold Time at *; omega
  | @tick l w i h hv h1 ih =>
    have e : (w.tick i).later d = (w.later d).tick (i.later d) := by
      unfold World.tick
      have := tick_later d w.c i
      simp only [World.later, this, laterPair, List.map_append]; rfl
    rw [e]
    refine After.tick (i := i.later d) ih (valid_later hv) ?_
    show w.clock + d ≤ i.now1 + d
    unfold Time at *; omega

end Verif
