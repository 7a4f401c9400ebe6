import Verif.Proofs.Shape
import Verif.Props.Collector
import Verif.Props.System

/-!
# C80 - C82: the shape of finished traces

`out` is an emitted trace, `t` one that the sink received from the forwarder.
-/

namespace Verif

open Spec Std

theorem emitted_links {w : World} (hw : Reachable w) {r : Removal} (hr : r ∈ w.removed) {out : List Span} (ho : r.fate = .emitted out) :
    (out.map Span.id).Nodup ∧ ∃ base r0, Repaired r.id r.tree.spans base ∧ UniqueRoot base r0 ∧ Corrected base r0 out ∧ out.map link = base.map link := by
  obtain ⟨_, _, _, hn, _⟩ := C45_emitted_traces hw hr ho
  obtain ⟨⟨base, r0, h1, h2, h3⟩, _⟩ := (removed_spec hw r hr).2 out ho
  exact ⟨hn, base, r0, h1, h2, h3, corrected_map h3 link (fun _ _ _ => rfl)⟩

theorem mem_emittedOf {l : List Removal} {out : List Span} : out ∈ emittedOf l ↔ ∃ r ∈ l, r.fate = .emitted out := by
  unfold emittedOf
  rw [List.mem_filterMap]
  refine exists_congr fun r => and_congr Iff.rfl ?_
  cases r.fate <;> simp

/-! ## C80 -/

/-- C80: an emitted trace has exactly one root candidate. -/
theorem C80_emitted {w : World} (hw : Reachable w) {r : Removal} (hr : r ∈ w.removed) {out : List Span} (ho : r.fate = .emitted out) :
    ∃ r0, UniqueRoot out r0 := by
  obtain ⟨hn, base, r0, _, h2, _, h4⟩ := emitted_links hw hr ho
  obtain ⟨r', h5, _⟩ := uniqueRoot_links h4.symm (ids_of_links h4 ▸ hn) h2
  exact ⟨r', h5⟩

/-- C80, partial: with a converter that keeps the ids, what the sink receives has exactly one root candidate, or it is a trace with several root candidates, none of which has a
parent id. Missing: the latter have several root candidates (`C80_fails`). -/
theorem C80_partial {κ : Type} {conv : κ → Span → Option Span × κ} (hc : Transparent conv) {k : κ} {outcomes : List Parsed} {s : System κ} (h : System.Reachable conv k outcomes s)
    {t : List Span} (ht : t ∈ s.sink.received) :
    (∃ r0, UniqueRoot t r0) ∨ ∃ r ∈ s.world.removed, SharedParent r.tree.spans 0 ∧ (t.map link).Perm (r.tree.spans.map link) := by
  obtain ⟨k', out, hout, rfl⟩ := convertTraces_origin ((C61_prefix h).1.subset ht)
  obtain ⟨r, hr, ho⟩ := mem_emittedOf.mp hout
  have hw : Reachable s.world := by
    obtain ⟨_, _, _, _, inv⟩ := h.inv
    exact inv.world
  obtain ⟨hn, base, r0, hrep, h2, hcor, h4⟩ := emitted_links hw hr ho
  obtain ⟨_, hid, htr, _⟩ := C45_emitted_traces hw hr ho
  have hl := convertAll_transparent hc k' out
  by_cases h0 : ∃ x ∈ out, x.id = 0
  · right
    obtain ⟨x, hx, h0⟩ := h0
    obtain ⟨hsp, _⟩ := C47_zero_ids_partial hw hr ho hx h0
    refine ⟨r, hr, hsp, ?_⟩
    rcases hrep with ⟨p, f, hsp', hfr, hperm, _⟩ | ⟨hno, _⟩
    · have hp : p = 0 := by
        obtain ⟨⟨y, _, hy, _⟩, hall⟩ := hsp
        exact (hsp'.2 y hy).symm.trans (hall y hy)
      subst hp
      have ok := (reachable_inv hw).gone r hr
      have e : (out.filter fun s => s.id ≠ 0 ∧ s.trace ≠ 0).map link = (out.map link).filter fun e => e.1 ≠ 0 := by
        rw [List.filter_map]
        congr 1
        refine List.filter_congr fun y hy => ?_
        have := htr y hy
        simp only [Function.comp, link, this]
        exact decide_eq_decide.mpr ⟨fun h => h.1, fun h => ⟨h, hid⟩⟩
      rw [hl, e, h4]
      refine ((hperm.map link).filter _).trans ?_
      rw [List.map_cons, List.filter_cons_of_neg (by simp [link, hfr.id]), List.filter_eq_self.mpr]
      intro e he
      obtain ⟨y, hy, rfl⟩ := List.mem_map.mp he
      exact decide_eq_true (ok.traced hy).2.2
    · exact absurd hsp (hno 0)
  · left
    have hf : out.filter (fun s => s.id ≠ 0 ∧ s.trace ≠ 0) = out := by
      rw [List.filter_eq_self]
      intro y hy
      have := htr y hy
      simp only [ne_eq, decide_eq_true_eq]
      exact ⟨fun h => h0 ⟨y, hy, h⟩, by rw [this]; exact hid⟩
    rw [hf] at hl
    obtain ⟨r', h5⟩ := C80_emitted hw hr ho
    obtain ⟨r'', h6, _⟩ := uniqueRoot_links hl.symm hn h5
    exact ⟨r'', h6⟩

/-- Root candidates, in terms of ids only. -/
def Spec.RootLink (L : List (Id × Id)) (x : Id × Id) : Prop := x.2 = x.1 ∨ ∀ q ∈ L, q.1 ≠ x.2
instance (L : List (Id × Id)) (x : Id × Id) : Decidable (RootLink L x) := inferInstanceAs (Decidable (_ ∨ _))

theorem isRootOf_iff {l : List Span} {s : Span} : IsRootOf l s ↔ s ∈ l ∧ RootLink (l.map link) (link s) := by
  refine and_congr Iff.rfl (or_congr Iff.rfl ?_)
  constructor
  · intro h q hq
    obtain ⟨x, hx, rfl⟩ := List.mem_map.mp hq
    exact h x hx
  · intro h q hq
    exact h _ (List.mem_map_of_mem hq)

/-- C80 does not hold as stated: of two spans without parent, the sink receives a trace with two root candidates, whatever the converter does besides keeping ids; the fake root got the
id 0 and is dropped by the forwarder. -/
theorem C80_fails {κ : Type} (conv : κ → Span → Option Span × κ) (hc : Transparent conv) (k : κ) :
    ∃ outcomes s, System.Reachable conv k outcomes s ∧ ∃ t ∈ s.sink.received, ∃ a b, IsRootOf t a ∧ IsRootOf t b ∧ a.id ≠ b.id := by
  let l : List Span := [{ id := 1, trace := 7 }, { id := 2, trace := 7 }]
  have hr : receivedFor 7 l = l := by rfl
  have hmap : (gathered 7 l).spans.map link = [(2, 0), (1, 0)] := by decide +kernel
  have hlarge : ¬ Large (gathered 7 l) := by decide +kernel
  have hshared : SharedParent (gathered 7 l).spans 0 := by
    refine ⟨?_, ?_⟩
    · obtain ⟨a, ha, ea⟩ := List.mem_map.mp (show ((2 : Id), (0 : Id)) ∈ (gathered 7 l).spans.map link by rw [hmap]; simp)
      obtain ⟨b, hb, eb⟩ := List.mem_map.mp (show ((1 : Id), (0 : Id)) ∈ (gathered 7 l).spans.map link by rw [hmap]; simp)
      refine ⟨a, b, isRootOf_iff.mpr ⟨ha, ?_⟩, isRootOf_iff.mpr ⟨hb, ?_⟩, ?_⟩
      · rw [hmap, ea]; decide
      · rw [hmap, eb]; decide
      · rw [show a.id = 2 from congrArg Prod.fst ea, show b.id = 1 from congrArg Prod.fst eb]; decide
    · intro q hq
      have := List.mem_map_of_mem (f := link) hq.1
      rw [hmap] at this
      have h' : (link q).2 = 0 := (show ∀ x ∈ [((2 : Id), (0 : Id)), (1, 0)], x.2 = 0 by decide) _ this
      exact h'
  obtain ⟨w, out, hw, ho, hf⟩ := flood_emits l 7 (by rw [hr]; simp [l]) (by rw [hr]; decide) (by rw [hr]; exact hlarge)
    (by
      rw [hr]; right
      refine ⟨⟨0, hshared⟩, ?_⟩
      intro q hq
      have := List.mem_map_of_mem (f := link) hq
      rw [hmap] at this
      have h' : (link q).1 ≠ 7 := (show ∀ x ∈ [((2 : Id), (0 : Id)), (1, 0)], x.1 ≠ 7 by decide) _ this
      exact h')
  rw [hr] at ho hf
  obtain ⟨outcomes, s, h1, _, rfl, h3⟩ := C61_adequate conv k hw
  obtain ⟨k', ht⟩ := mem_convertTraces conv k (mem_emittedOf.mpr ⟨_, ho, rfl⟩)
  refine ⟨outcomes, s, h1, (convertAll conv k' out).1, by rw [h3]; exact ht, ?_⟩
  obtain ⟨base, r0, hrep, _, hcor⟩ := hf
  have h4 := corrected_map hcor link (fun _ _ _ => rfl)
  obtain ⟨_, _, htr, _⟩ := C45_emitted_traces hw ho rfl
  have hl : ((convertAll conv k' out).1.map link).Perm [(2, 0), (1, 0)] := by
    rw [convertAll_transparent hc k' out]
    have e : (out.filter fun s => s.id ≠ 0 ∧ s.trace ≠ 0).map link = (out.map link).filter fun e => e.1 ≠ 0 := by
      rw [List.filter_map]
      congr 1
      refine List.filter_congr fun y hy => ?_
      have := htr y hy
      simp only [Function.comp, link, this]
      exact decide_eq_decide.mpr ⟨fun h => h.1, fun h => ⟨h, by decide⟩⟩
    rw [e, h4]
    rcases hrep with ⟨p, f, hsp', hfr, hperm, _⟩ | ⟨hno, _⟩
    · have hp : p = 0 := by
        obtain ⟨⟨y, _, hy, _⟩, hall⟩ := hshared
        exact (hsp'.2 y hy).symm.trans (hall y hy)
      subst hp
      refine ((hperm.map link).filter _).trans ?_
      rw [List.map_cons, List.filter_cons_of_neg (by simp [link, hfr.id]), hmap]
      exact List.Perm.refl _
    · exact absurd hshared (hno 0)
  obtain ⟨a, ha, ea⟩ := List.mem_map.mp (hl.mem_iff.mpr (show ((2 : Id), (0 : Id)) ∈ [((2 : Id), (0 : Id)), (1, 0)] by simp))
  obtain ⟨b, hb, eb⟩ := List.mem_map.mp (hl.mem_iff.mpr (show ((1 : Id), (0 : Id)) ∈ [((2 : Id), (0 : Id)), (1, 0)] by simp))
  have hroot : ∀ x : Id × Id, x.2 = 0 → RootLink ((convertAll conv k' out).1.map link) x := by
    intro x hx
    right
    intro q hq
    rw [hx]
    exact (show ∀ x ∈ [((2 : Id), (0 : Id)), (1, 0)], x.1 ≠ 0 by decide) _ (hl.mem_iff.mp hq)
  refine ⟨a, b, isRootOf_iff.mpr ⟨ha, hroot _ (by rw [ea])⟩, isRootOf_iff.mpr ⟨hb, hroot _ (by rw [eb])⟩, ?_⟩
  rw [show a.id = 2 from congrArg Prod.fst ea, show b.id = 1 from congrArg Prod.fst eb]; decide

/-- Converters that keep the ids exist: the one that changes nothing, … -/
example : Transparent (fun (_ : Unit) s => (some s, ())) := fun _ s => ⟨s, rfl, rfl, rfl⟩
/-- … or one that counts the spans and renames them. -/
example : Transparent (fun (n : Nat) s => (some { s with name := b!"renamed" }, n + 1)) := fun _ _ => ⟨_, rfl, rfl, rfl⟩

/-! ## C81 -/

/-- C81, partial: in an emitted trace, the spans whose parent links do not run into a cycle are exactly the descendants of the root; without cycles the trace is a tree.
Missing: traces with cycles, which are emitted as well (`C81_fails`). -/
theorem C81_partial {w : World} (hw : Reachable w) {r : Removal} (hr : r ∈ w.removed) {out : List Span} (ho : r.fate = .emitted out) :
    ((∀ s ∈ out, ¬ Above out s s) ↔ IsTree out) ∧
    ∃ r0, UniqueRoot out r0 ∧ ∀ s ∈ out, (∃ anc, Path out r0 anc s) ↔ ¬ Lost out s := by
  obtain ⟨hn, _⟩ := emitted_links hw hr ho
  obtain ⟨r0, h0⟩ := C80_emitted hw hr ho
  refine ⟨⟨fun h => ⟨r0, h0, fun s hs => (path_iff_not_lost hn h0 hs).mpr ?_⟩, ?_⟩, r0, h0, fun s hs => path_iff_not_lost hn h0 hs⟩
  · rintro ⟨c, hc, _⟩
    exact h c hc.mem.1 hc
  · rintro ⟨r1, h1, h2⟩ s hs ha
    exact (path_iff_not_lost hn h1 hs).mp (h2 s hs) ⟨s, ha, .inl rfl⟩

/-- A root, and two spans that are each other's parent. -/
def cycleSpans : List Span :=
  [{ id := 1, trace := 7, timestamp := 1600000000000000000 }, { id := 2, trace := 7, parent := 3, timestamp := 5 }, { id := 3, trace := 7, parent := 2 }]

theorem cycle_emitted : ∃ w out r0 s, Reachable w ∧ (∃ r ∈ w.removed, r.fate = .emitted out) ∧ UniqueRoot out r0 ∧ s ∈ out ∧
    Above out s s ∧ s.timestamp = 5 ∧ r0.timestamp = 1600000000000000000 := by
  have hr : receivedFor 7 cycleSpans = cycleSpans := by rfl
  have hmap : (gathered 7 cycleSpans).spans.map (fun s => (link s, s.timestamp, s.timings.CS)) = [((3, 2), 0, 0), ((2, 3), 5, 0), ((1, 0), 1600000000000000000, 0)] := by decide +kernel
  have hlinks : (gathered 7 cycleSpans).spans.map link = [(3, 2), (2, 3), (1, 0)] := by
    have := congrArg (List.map Prod.fst) hmap
    rwa [List.map_map] at this
  have hlarge : ¬ Large (gathered 7 cycleSpans) := by decide +kernel
  have honly : ∀ q, IsRootOf (gathered 7 cycleSpans).spans q → link q = (1, 0) := by
    intro q hq
    have h1 := (isRootOf_iff.mp hq).2
    have h2 := List.mem_map_of_mem (f := link) hq.1
    rw [hlinks] at h1 h2
    exact (show ∀ x ∈ [((3 : Id), (2 : Id)), (2, 3), (1, 0)], RootLink [(3, 2), (2, 3), (1, 0)] x → x = (1, 0) by decide) _ h2 h1
  obtain ⟨x0, hx0, e0⟩ := List.mem_map.mp (show (((1 : Id), (0 : Id)), (1600000000000000000 : Timestamp), (0 : Timestamp)) ∈ (gathered 7 cycleSpans).spans.map (fun s => (link s, s.timestamp, s.timings.CS)) by rw [hmap]; simp)
  obtain ⟨x2, hx2, e2⟩ := List.mem_map.mp (show (((2 : Id), (3 : Id)), (5 : Timestamp), (0 : Timestamp)) ∈ (gathered 7 cycleSpans).spans.map (fun s => (link s, s.timestamp, s.timings.CS)) by rw [hmap]; simp)
  obtain ⟨x3, hx3, e3⟩ := List.mem_map.mp (show (((3 : Id), (2 : Id)), (0 : Timestamp), (0 : Timestamp)) ∈ (gathered 7 cycleSpans).spans.map (fun s => (link s, s.timestamp, s.timings.CS)) by rw [hmap]; simp)
  simp only [Prod.mk.injEq] at e0 e2 e3
  have hnd : ((gathered 7 cycleSpans).spans.map Span.id).Nodup := by
    rw [show (gathered 7 cycleSpans).spans.map Span.id = ((gathered 7 cycleSpans).spans.map link).map Prod.fst by rw [List.map_map]; rfl, hlinks]
    decide
  have hroot : UniqueRoot (gathered 7 cycleSpans).spans x0 := by
    refine ⟨isRootOf_iff.mpr ⟨hx0, ?_⟩, fun q hq => ?_⟩
    · rw [hlinks, e0.1]; decide
    · exact mem_eq_of_id hnd hq.1 hx0 (congrArg Prod.fst ((honly q hq).trans e0.1.symm))
  obtain ⟨w, out, hw, ho, hf⟩ := flood_emits cycleSpans 7 (by rw [hr]; simp [cycleSpans]) (by rw [hr]; decide) (by rw [hr]; exact hlarge)
    (by rw [hr]; exact .inl ⟨x0, hroot⟩)
  rw [hr] at ho hf
  have hcyc : Above (gathered 7 cycleSpans).spans x2 x2 := by
    obtain ⟨a1, a2⟩ := link_eq (show link x2 = link { id := 2, parent := 3 } from e2.1)
    obtain ⟨b1, b2⟩ := link_eq (show link x3 = link { id := 3, parent := 2 } from e3.1)
    refine .step (p := x3) (.parent hx2 hx3 ?_ ?_) hx2 ?_ ?_
    · rw [b2, a1]
    · rw [b2, b1]; decide
    · rw [a2, b1]
    · rw [a2, a1]; decide
  obtain ⟨base, r0, hrep, h2, hcor⟩ := hf
  have hbase : base = (gathered 7 cycleSpans).spans := by
    rcases hrep with ⟨p, f, ⟨⟨a, b, ha, hb, hab⟩, _⟩, _⟩ | ⟨_, h⟩
    · exact absurd (congrArg Prod.fst ((honly a ha).trans (honly b hb).symm)) hab
    · exact h
  subst hbase
  have : r0 = x0 := hroot.2 r0 h2.1
  subst this
  have h4 := corrected_map hcor link (fun _ _ _ => rfl)
  obtain ⟨i, hi⟩ := List.getElem?_of_mem hx0
  obtain ⟨j, hj⟩ := List.getElem?_of_mem hx2
  have hi' := ((hcor.2 i r0 hi).1 [] .root)
  have hj' := (hcor.2 j x2 hj).2 fun anc hp => hp.not_cyclic hnd h2.1 _ (Nat.le_refl _) hcyc
  have hm : x2 ∈ out := List.mem_of_getElem? hj'
  have hm0 : corrected [] r0 ∈ out := List.mem_of_getElem? hi'
  obtain ⟨r1, hr1, er1⟩ := uniqueRoot_links h4.symm hnd h2
  have : corrected [] r0 = r1 := mem_eq_of_id (ids_of_links h4 ▸ hnd) hm0 hr1.1.1 (link_eq er1).1.symm
  subst this
  refine ⟨w, out, corrected [] r0, x2, hw, ⟨_, ho, rfl⟩, hr1, hm, above_links h4.symm hcyc hm hm rfl rfl, e2.2.1, ?_⟩
  show start [] r0 = _
  have hnt : ¬ HasAllTimings r0 := fun h => h.1 e0.2.2
  rw [start, shiftedStart, if_neg hnt, e0.2.1]
  rfl

/-- C81 does not hold as stated: two spans that are each other's parent are emitted beside a root. -/
theorem C81_fails : ∃ w, Reachable w ∧ ∃ r ∈ w.removed, ∃ out, r.fate = .emitted out ∧ ¬ IsTree out := by
  obtain ⟨w, out, r0, s, hw, ⟨r, hr, ho⟩, _, hs, ha, _⟩ := cycle_emitted
  exact ⟨w, hw, r, hr, out, ho, fun h => (C81_partial hw hr ho).1.mpr h s hs ha⟩

/-! ## C82 -/

/-- C82, partial: in an emitted trace, every span whose parent links do not run into a cycle starts in or after 2020, or with the root; if the root does not start before 2020, none of
them does. Missing: spans whose parent links run into a cycle (`C82_fails`). -/
theorem C82_partial {w : World} (hw : Reachable w) {r : Removal} (hr : r ∈ w.removed) {out : List Span} (ho : r.fate = .emitted out) :
    ∃ r0, UniqueRoot out r0 ∧ (∀ s ∈ out, ¬ Lost out s → year2020 ≤ s.timestamp ∨ s.timestamp = r0.timestamp) ∧
      (year2020 ≤ r0.timestamp → ∀ s ∈ out, ¬ Lost out s → year2020 ≤ s.timestamp) := by
  obtain ⟨hn, base, b0, _, h2, hcor, h4⟩ := emitted_links hw hr ho
  have hnb : (base.map Span.id).Nodup := ids_of_links h4 ▸ hn
  obtain ⟨i, hi⟩ := List.getElem?_of_mem h2.1.1
  have hm0 : corrected [] b0 ∈ out := List.mem_of_getElem? ((hcor.2 i b0 hi).1 [] .root)
  obtain ⟨r1, hr1, er1⟩ := uniqueRoot_links h4.symm hnb h2
  have he : corrected [] b0 = r1 := mem_eq_of_id hn hm0 hr1.1.1 (link_eq er1).1.symm
  have key : ∀ s ∈ out, ¬ Lost out s → year2020 ≤ s.timestamp ∨ s.timestamp = r1.timestamp := by
    intro s hs hl
    obtain ⟨anc, hp⟩ := (path_iff_not_lost hn hr1 hs).mpr hl
    obtain ⟨b, hb, eb⟩ := links_mem h4 hs
    obtain ⟨anc', hp'⟩ := path_links h4 hn hr1.1.1 h2.1.1 er1.symm hp hb eb
    obtain ⟨j, hj⟩ := List.getElem?_of_mem hb
    have hc : corrected anc' b ∈ out := List.mem_of_getElem? ((hcor.2 j b hj).1 anc' hp')
    have : corrected anc' b = s := mem_eq_of_id hn hc hs (link_eq eb).1
    subst this
    subst he
    exact start_not_broken hp'
  refine ⟨r1, hr1, key, fun h s hs hl => ?_⟩
  rcases key s hs hl with h' | h'
  · exact h'
  · rw [h']; exact h

/-- C82 does not hold as stated: a span on a cycle keeps its start in 1970, though the root starts in 2020. -/
theorem C82_fails : ∃ w, Reachable w ∧ ∃ r ∈ w.removed, ∃ out, r.fate = .emitted out ∧ ∃ r0, UniqueRoot out r0 ∧ year2020 ≤ r0.timestamp ∧
    ∃ s ∈ out, s.timestamp < year2020 := by
  obtain ⟨w, out, r0, s, hw, ⟨r, hr, ho⟩, h0, hs, _, ht, ht0⟩ := cycle_emitted
  exact ⟨w, hw, r, hr, out, ho, r0, h0, by rw [ht0]; decide, s, hs, by rw [ht]; decide⟩

end Verif
